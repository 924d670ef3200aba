/-!
# C54: identifiers of proof nodes (`src/Glob/helper.go`)

`IncrCptNode` increments the counter while it holds the lock, and reads it after it has released the lock.
-/

namespace Verif.Glob.NodeId

/-- A goroutine that asks for identifiers. -/
structure Thread where
  /-- between the release of the lock and the read -/
  pending : Bool := false
  /-- how many identifiers it will still ask for -/
  todo : Nat
deriving DecidableEq, Repr

/-- The counter (`cpt_node`, src/Glob/helper.go:69), the goroutines, the identifiers given so far. -/
structure St where
  cpt : Int := -1
  ts : List Thread
  given : List Int := []
deriving DecidableEq, Repr

/-- One step of goroutine `i`: the locked increment, or the read of `GetCptNode` (src/Glob/helper.go:191-200). -/
def St.step (s : St) (i : Nat) : St :=
  match s.ts[i]? with
  | none => s
  | some t =>
    if t.pending then { s with ts := s.ts.set i { t with pending := false }, given := s.given ++ [s.cpt] }
    else match t.todo with
      | 0 => s
      | n + 1 => { s with cpt := s.cpt + 1, ts := s.ts.set i ⟨true, n⟩ }

def St.run : List Nat → St → St
  | [], s => s
  | i :: is, s => St.run is (s.step i)

/-- **C54**, the full claim: identifiers given by different calls are different. -/
def C54_statement : Prop :=
  ∀ (ts : List Thread) (sched : List Nat), (∀ t ∈ ts, t.pending = false) → (St.run sched { ts := ts }).given.Nodup

/-- Two goroutines increment, then both read: both nodes get number 1. -/
theorem C54_violated : (St.run [0, 1, 0, 1] { ts := [⟨false, 1⟩, ⟨false, 1⟩] }).given = [1, 1] := by decide

theorem C54_statement_false : ¬ C54_statement := by
  intro h
  have := h [⟨false, 1⟩, ⟨false, 1⟩] [0, 1, 0, 1] (by decide)
  rw [C54_violated] at this
  simp at this

/-- A schedule in which nobody else runs between the increment and the read: pairs of steps. -/
def pairs (is : List Nat) : List Nat := is.flatMap fun i => [i, i]

/-- **C54 for calls that do not overlap**: the identifiers are 0, 1, 2, ... -/
theorem C54_sequential_partial (ts : List Thread) (is : List Nat) (hp : ∀ t ∈ ts, t.pending = false) :
    ∃ n : Nat, (St.run (pairs is) { ts := ts }).given = (List.range n).map (Nat.cast : Nat → Int) := by
  have gen : ∀ (is : List Nat) (s : St) (n : Nat), (∀ t ∈ s.ts, t.pending = false) → s.cpt = (n : Int) - 1 →
      s.given = (List.range n).map (Nat.cast : Nat → Int) →
      ∃ n : Nat, (St.run (pairs is) s).given = (List.range n).map (Nat.cast : Nat → Int) := by
    intro is
    induction is with
    | nil => exact fun s n _ _ hg => ⟨n, hg⟩
    | cons i is ih =>
      intro s n hp hc hg
      have e : pairs (i :: is) = i :: i :: pairs is := rfl
      rw [e]
      simp only [St.run]
      cases hi : s.ts[i]? with
      | none =>
        have h1 : s.step i = s := by unfold St.step; rw [hi]
        rw [h1, h1]; exact ih s n hp hc hg
      | some t =>
        have hpt := hp t (List.mem_of_getElem? hi)
        cases ht : t.todo with
        | zero =>
          have h1 : s.step i = s := by unfold St.step; rw [hi]; simp [hpt, ht]
          rw [h1, h1]; exact ih s n hp hc hg
        | succ k =>
          have h1 : s.step i = { s with cpt := s.cpt + 1, ts := s.ts.set i ⟨true, k⟩ } := by
            unfold St.step; rw [hi]; simp [hpt, ht]
          have hlt : i < s.ts.length := (List.getElem?_eq_some_iff.1 hi).1
          rw [h1]
          have h2 : St.step { s with cpt := s.cpt + 1, ts := s.ts.set i ⟨true, k⟩ } i =
              { cpt := s.cpt + 1, ts := s.ts.set i ⟨false, k⟩, given := s.given ++ [s.cpt + 1] } := by
            simp only [St.step, List.getElem?_set_self hlt, if_true, List.set_set]
          rw [h2]
          apply ih _ (n + 1)
          · intro t' ht'
            rcases List.mem_or_eq_of_mem_set ht' with h | h
            · exact hp t' h
            · rw [h]
          · simp only [hc]; omega
          · simp only [hg, hc, List.range_succ, List.map_append, List.map_cons, List.map_nil]
            congr 2; omega
  exact gen is { ts := ts } 0 hp (by simp) (by simp)

/-- Two goroutines, four identifiers. -/
example : (St.run (pairs [0, 1, 1, 0]) { ts := [⟨false, 2⟩, ⟨false, 2⟩] }).given = [0, 1, 2, 3] := by decide

/-- **C54 (bound).** Nobody is given a number that has not been counted yet. -/
theorem C54_given_le_counter (ts : List Thread) (sched : List Nat) :
    ∀ x ∈ (St.run sched { ts := ts }).given, x ≤ (St.run sched { ts := ts }).cpt := by
  have mono : ∀ (s : St) (i : Nat), s.cpt ≤ (s.step i).cpt := by
    intro s i
    unfold St.step
    split
    · exact Int.le_refl _
    · split
      · exact Int.le_refl _
      · split
        · exact Int.le_refl _
        · simp only; omega
  have gen : ∀ (sched : List Nat) (s : St), (∀ x ∈ s.given, x ≤ s.cpt) →
      ∀ x ∈ (St.run sched s).given, x ≤ (St.run sched s).cpt := by
    intro sched
    induction sched with
    | nil => exact fun s h => h
    | cons i is ih =>
      intro s h
      apply ih
      intro x hx
      have hm := mono s i
      unfold St.step at hx hm ⊢
      cases hi : s.ts[i]? with
      | none => simp only [hi] at hx ⊢; exact h x hx
      | some t =>
        simp only [hi] at hx hm ⊢
        by_cases hp : t.pending = true
        · simp only [hp, if_true, List.mem_append, List.mem_singleton] at hx ⊢
          rcases hx with hx | hx
          · exact h x hx
          · rw [hx]; exact Int.le_refl _
        · simp only [hp, Bool.false_eq_true, if_false] at hx hm ⊢
          cases ht : t.todo with
          | zero => simp only [ht] at hx ⊢; exact h x hx
          | succ k =>
            simp only [ht] at hx hm ⊢
            exact Int.le_trans (h x hx) hm
  exact gen sched { ts := ts } (by simp)

end Verif.Glob.NodeId
