import Verif.Unif.Subst
/-!
# `eliminateList` replaces all occurrences (src/Unif/substitutions_type.go:338-378)

The model of `Eliminate` (`Verif.Unif.Subst`) takes `eliminateList` as the replacement of all
occurrences of the key with a flag that says if there was one. Here the two nested loops of the
function are modelled as they are written and shown to compute that, if the key does not occur in the
value; this is the check `Eliminate` makes before (line 281). Without the check the loops would not end.
-/

namespace Verif.Unif.ElimList

/-- One round of the loop of `eliminateList` (lines 347-369); `rec` is the recursive call for the
arguments of a function, whose flag is the flag of the round. -/
def pass (key : Nat) (value : UT) (rec : List UT → Option (List UT × Bool)) : List UT → Option (List UT × Bool)
  | [] => some ([], false)
  | .mv i :: l => (pass key value rec l).map fun r =>
      if i = key then (value :: r.1, true) else (.mv i :: r.1, r.2)
  | .fn p as :: l => (rec as).bind fun a => (pass key value rec l).map fun r => (.fn p a.1 :: r.1, a.2 || r.2)

/-- `eliminateList` (src/Unif/substitutions_type.go:338-378). `none`: the given number of rounds did
not suffice. The flag is `*hasChangedTop`. -/
def elimL (key : Nat) (value : UT) : Nat → List UT → Bool → Option (List UT × Bool)
  | 0, _, _ => none
  | n + 1, ts, top => (pass key value (fun as => elimL key value n as false) ts).bind fun r =>
      if r.2 then elimL key value n r.1 true else some (r.1, top)

variable {key : Nat} {value : UT}

theorem pass_ev (ts : List UT)
    (h : ∀ p as, UT.fn p as ∈ ts → ∃ N, ∀ n, N ≤ n → ∀ top, elimL key value n as top
      = some (UT.subL as key value, top || (UT.occL as).contains key)) :
    ∃ N, ∀ n, N ≤ n → pass key value (fun as => elimL key value n as false) ts
      = some (UT.subL ts key value, (UT.occL ts).contains key) := by
  induction ts with
  | nil => exact ⟨0, fun n _ => by simp [pass, UT.subL, UT.occL]⟩
  | cons t ts ih =>
    obtain ⟨N, hN⟩ := ih fun p as hm => h p as (List.mem_cons_of_mem _ hm)
    cases t with
    | mv i =>
      refine ⟨N, fun n hn => ?_⟩
      rw [pass, hN n hn]
      by_cases hi : i = key
      · subst hi
        simp [UT.subL, UT.occL, UT.sub, UT.occ]
      · have : ¬ key = i := fun e => hi e.symm
        simp [UT.subL, UT.occL, UT.sub, UT.occ, hi, this]
    | fn p as =>
      obtain ⟨M, hM⟩ := h p as (by simp)
      refine ⟨max N M, fun n hn => ?_⟩
      rw [pass, hN n (by omega), hM n (by omega)]
      simp [UT.subL, UT.occL, UT.sub, UT.occ, Bool.or_comm]

/-- Terms without the key stay as they are. -/
theorem clean_ev : ∀ t : UT, ∀ p as, t = .fn p as → key ∉ UT.occL as → ∃ N, ∀ n, N ≤ n → ∀ top,
    elimL key value n as top = some (as, top) := by
  intro t
  induction t using UT.ind with
  | mv i => intro p as e; cases e
  | fn q args ih =>
    intro p as e hk
    cases e
    have hsub : UT.subL args key value = args := by
      rw [UT.subL_eq]
      conv => rhs; rw [← List.map_id args]
      apply List.map_congr_left
      intro a ha
      have := UT.sub_of_not_mem (k := key) (v := value) a fun h => hk (UT.mem_occL.2 ⟨a, ha, h⟩)
      simpa using this
    have := pass_ev (key := key) (value := value) args fun p as hm => by
      have hka : key ∉ UT.occL as := fun h => hk (UT.mem_occL.2 ⟨_, hm, by simpa [UT.occ] using h⟩)
      obtain ⟨N, hN⟩ := ih _ hm p as rfl hka
      have hs : UT.sub (.fn p as) key value = .fn p as :=
        UT.sub_of_not_mem (k := key) (v := value) (.fn p as) (by simpa [UT.occ] using hka)
      simp only [UT.sub, UT.fn.injEq, true_and] at hs
      refine ⟨N, fun n hn top => ?_⟩
      rw [hN n hn, hs]
      simp [hka]
    obtain ⟨N, hN⟩ := this
    refine ⟨N + 1, fun n hn top => ?_⟩
    obtain ⟨m, rfl⟩ : ∃ m, n = m + 1 := ⟨n - 1, by omega⟩
    rw [elimL, hN m (by omega), hsub]
    simp [hk]

/-- For a value without the key, `eliminateList` ends, replaces all occurrences and sets its flag iff
there was one. -/
theorem elimL_exact (hv : key ∉ value.occ) (ts : List UT) : ∃ N, ∀ n, N ≤ n → ∀ top,
    elimL key value n ts top = some (UT.subL ts key value, top || (UT.occL ts).contains key) := by
  suffices H : ∀ t : UT, ∀ p as, t = .fn p as → ∃ N, ∀ n, N ≤ n → ∀ top,
      elimL key value n as top = some (UT.subL as key value, top || (UT.occL as).contains key) from
    H (.fn 0 ts) 0 ts rfl
  intro t
  induction t using UT.ind with
  | mv i => intro p as e; cases e
  | fn q args ih =>
    intro p as e
    cases e
    obtain ⟨N, hN⟩ := pass_ev (key := key) (value := value) args fun p as hm => ih _ hm p as rfl
    have hno : key ∉ UT.occL (UT.subL args key value) := by
      intro h
      obtain ⟨a, ha, h⟩ := UT.mem_occL.1 h
      rw [UT.subL_eq] at ha
      obtain ⟨b, -, rfl⟩ := List.mem_map.1 ha
      rcases UT.occ_sub b h with h | h
      · exact h.2 rfl
      · exact hv h.2
    obtain ⟨M, hM⟩ := clean_ev (key := key) (value := value) (.fn 0 (UT.subL args key value)) 0 _ rfl hno
    refine ⟨max N M + 1, fun n hn top => ?_⟩
    obtain ⟨m, rfl⟩ : ∃ m, n = m + 1 := ⟨n - 1, by omega⟩
    rw [elimL, hN m (by omega)]
    by_cases hc : key ∈ UT.occL args
    · simp [hc, hM m (by omega)]
    · have hs : UT.sub (.fn 0 args) key value = .fn 0 args :=
        UT.sub_of_not_mem (k := key) (v := value) (.fn 0 args) (by simpa [UT.occ] using hc)
      simp only [UT.sub, UT.fn.injEq, true_and] at hs
      simp [hc, hs]

/-- If the value contains the key and the list too, the loops never end (this is what the check before
prevents). -/
theorem elimL_diverges (hv : key ∈ value.occ) (n : Nat) (ts : List UT) (hk : key ∈ UT.occL ts) (top : Bool) :
    elimL key value n ts top = none := by
  induction n generalizing ts top with
  | zero => rfl
  | succ n ih =>
    rw [elimL]
    cases hp : pass key value (fun as => elimL key value n as false) ts with
    | none => rfl
    | some r =>
      suffices h : r.2 = true ∧ key ∈ UT.occL r.1 by simp [h.1, ih r.1 h.2]
      induction ts generalizing r with
      | nil => simp [UT.occL] at hk
      | cons t ts iht =>
        cases t with
        | mv i =>
          simp only [pass, Option.map_eq_some_iff] at hp
          obtain ⟨q, hq, rfl⟩ := hp
          by_cases hi : i = key
          · simp [hi, UT.occL, hv]
          · have hk' : key ∈ UT.occL ts := by
              have : ¬ key = i := fun e => hi e.symm
              simpa [UT.occL, UT.occ, this] using hk
            have := iht hk' q hq
            simp [hi, UT.occL, this]
        | fn p as =>
          simp only [pass, Option.bind_eq_some_iff, Option.map_eq_some_iff] at hp
          obtain ⟨a, ha, q, hq, rfl⟩ := hp
          by_cases hka : key ∈ UT.occL as
          · rw [ih as hka] at ha; cases ha
          · have hk' : key ∈ UT.occL ts := by simpa [UT.occL, UT.occ, hka] using hk
            have := iht hk' q hq
            simp [UT.occL, this]

/-- `f(X, g(X))` with `X` replaced by `h(Y)`. -/
example : elimL 0 (.fn 2 [.mv 1]) 4 [.mv 0, .fn 1 [.mv 0]] false
    = some ([.fn 2 [.mv 1], .fn 1 [.fn 2 [.mv 1]]], true) := by decide +kernel

end Verif.Unif.ElimList
