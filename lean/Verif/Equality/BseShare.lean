import Verif.Equality.BseBranch
/-!
# The structure of the equality reasoning among several branches (`src/Search/state.go`)

The state of a branch has a pointer to a structure with the equalities and goals given to the reasoning. States are copied when a branch is split
(src/Search/destructive.go:1329), when a substitution is tried (615, src/Search/child_management.go:344) and when a literal is rewritten
(src/Search/destructive.go:1035); the copy gets a new structure, or with the option `-increq` the same one (src/Search/state.go:404-408).
-/

namespace Verif.Equality.Bse

open Verif.Unif Verif.Equality.LPO

/-- The literals of a branch: the positive ones and the negated ones. -/
structure Lits where
  pos : List Atom := []
  neg : List Atom := []

/-- The literals after a substitution. -/
def Lits.inst (b : Lits) (σ : Nat → UT) : Lits :=
  ⟨b.pos.map fun f => ⟨f.p, f.args.map (UT.inst σ)⟩, b.neg.map fun f => ⟨f.p, f.args.map (UT.inst σ)⟩⟩

/-- The structures in memory, and each state with its literals and the address of its structure (`State`, src/Search/state.go:55-70). -/
structure Sys where
  heap : List Store
  states : List (Lits × Nat)

/-- What the goroutines of the search do, in any order. -/
inductive Step (incr : Bool) (eq : Nat) : Sys → Sys → Prop where
  /-- A state gets more literals. -/
  | grow {S : Sys} {i a : Nat} {b : Lits} (hi : S.states[i]? = some (b, a)) (p n : List Atom) :
      Step incr eq S ⟨S.heap, S.states.set i (⟨b.pos ++ p, b.neg ++ n⟩, a)⟩
  /-- `EqualityReasoning` on the problem of a branch (src/Mods/equality/bse/equality.go:107-115): the problem is added to the structure of the state
  (C73 says what the problem is). -/
  | call {S : Sys} {i a : Nat} {b : Lits} {s : Store} (hi : S.states[i]? = some (b, a)) (hs : S.heap[a]? = some s) (E : List (UT × UT))
      (gss : List (List (UT × UT))) (hE : E.Perm (eqsOf eq b.pos)) (hG : gss.Perm (goalsOf eq b.pos b.neg)) :
      Step incr eq S ⟨S.heap.set a (s.add E gss), S.states⟩
  /-- `State.Copy` (src/Search/state.go:385-425), then maybe a substitution on the copy (src/Search/destructive.go:295-305). -/
  | copy {S : Sys} {i a : Nat} {b : Lits} (hi : S.states[i]? = some (b, a)) (σ : Nat → UT) :
      Step incr eq S ⟨if incr then S.heap else S.heap ++ [⟨[], []⟩], S.states ++ [(b.inst σ, if incr then a else S.heap.length)]⟩

/-- The systems of a search: it starts with one state (`MakeState`, src/Search/state.go:256-291). -/
inductive Reach (incr : Bool) (eq : Nat) : Sys → Prop where
  | init : Reach incr eq ⟨[⟨[], []⟩], [({}, 0)]⟩
  | step {S S' : Sys} (h : Reach incr eq S) (hs : Step incr eq S S') : Reach incr eq S'

/-- **C74, as a user would have it**, with and without the option: the structure of a state always has only equalities and goals of its branch. -/
def C74_statement (incr : Bool) : Prop := ∀ (eq : Nat) (S : Sys), Reach incr eq S → ∀ b a, (b, a) ∈ S.states →
  ∃ s, S.heap[a]? = some s ∧ s.Of eq b.pos b.neg

/-- Each structure belongs to one state, and has only its equalities and goals. -/
structure Owned (eq : Nat) (S : Sys) : Prop where
  nodup : (S.states.map (·.2)).Nodup
  of : ∀ b a, (b, a) ∈ S.states → ∃ s, S.heap[a]? = some s ∧ s.Of eq b.pos b.neg

theorem unique_addr {l : List (Lits × Nat)} (h : (l.map (·.2)).Nodup) {i j a : Nat} {b b' : Lits} (hi : l[i]? = some (b, a)) (hj : l[j]? = some (b', a)) :
    i = j := by
  have h1 : (l.map (·.2))[i]? = some a := by simp [hi]
  have h2 : (l.map (·.2))[j]? = some a := by simp [hj]
  have hlt : i < (l.map (·.2)).length := (List.getElem?_eq_some_iff.1 h1).1
  exact (List.getElem?_inj hlt h).1 (h1.trans h2.symm)

theorem owned_step {eq : Nat} {S S' : Sys} (h : Owned eq S) (hs : Step false eq S S') : Owned eq S' := by
  cases hs with
  | @grow i a b hi p n =>
    have hlt : i < S.states.length := (List.getElem?_eq_some_iff.1 hi).1
    have hg : S.states[i] = (b, a) := (List.getElem?_eq_some_iff.1 hi).2
    refine ⟨?_, fun b' a' hm => ?_⟩
    · have : (S.states.set i (⟨b.pos ++ p, b.neg ++ n⟩, a)).map (·.2) = S.states.map (·.2) := by
        rw [List.map_set]
        refine List.ext_getElem (by simp) fun j h1 h2 => ?_
        rw [List.getElem_set]
        split
        · rename_i e
          subst e
          simp [hg]
        · rfl
      rw [this]
      exact h.nodup
    · rcases List.mem_or_eq_of_mem_set hm with hm | e
      · exact h.of b' a' hm
      · cases e
        obtain ⟨s, h1, h2⟩ := h.of b a (List.mem_of_getElem? hi)
        exact ⟨s, h1, h2.mono (by simp +contextual) (by simp +contextual)⟩
  | @call i a b s hi hs E gss hE hG =>
    refine ⟨h.nodup, fun b' a' hm => ?_⟩
    obtain ⟨s', h1, h2⟩ := h.of b' a' hm
    by_cases e : a' = a
    · subst e
      obtain ⟨j, hj⟩ := List.mem_iff_getElem?.1 hm
      obtain rfl := unique_addr h.nodup hi hj
      obtain rfl : b' = b := by
        rw [hi] at hj
        cases hj
        rfl
      obtain rfl : s' = s := by
        rw [hs] at h1
        cases h1
        rfl
      refine ⟨s'.add E gss, ?_, (h2.add (fun e => hE.mem_iff) fun g => hG.mem_iff).1⟩
      exact List.getElem?_set_self (List.getElem?_eq_some_iff.1 hs).1
    · exact ⟨s', by rw [List.getElem?_set_ne (Ne.symm e)]; exact h1, h2⟩
  | @copy i a b hi σ =>
    have lt : ∀ b a, (b, a) ∈ S.states → a < S.heap.length := fun b a hm => by
      obtain ⟨s, h1, _⟩ := h.of b a hm
      exact (List.getElem?_eq_some_iff.1 h1).1
    refine ⟨?_, fun b' a' hm => ?_⟩
    · simp only [Bool.false_eq_true, if_false, List.map_append, List.map_cons, List.map_nil]
      refine List.nodup_append.2 ⟨h.nodup, by simp, fun x hx y hy e => ?_⟩
      obtain rfl := List.mem_singleton.1 hy
      obtain ⟨⟨b', a'⟩, hm, rfl⟩ := List.mem_map.1 hx
      exact absurd e (Nat.ne_of_lt (lt b' a' hm))
    · simp only [Bool.false_eq_true, if_false, List.mem_append, List.mem_singleton] at hm ⊢
      rcases hm with hm | e
      · obtain ⟨s, h1, h2⟩ := h.of b' a' hm
        exact ⟨s, by rw [List.getElem?_append_left (lt b' a' hm)]; exact h1, h2⟩
      · cases e
        exact ⟨⟨[], []⟩, by simp, emptyStore _ _ _⟩

/-- **C74** without the option `-increq`: however the goroutines run, the reasoning on a branch uses only the equalities and goals of the branch. -/
theorem C74_isolated : C74_statement false := by
  intro eq S h
  suffices Owned eq S from this.of
  induction h with
  | init =>
    refine ⟨by simp, fun b a hm => ?_⟩
    simp only [List.mem_singleton, Prod.mk.injEq] at hm
    obtain ⟨rfl, rfl⟩ := hm
    exact ⟨_, rfl, emptyStore _ _ _⟩
  | step _ hs ih => exact owned_step ih hs

/-! ### With the option -/

/-- The problem `(a = b ∨ c = d) ∧ a ≠ b`: after the split, the branch with `a = b` calls the reasoning, then the one with `c = d`. -/
theorem increq_run : Reach true idEq ⟨[⟨[(ka, kb), (kc, kd)], [[(ka, kb)]]⟩],
    [(⟨[], [eqn ka kb]⟩, 0), (⟨[eqn ka kb], [eqn ka kb]⟩, 0), (⟨[eqn kc kd], [eqn ka kb]⟩, 0)]⟩ := by
  have s1 := Reach.step (.init (incr := true) (eq := idEq)) (.grow (i := 0) rfl [] [eqn ka kb])
  have s2 := Reach.step s1 (.copy (i := 0) rfl UT.mv)
  have s3 := Reach.step s2 (.copy (i := 0) rfl UT.mv)
  have s4 := Reach.step s3 (.grow (i := 1) rfl [eqn ka kb] [])
  have s5 := Reach.step s4 (.call (i := 1) rfl rfl [(ka, kb)] [[(ka, kb)]] (by decide +kernel) (by decide +kernel))
  have s6 := Reach.step s5 (.grow (i := 2) rfl [eqn kc kd] [])
  have s7 := Reach.step s6 (.call (i := 2) rfl rfl [(kc, kd)] [[(ka, kb)]] (by decide +kernel) (by decide +kernel))
  exact s7

/-- **C74 fails with the option `-increq`.** On the problem `(a = b ∨ c = d) ∧ a ≠ b`, which has a model, the branch with `c = d` is closed in every run after the
other branch has called the reasoning, as its structure has `a = b`. -/
theorem C74_violated (n : Nat) : ∃ S, Reach true idEq S ∧ ∃ s, S.states[2]? = some (⟨[eqn kc kd], [eqn ka kb]⟩, 0) ∧ S.heap[0]? = some s ∧
    ¬ s.Of idEq [eqn kc kd] [eqn ka kb] ∧
    (∃ b res, Solve (compareWith nm) (addUnification (n + 3)) (n + 3) s.E s.G [] b res) ∧
    (∀ b res, Solve (compareWith nm) (addUnification (n + 3)) (n + 3) s.E s.G [] b res → b = true) ∧
    ∃ (A : Alg Bool) (I : Nat → List Bool → Prop) (σ : Nat → Bool), Model idEq A I σ [eqn kc kd] [eqn ka kb] := by
  have g : ∀ p, arE p = 0 → (UT.fn p []).Gd arE := fun p h => gd_fn.2 ⟨by simp [h], by simp⟩
  have hE : ∀ e ∈ [(ka, kb), (kc, kd)], e.1.Gd arE ∧ e.2.Gd arE := by simpa using ⟨⟨g 0 rfl, g 1 rfl⟩, g 2 rfl, g 3 rfl⟩
  have hG : GroundGoals arE [(ka, kb), (kc, kd)] [[(ka, kb)]] := ⟨hE, by simpa using ⟨g 0 rfl, g 1 rfl⟩⟩
  refine ⟨_, increq_run, _, rfl, rfl, fun h => ?_, solve_total (C38_precedence nm) n hG [], fun b res h => ?_, fun p _ => decide (p = 0), fun _ _ => False,
    fun _ => false, by simp [Model, Holds, eqn, sides, UT.eval, ka, kb, kc, kd]⟩
  · have := h.eqs (ka, kb) (by simp)
    revert this
    decide +kernel
  · refine (solve_ground (C38_precedence nm) hG (by simp) h).2.2 ⟨_, List.mem_singleton.2 rfl, fun e he => ?_⟩
    obtain rfl := List.mem_singleton.1 he
    exact (derivesB_spec (ar := arE) (C38_precedence nm) 3 _ none true (GroundProblem.g ⟨hE, g 0 rfl, g 1 rfl, rfl⟩) (by decide +kernel)).1 rfl

theorem C74_statement_false : ¬ C74_statement true := fun h => by
  obtain ⟨S, h1, s, h2, h3, h4, -⟩ := C74_violated 0
  obtain ⟨s', h5, h6⟩ := h idEq S h1 _ _ (List.mem_of_getElem? h2)
  rw [h3] at h5
  cases h5
  exact h4 h6

/-- Without the option the same run gives the branch with `c = d` a structure of its own. -/
example : ∃ S, Reach false idEq S ∧ S.states.length = 3 ∧ S.states[2]? = some (⟨[eqn kc kd], [eqn ka kb]⟩, 2) ∧ S.heap[2]? = some ⟨[(kc, kd)], [[(ka, kb)]]⟩ := by
  have s1 := Reach.step (.init (incr := false) (eq := idEq)) (.grow (i := 0) rfl [] [eqn ka kb])
  have s2 := Reach.step s1 (.copy (i := 0) rfl UT.mv)
  have s3 := Reach.step s2 (.copy (i := 0) rfl UT.mv)
  have s4 := Reach.step s3 (.grow (i := 1) rfl [eqn ka kb] [])
  have s5 := Reach.step s4 (.call (i := 1) rfl rfl [(ka, kb)] [[(ka, kb)]] (by decide +kernel) (by decide +kernel))
  have s6 := Reach.step s5 (.grow (i := 2) rfl [eqn kc kd] [])
  have s7 := Reach.step s6 (.call (i := 2) rfl rfl [(kc, kd)] [[(ka, kb)]] (by decide +kernel) (by decide +kernel))
  exact ⟨_, s7, rfl, rfl, rfl⟩

end Verif.Equality.Bse
