import Verif.Unif.Strict
import Verif.Unif.Fuel
/-!
# C24 – C28: properties of unification

`Unifies t1 t2 s o` says that `AddUnification(t1, t2, s)` ends with result `o` (`Verif.Unif.Fuel`);
`Merges s1 s2 o` is the same for `MergeSubstitutions`. "Every symbol has one arity" is `UT.Ar ar`; it
is a condition on the input: Goéland identifies symbols by name only (src/AST/maker.go), and
the machine relies on equal symbols having equally many arguments (`C25_violated_arity`).
-/

namespace Verif.Unif

universe u

/-! ### Specification -/

/-- The instantiation satisfies all bindings. -/
def Respects (σ : Nat → UT) (s : Subst) : Prop := ∀ p ∈ s, σ p.1 = p.2.inst σ

/-- The instantiation makes the terms equal and satisfies the bindings. -/
def Unifier (σ : Nat → UT) (t1 t2 : UT) (s : Subst) : Prop := t1.inst σ = t2.inst σ ∧ Respects σ s

/-! ### C24: solved form -/

theorem elimBoth_solved {n : Nat} {s r : Subst} (h : elimBoth n s = .ok r) : r.Solved :=
  (eliminate_spec.{0} n _ r (elimMeta_nodup s) h).2.1

theorem addUnif_solved {strict : Bool} {n : Nat} {t1 t2 : UT} {s r : Subst} (h : addUnif strict n t1 t2 s = .ok r) :
    r.Solved := by
  cases n with
  | zero => simp [addUnif] at h
  | succ n =>
    have bd : ∀ {x : Res Subst}, x.bind (elimBoth n) = .ok r → r.Solved := by
      intro x h
      rw [Res.bind_ok] at h
      obtain ⟨_, _, h⟩ := h
      exact elimBoth_solved h
    simp only [addUnif] at h
    cases t1 with
    | mv x =>
      simp only [addUnifBody] at h
      split at h
      · exact bd h
      · exact elimBoth_solved h
    | fn p l =>
      cases t2 with
      | mv y =>
        simp only [addUnifBody] at h
        split at h
        · exact bd h
        · exact elimBoth_solved h
      | fn q m => exact bd h

theorem Subst.fn_not_key {s : Subst} {k : Nat} (h : k ∉ s.keys) : s.fn k = .mv k := by
  simp [Subst.fn, Subst.get_eq_none h]

theorem Subst.fn_mem {s : Subst} (hs : s.keys.Nodup) {k : Nat} {v : UT} (h : (k, v) ∈ s) : s.fn k = v := by
  simp [Subst.fn, Subst.get_of_mem hs h]

theorem UT.inst_mv (t : UT) : t.inst UT.mv = t := by
  induction t using UT.ind with
  | mv i => rfl
  | fn p args ih =>
    simp only [UT.inst, UT.eval, termAlg, UT.evalL_eq] at ih ⊢
    congr 1
    exact (List.map_congr_left ih).trans (List.map_id _)

/-- A term without metavariables of the substitution is unchanged. -/
theorem Subst.inst_fn_of_disjoint {s : Subst} {t : UT} (h : ∀ k ∈ t.occ, k ∉ s.keys) : t.inst s.fn = t := by
  have : t.inst s.fn = t.inst UT.mv := UT.eval_congr _ fun i hi => Subst.fn_not_key (h i hi)
  rw [this, UT.inst_mv]

/-- A substitution in solved form satisfies its own bindings. -/
theorem Subst.Solved.sol {s : Subst} (h : s.Solved) : Respects s.fn s := by
  intro p hp
  rw [Subst.fn_mem h.1 (v := p.2) hp]
  exact (Subst.inst_fn_of_disjoint fun k hk hk' => h.2 p hp k hk' hk).symm

theorem UT.eval_inst {D : Type u} (A : Alg D) (σ : Nat → D) (τ : Nat → UT) (t : UT) :
    (t.inst τ).eval A σ = t.eval A (fun i => (τ i).eval A σ) := by
  induction t using UT.ind with
  | mv i => rfl
  | fn p args ih =>
    simp only [UT.inst, UT.eval, termAlg, UT.evalL_eq, List.map_map] at ih ⊢
    congr 1
    exact List.map_congr_left ih

theorem UT.inst_inst (σ τ : Nat → UT) (t : UT) : (t.inst τ).inst σ = t.inst (fun i => (τ i).inst σ) :=
  UT.eval_inst termAlg σ τ t

/-- Applying it twice is applying it once. -/
theorem Subst.Solved.idem {s : Subst} (h : s.Solved) (t : UT) : (t.inst s.fn).inst s.fn = t.inst s.fn := by
  rw [UT.inst_inst]
  refine UT.eval_congr _ fun i _ => ?_
  by_cases hi : i ∈ s.keys
  · obtain ⟨v, hv⟩ := Subst.get_isSome hi
    rw [Subst.fn_mem h.1 (Subst.get_mem hv)]
    exact Subst.inst_fn_of_disjoint fun k hk hk' => h.2 _ (Subst.get_mem hv) k hk' hk
  · rw [Subst.fn_not_key hi]; exact Subst.fn_not_key hi

/-- **C24.** Whatever the terms and the initial bindings, a substitution returned by `AddUnification`
binds no metavariable twice, none of its metavariables occurs in one of its terms, and applying it twice is
applying it once. -/
theorem C24_solved_form {t1 t2 : UT} {s r : Subst} (h : Unifies t1 t2 s (.ok r)) :
    (r.map (·.1)).Nodup ∧ (∀ k v, (k, v) ∈ r → ∀ i ∈ r.map (·.1), i ∉ v.occ) ∧
    (∀ t : UT, (t.inst r.fn).inst r.fn = t.inst r.fn) := by
  obtain ⟨_, n, h⟩ := h
  have hs := addUnif_solved h
  exact ⟨hs.1, fun k v hkv i hi => hs.2 (k, v) hkv i hi, hs.idem⟩

/-- No metavariable is mapped to a term containing it. -/
theorem C24_occurs_check {t1 t2 : UT} {s r : Subst} (h : Unifies t1 t2 s (.ok r)) :
    ∀ k v, (k, v) ∈ r → k ∉ v.occ :=
  fun k v hkv => (C24_solved_form h).2.1 k v hkv k (List.mem_map.2 ⟨_, hkv, rfl⟩)

theorem mergeLoop_solved {strict : Bool} {n m : Nat} (rest res r : Subst) (hr : rest ≠ [] ∨ res.Solved)
    (h : mergeLoop (addUnif strict n) m rest res = .ok r) : r.Solved := by
  induction rest generalizing res with
  | nil =>
    simp only [mergeLoop, Res.ok.injEq] at h
    subst h
    exact hr.resolve_left (fun h => h rfl)
  | cons p rest ih =>
    obtain ⟨k, v⟩ := p
    simp only [mergeLoop] at h
    split at h
    · rw [Res.bind_ok] at h
      obtain ⟨a, ha, h⟩ := h
      exact ih a (Or.inr (addUnif_solved ha)) h
    · rw [Res.bind_ok] at h
      obtain ⟨a, ha, h⟩ := h
      exact ih a (Or.inr (elimBoth_solved ha)) h

/-- **C24** for `MergeSubstitutions`: merging substitutions in solved form gives solved form. (When one of
them is empty the other one is returned as it is; otherwise the result is in solved form in any case.) -/
theorem C24_merge_solved {s1 s2 r : Subst} (h1 : s2 = [] → s1.Solved) (h2 : s1 = [] → s2.Solved)
    (h : Merges s1 s2 (.ok r)) : r.Solved := by
  obtain ⟨_, n, h⟩ := h
  unfold merge at h
  split at h
  · rename_i he
    simp only [Res.ok.injEq] at h
    subst h
    exact h2 (by simpa using he)
  · split at h
    · rename_i he
      simp only [Res.ok.injEq] at h
      subst h
      exact h1 (by simpa using he)
    · rename_i he
      exact mergeLoop_solved _ _ _ (Or.inl (by simpa using he)) h

/-! ### Samples -/

namespace Sample
def a : UT := .fn 100 []
def b : UT := .fn 101 []
def X : UT := .mv 0
def Y : UT := .mv 1
def Z : UT := .mv 2
def f (l : List UT) : UT := .fn 10 l
def g (x : UT) : UT := .fn 11 [x]
def h (l : List UT) : UT := .fn 12 l
end Sample

open Sample

/-- `f(X, g(Y))` and `f(g(a), X)`. -/
example : Unifies (f [X, g Y]) (f [g a, X]) [] (.ok [(0, g a), (1, a)]) := ⟨by simp, 12, by decide +kernel⟩

/-! ### C25: soundness -/

/-- C25 in full. -/
def C25_statement : Prop :=
  ∀ (ar : Nat → Nat) (t1 t2 : UT) (s r : Subst), t1.Ar ar → t2.Ar ar → s.Ar ar → s.keys.Nodup →
    Unifies t1 t2 s (.ok r) → Unifier r.fn t1 t2 s

/-- **C25 is violated.** Unifying `f(g(Y), X, Y)` with `f(X, g(a), b)` succeeds with `X ↦ g(a), Y ↦ a`,
which does not make the terms equal: the terms are not unifiable at all. While `computeSubstitutions` treats
the pair recorded for `X`, the recursive call binds `Y` to `a` in `treeSubs`; the `Set` of the pair recorded for
`Y`, with value `b`, then has no effect. -/
theorem C25_violated :
    Unifies (f [g Y, X, Y]) (f [X, g a, b]) [] (.ok [(0, g a), (1, a)]) ∧
    (f [g Y, X, Y]).inst (Subst.fn [(0, g a), (1, a)]) ≠ (f [X, g a, b]).inst (Subst.fn [(0, g a), (1, a)]) ∧
    (∀ σ, (f [g Y, X, Y]).inst σ ≠ (f [X, g a, b]).inst σ) := by
  refine ⟨⟨by simp, 12, by decide +kernel⟩, by decide +kernel, fun σ h => ?_⟩
  simp only [f, g, X, Y, a, b, UT.inst, UT.eval, UT.evalL, termAlg, UT.fn.injEq, List.cons.injEq, true_and,
    and_true] at h
  obtain ⟨h1, h2, h3⟩ := h
  rw [← h1, h3] at h2
  simp at h2

theorem C25_statement_false : ¬ C25_statement := by
  intro h
  exact C25_violated.2.1 (h (fun p => if p = 10 then 3 else if p = 11 then 1 else 0) _ _ [] _
    (by simp [f, g, X, Y, UT.Ar, UT.ArL])
    (by simp [f, g, X, a, b, UT.Ar, UT.ArL]) (by intro p hp; cases hp) (by simp [Subst.keys]) C25_violated.1).1

/-- A second violation, for terms in which one symbol is used with different numbers of arguments:
`f(h(g(a), b))` and `f(X, a)` "unify". -/
theorem C25_violated_arity : ∃ r, Unifies (f [h [g a, b]]) (f [X, a]) [] (.ok r) ∧
    ∀ σ, (f [h [g a, b]]).inst σ ≠ (f [X, a]).inst σ := by
  refine ⟨[(0, h [g a, b])], ⟨by simp, 12, by decide +kernel⟩, fun σ h => ?_⟩
  simp [f, UT.inst, UT.eval, UT.evalL, termAlg] at h

/-- **C25, what holds.** `addUnif true` is the same procedure except that it fails where
`computeSubstitutions` would drop a recorded value (`Verif.Unif.Machine.computeLoop`). Whenever it succeeds, the
code succeeds with the same result, and the result makes the terms equal and satisfies the initial bindings. So
every unsound result comes from that `Set`. -/
theorem C25_unification_sound_partial {ar : Nat → Nat} {t1 t2 : UT} {s r : Subst} (a1 : t1.Ar ar) (a2 : t2.Ar ar)
    (hs : s.Ar ar) (hk : (s.map (·.1)).Nodup) {n : Nat} (h : addUnif true n t1 t2 s = .ok r) :
    Unifies t1 t2 s (.ok r) ∧ Unifier r.fn t1 t2 s := by
  refine ⟨⟨by simp, n, strict_agree n _ _ _ _ h⟩, ?_⟩
  have sp := addUnif_spec.{0} ar true n t1 t2 s r a1 a2 hk hs h
  obtain ⟨h1, h2⟩ := sp.snd rfl termAlg r.fn sp.solved.sol
  exact ⟨h2, h1⟩

/-- The same in every interpretation: all assignments that satisfy the result satisfy the initial bindings and
the equation. -/
theorem C25_sound_interpretations_partial {ar : Nat → Nat} {t1 t2 : UT} {s r : Subst} (a1 : t1.Ar ar)
    (a2 : t2.Ar ar) (hs : s.Ar ar) (hk : (s.map (·.1)).Nodup) {n : Nat} (h : addUnif true n t1 t2 s = .ok r)
    {D : Type u} (A : Alg D) (σ : Nat → D) (hσ : ∀ p ∈ r, σ p.1 = p.2.eval A σ) :
    (∀ p ∈ s, σ p.1 = p.2.eval A σ) ∧ t1.eval A σ = t2.eval A σ :=
  (addUnif_spec.{u} ar true n t1 t2 s r a1 a2 hk hs h).snd rfl A σ hσ

example : addUnif true 12 (f [X, g Y]) (f [g a, X]) [] = .ok [(0, g a), (1, a)] := by decide +kernel
example : addUnif true 12 (f [g Y, X, Y]) (f [X, g a, a]) [] = .ok [(0, g a), (1, a)] := by decide +kernel
example : addUnif true 12 (f [g Y, X, Y]) (f [X, g a, b]) [] = .fail := by decide +kernel

/-! ### C26: completeness -/

/-- C26 in full. -/
def C26_statement : Prop :=
  ∀ t1 t2 : UT, (∃ σ, t1.inst σ = t2.inst σ) → ∃ r, Unifies t1 t2 [] (.ok r)

theorem not_unifies {t1 t2 : UT} {s r : Subst} (h : Unifies t1 t2 s .fail) : ¬ Unifies t1 t2 s (.ok r) := by
  intro h'
  cases h.det h'

/-- **C26 is violated**: unifying a metavariable with itself fails. -/
theorem C26_violated_self : Unifies X X [] .fail ∧ ∃ σ, X.inst σ = X.inst σ :=
  ⟨⟨by simp, 3, by decide +kernel⟩, UT.mv, rfl⟩

/-- … and so does `f(X, Y, Z)` with `f(Y, Z, X)`: `EliminateMeta` only breaks cycles of two
metavariables. -/
theorem C26_violated_cycle : Unifies (f [X, Y, Z]) (f [Y, Z, X]) [] .fail ∧
    ∃ σ, (f [X, Y, Z]).inst σ = (f [Y, Z, X]).inst σ :=
  ⟨⟨by simp, 12, by decide +kernel⟩, fun _ => a, by decide +kernel⟩

theorem C26_statement_false : ¬ C26_statement := by
  intro h
  obtain ⟨r, hr⟩ := h _ _ C26_violated_cycle.2
  exact not_unifies C26_violated_cycle.1 hr

/-! ### C27: most general -/

/-- **C27.** Every instantiation that makes the terms equal and satisfies the initial bindings satisfies all
bindings of the computed substitution; hence it is an instance of it. -/
theorem C27_most_general {ar : Nat → Nat} {t1 t2 : UT} {s r : Subst} (a1 : t1.Ar ar) (a2 : t2.Ar ar)
    (hs : s.Ar ar) (hk : (s.map (·.1)).Nodup) (h : Unifies t1 t2 s (.ok r)) (σ : Nat → UT)
    (hσ : Unifier σ t1 t2 s) : Respects σ r ∧ ∀ t : UT, (t.inst r.fn).inst σ = t.inst σ := by
  obtain ⟨_, n, h⟩ := h
  have hr : Respects σ r :=
    (addUnif_spec.{0} ar false n t1 t2 s r a1 a2 hk hs h).gen termAlg termAlg_free σ hσ.2 hσ.1
  refine ⟨hr, fun t => ?_⟩
  rw [UT.inst_inst]
  refine UT.eval_congr _ fun i _ => ?_
  cases hg : r.get i with
  | none => simp only [Subst.fn, hg, Option.getD_none]; rfl
  | some v => simp only [Subst.fn, hg, Option.getD_some]; exact (hr _ (Subst.get_mem hg)).symm

example : Unifies (f [X, Y]) (f [g Y, Z]) [] (.ok [(0, g Z), (1, Z)]) := ⟨by simp, 12, by decide +kernel⟩
example : Unifier (Subst.fn [(0, g a), (1, a), (2, a)]) (f [X, Y]) (f [g Y, Z]) [] :=
  ⟨by decide +kernel, by intro p hp; cases hp⟩

/-! ### C28: merging -/

/-- C28, first half, in full. -/
def C28_sound_statement : Prop :=
  ∀ (ar : Nat → Nat) (s1 s2 r : Subst), s1.Ar ar → s2.Ar ar → s1.Solved → s2.Solved →
    Merges s1 s2 (.ok r) → Respects r.fn s1 ∧ Respects r.fn s2

/-- **C28, first half, is violated**: with `K ↦ f(X, g(a), b)` and `K ↦ f(g(Y), X, Y)` the merge
succeeds, and its result does not satisfy the first binding of `K`. -/
theorem C28_violated : Merges [(3, f [X, g a, b])] [(3, f [g Y, X, Y])]
      (.ok [(3, f [g a, g a, a]), (0, g a), (1, a)]) ∧
    ¬ Respects (Subst.fn [(3, f [g a, g a, a]), (0, g a), (1, a)]) [(3, f [X, g a, b])] := by
  refine ⟨⟨by simp, 14, by decide +kernel⟩, fun h => ?_⟩
  have := h (3, f [X, g a, b]) (by simp)
  revert this
  decide +kernel

theorem C28_sound_statement_false : ¬ C28_sound_statement := by
  intro h
  refine C28_violated.2 (h (fun p => if p = 10 then 3 else if p = 11 then 1 else 0) _ _ _ ?_ ?_ ?_ ?_ C28_violated.1).1
  · intro p hp; simp only [List.mem_singleton] at hp; subst hp; simp [f, g, X, a, b, UT.Ar, UT.ArL]
  · intro p hp; simp only [List.mem_singleton] at hp; subst hp; simp [f, g, X, Y, UT.Ar, UT.ArL]
  · exact ⟨by simp [Subst.keys], by intro p hp k hk; simp only [List.mem_singleton] at hp; subst hp; simp [Subst.keys] at hk; subst hk; decide⟩
  · exact ⟨by simp [Subst.keys], by intro p hp k hk; simp only [List.mem_singleton] at hp; subst hp; simp [Subst.keys] at hk; subst hk; decide⟩

/-- **C28, second half**: an instantiation that satisfies both substitutions satisfies the merged one. -/
theorem C28_merge_general {ar : Nat → Nat} {s1 s2 r : Subst} (a1 : s1.Ar ar) (a2 : s2.Ar ar)
    (k1 : (s1.map (·.1)).Nodup) (k2 : (s2.map (·.1)).Nodup) (h : Merges s1 s2 (.ok r)) (σ : Nat → UT)
    (h1 : Respects σ s1) (h2 : Respects σ s2) : Respects σ r := by
  obtain ⟨_, n, h⟩ := h
  refine (merge_spec.{0} (fun t1 t2 s r a1 a2 hk ha h => ?_) n s1 s2 r k1 k2 a1 a2 h).2.2.2
    (fun t1 t2 s r a1 a2 hk ha h => (addUnif_spec ar false n t1 t2 s r a1 a2 hk ha h).gen) termAlg termAlg_free σ h1 h2
  have := addUnif_spec.{0} ar false n t1 t2 s r a1 a2 hk ha h
  exact ⟨this.solved.1, this.ar⟩

/-- **C28, first half, what holds**: when the strict variant of unification (see
`C25_unification_sound_partial`) gives a merged substitution, the code gives the same, and it satisfies every
binding of both. -/
theorem C28_merge_sound_partial {ar : Nat → Nat} {s1 s2 r : Subst} (a1 : s1.Ar ar) (a2 : s2.Ar ar)
    (h1 : s1.Solved) (h2 : s2.Solved) {n : Nat} (h : merge (addUnif true n) n s1 s2 = .ok r) :
    Merges s1 s2 (.ok r) ∧ Respects r.fn s1 ∧ Respects r.fn s2 := by
  have hm : Merges s1 s2 (.ok r) := ⟨by simp, n, merge_le (strict_agree n) n s1 s2 r h⟩
  refine ⟨hm, ?_⟩
  have hsol : r.Solved := C24_merge_solved (fun _ => h1) (fun _ => h2) hm
  refine (merge_spec.{0} (fun t1 t2 s r a1 a2 hk ha h => ?_) n s1 s2 r h1.1 h2.1 a1 a2 h).2.2.1
    (fun t1 t2 s r a1 a2 hk ha h => (addUnif_spec ar true n t1 t2 s r a1 a2 hk ha h).snd rfl) termAlg r.fn hsol.sol
  have := addUnif_spec.{0} ar true n t1 t2 s r a1 a2 hk ha h
  exact ⟨this.solved.1, this.ar⟩

theorem mergeLoop_disjoint (au au' : AU) (n : Nat) (rest res : Subst) (hr : rest.keys.Nodup)
    (hd : ∀ k ∈ rest.keys, k ∉ res.keys) : mergeLoop au n rest res = mergeLoop au' n rest res := by
  induction rest generalizing res with
  | nil => rfl
  | cons p rest ih =>
    obtain ⟨k, v⟩ := p
    simp only [Subst.keys, List.map_cons, List.nodup_cons] at hr
    have hk : k ∉ res.keys := hd k (by simp [Subst.keys])
    have hk' : ¬ res.has k = true := fun h => hk (Subst.has_iff.1 h)
    simp only [mergeLoop, if_neg hk']
    cases he : elimBoth n (res.set k v) with
    | ok a =>
      simp only [Res.bind]
      refine ih a hr.2 fun i hi hia => ?_
      have hkeys := (eliminate_spec.{0} n _ a (elimMeta_nodup _) he).1
      rw [hkeys] at hia
      simp only [Subst.keys, List.mem_map] at hia
      obtain ⟨q, hq, rfl⟩ := hia
      rcases Subst.mem_set (elimMeta_sub _ q hq) with hq | rfl
      · exact hd q.1 (by simp only [Subst.keys, List.map_cons, List.mem_cons]; exact Or.inr hi)
          (List.mem_map.2 ⟨q, hq, rfl⟩)
      · exact hr.1 hi
    | fail => rfl
    | panic => rfl
    | out => rfl

/-- Without a metavariable bound by both, merging is unconditionally sound. -/
theorem C28_merge_disjoint_sound {ar : Nat → Nat} {s1 s2 r : Subst} (a1 : s1.Ar ar) (a2 : s2.Ar ar)
    (h1 : s1.Solved) (h2 : s2.Solved) (hd : ∀ k ∈ s2.map (·.1), k ∉ s1.map (·.1)) (h : Merges s1 s2 (.ok r)) :
    Respects r.fn s1 ∧ Respects r.fn s2 := by
  have hsol : r.Solved := C24_merge_solved (fun _ => h1) (fun _ => h2) h
  obtain ⟨_, n, h⟩ := h
  -- no recursive call of unification is made
  have h : merge (fun _ _ _ => .fail) n s1 s2 = .ok r := by
    rw [← h]
    unfold merge
    rw [foldl_set s1 [] (by simpa using h1.1), List.nil_append]
    rw [mergeLoop_disjoint _ (addUnif false n) n s2 s1 h2.1 hd]
  exact (merge_spec.{0} (fun t1 t2 s r a1 a2 hk ha h => by cases h) n s1 s2 r h1.1 h2.1 a1 a2 h).2.2.1
    (fun t1 t2 s r a1 a2 hk ha h => by cases h) termAlg r.fn hsol.sol

example : merge (addUnif true 12) 12 [(0, g Y)] [(1, a), (0, g a)] = .ok [(0, g a), (1, a)] := by decide +kernel

end Verif.Unif
