import Verif.Search.TableauSound
import Verif.Search.IncrSearch
import Verif.Equality.BseBranch
/-!
# C23: tableaux closed by equality reasoning

The branches of a tableau may be closed by the congruence that the equations of the branch generate, or by an answer
of the equality module (C75).
-/

namespace Verif.Search
open Verif.AST Verif.Unif Verif.Equality.LPO Verif.Equality.Bse
open Verif.Search.Incr (utOf utOfL)

/-- The smallest congruence with the equations `E`. -/
inductive Conv (E : Term → Term → Prop) : Term → Term → Prop
  | base {s t} : E s t → Conv E s t
  | refl (s) : Conv E s s
  | symm {s t} : Conv E s t → Conv E t s
  | trans {s t u} : Conv E s t → Conv E t u → Conv E s u
  | arg {a b} (p tys l r) : Conv E a b → Conv E (.fn p tys (l ++ a :: r)) (.fn p tys (l ++ b :: r))

/-- Lists of terms, one by one. -/
inductive ConvL (E : Term → Term → Prop) : List Term → List Term → Prop
  | nil : ConvL E [] []
  | cons {a b l m} : Conv E a b → ConvL E l m → ConvL E (a :: l) (b :: m)

/-- The instances of the equations of the branch. -/
def Branch.eqs (eq : Nat) (σ : Nat → Term) (b : Branch) (s t : Term) : Prop :=
  ∃ tys s' t', Form.pred eq tys [s', t'] ∈ b.forms ∧ s = instT σ s' ∧ t = instT σ t'

/-- A branch closed by `σ` and its equations (specification): the instances of the sides of a negated equation, or of the
arguments of complementary literals, are equal by the equations of the branch. -/
def Branch.closedConv (eq : Nat) (σ : Nat → Term) (b : Branch) : Prop :=
  b.closed σ ∨
  (∃ tys s t, Form.neg (.pred eq tys [s, t]) ∈ b.forms ∧ Conv (b.eqs eq σ) (instT σ s) (instT σ t)) ∨
  ∃ p tys args args', Form.pred p tys args ∈ b.forms ∧ Form.neg (.pred p tys args') ∈ b.forms ∧
    ConvL (b.eqs eq σ) (instTL σ args) (instTL σ args')

section
variable {D : Type u} {I : Interp D} {ρ μ : Nat → D}

theorem conv_eval {E : Term → Term → Prop} (hE : ∀ s t, E s t → Term.eval I ρ μ s = Term.eval I ρ μ t) {s t : Term}
    (h : Conv E s t) : Term.eval I ρ μ s = Term.eval I ρ μ t := by
  induction h with
  | base h => exact hE _ _ h
  | refl => rfl
  | symm _ ih => exact ih.symm
  | trans _ _ ih1 ih2 => exact ih1.trans ih2
  | arg p tys l r _ ih => simp [Term.eval, Term.evalL_eq_map, ih]

theorem convL_eval {E : Term → Term → Prop} (hE : ∀ s t, E s t → Term.eval I ρ μ s = Term.eval I ρ μ t) {l m : List Term}
    (h : ConvL E l m) : Term.evalL I ρ μ l = Term.evalL I ρ μ m := by
  induction h with
  | nil => rfl
  | cons h _ ih => simp [Term.evalL, conv_eval hE h, ih]

theorem closedConv_false {eq : Nat} (hI : ∀ tys a b, I.pr eq tys [a, b] ↔ a = b) {σ : Nat → Term} {b : Branch}
    (hb : b.closedConv eq σ) (h : ∀ f ∈ b.forms, Form.holds I (fun i => Term.eval I ρ μ (σ i)) ρ f) : False := by
  have hE : ∀ s t, b.eqs eq σ s t → Term.eval I ρ μ s = Term.eval I ρ μ t := by
    rintro s t ⟨tys, s', t', h1, rfl, rfl⟩
    have := h _ h1
    simp only [Form.holds_pred, List.map_cons, List.map_nil, hI] at this
    rw [eval_instT, eval_instT]
    exact this
  rcases hb with hb | ⟨tys, s, t, h1, h2⟩ | ⟨p, tys, args, args', h1, h2, h3⟩
  · exact closed_false hb h
  · have a := h _ h1
    simp only [Form.holds_neg, Form.holds_pred, List.map_cons, List.map_nil, hI] at a
    rw [← eval_instT, ← eval_instT] at a
    exact a (conv_eval hE h2)
  · have a := h _ h1
    have b := h _ h2
    simp only [Form.holds_neg, Form.holds_pred, ← Term.evalL_eq_map] at a b
    rw [← evalL_instTL] at a b
    rw [convL_eval hE h3] at a
    exact b a

end

/-- **C23 with equality reasoning.** If one substitution closes all branches of a tableau for the formula by
complementary literals or negated equations, where terms may be replaced by equal ones with the equations of the
branch, the formula is false in every interpretation in which `eq` is equality. -/
theorem C23_closed_tableau_conv_partial (s : Strategy) (F : Form) (c eq : Nat) (hw : WF F c) (hm : F.metas = []) (T : Tab)
    (hs : Steps s (initTab F c) T) (σ : Nat → Term) (hσ : Respects σ T.cons)
    (hc : ∀ b ∈ T.branches, b.closedConv eq σ) (D : Type u) (I : Interp D)
    (hI : ∀ tys a b, I.pr eq tys [a, b] ↔ a = b) (μ ρ : Nat → D) : ¬ Form.holds I μ ρ F := by
  intro h
  obtain ⟨J, hJ, b, hb, hh⟩ := sound_core hw hm hs σ hσ h
  exact closedConv_false (by rw [hJ]; exact hI) (hc b hb) hh

/-! ### Branches closed by the equality module -/

mutual
/-- No variables and no type arguments. -/
def Plain : Term → Prop
  | .var _ => False
  | .mv _ => True
  | .fn _ tys args => tys = [] ∧ PlainL args
def PlainL : List Term → Prop
  | [] => True
  | a :: l => Plain a ∧ PlainL l
end

/-- An atom of which only equality has a type argument. -/
def PlainAtom (eq : Nat) : Form → Prop
  | .pred p tys args => PlainL args ∧ if p = eq then tys.length = 1 ∧ args.length = 2 else tys = []
  | _ => False

/-- The atom put into the index (`getFunctionalArguments`, src/Unif/parsing.go:147-164); `ty` is the term for a type. -/
def atomUT (ty : Ty → UT) : Form → Atom
  | .pred p tys args => ⟨p, tys.map ty ++ utOfL args⟩
  | _ => ⟨0, []⟩

mutual
theorem utOf_eval {D : Type u} {I : Interp D} {ρ μ : Nat → D} : ∀ t : Term, Plain t →
    (utOf t).eval (fun p ds => I.fn p [] ds) μ = Term.eval I ρ μ t
  | .var _, h => by simp [Plain] at h
  | .mv _, _ => rfl
  | .fn p tys args, h => by
    simp only [Plain] at h
    obtain ⟨rfl, h⟩ := h
    simp [utOf, UT.eval, Term.eval, utOfL_eval (ρ := ρ) args h]
theorem utOfL_eval {D : Type u} {I : Interp D} {ρ μ : Nat → D} : ∀ l : List Term, PlainL l →
    UT.evalL (fun p ds => I.fn p [] ds) μ (utOfL l) = Term.evalL I ρ μ l
  | [], _ => rfl
  | a :: l, h => by
    simp only [PlainL] at h
    simp [utOfL, UT.evalL, Term.evalL, utOf_eval (ρ := ρ) a h.1, utOfL_eval (ρ := ρ) l h.2]
end

theorem evalL_map {D : Type u} (A : Alg D) (μ : Nat → D) (l : List UT) : UT.evalL A μ l = l.map (UT.eval A μ) := by
  induction l with
  | nil => rfl
  | cons a l ih => simp [UT.evalL, ih]

theorem holds_atomUT {eq : Nat} {D : Type} {I : Interp D} (hI : ∀ tys a b, I.pr eq tys [a, b] ↔ a = b) (ty : Ty → UT)
    {ρ μ : Nat → D} {f : Form} (hf : PlainAtom eq f) :
    Holds eq (fun p ds => I.fn p [] ds) (fun p ds => I.pr p [] ds) μ (atomUT ty f) ↔ Form.holds I μ ρ f := by
  cases f with
  | pred p tys args =>
    obtain ⟨h1, h2⟩ := hf
    by_cases hp : p = eq
    · subst hp
      simp only [if_true] at h2
      match tys, args, h2 with
      | [τ], [s, t], _ =>
        simp only [PlainL, and_true] at h1
        simp only [Holds, atomUT, sides, utOfL, List.map_cons, List.map_nil, List.singleton_append, if_true, Form.holds_pred, hI]
        rw [utOf_eval (ρ := ρ) s h1.1, utOf_eval (ρ := ρ) t h1.2]
    · simp only [hp, if_false] at h2
      subst h2
      simp only [Holds, atomUT, hp, if_false, List.map_nil, List.nil_append, Form.holds_pred, ← evalL_map, utOfL_eval (ρ := ρ) args h1,
        Term.evalL_eq_map]
  | _ => cases hf

/-- A branch closed by an answer `ans` of the equality module: some literals `P`, `N` of the branch are contradictory for all solutions
of `ans` (this is what C75 says of the answers), and the closing substitution is a solution. -/
def Branch.closedMod (eq : Nat) (ty : Ty → UT) (σ : Nat → Term) (b : Branch) : Prop :=
  ∃ (P N : List Form) (res : List Subst) (ans : Subst), (∀ f ∈ P, PlainAtom eq f ∧ f ∈ b.forms) ∧
    (∀ f ∈ N, PlainAtom eq f ∧ Form.neg f ∈ b.forms) ∧ Refutes eq (P.map (atomUT ty)) (N.map (atomUT ty)) res ∧ ans ∈ res ∧
    ∀ p ∈ ans, ∃ t, p.2 = utOf t ∧ Plain t ∧ σ p.1 = instT σ t

theorem closedMod_false {eq : Nat} {ty : Ty → UT} {D : Type} {I : Interp D} {ρ μ : Nat → D} (hI : ∀ tys a b, I.pr eq tys [a, b] ↔ a = b)
    {σ : Nat → Term} {b : Branch} (hb : b.closedMod eq ty σ)
    (h : ∀ f ∈ b.forms, Form.holds I (fun i => Term.eval I ρ μ (σ i)) ρ f) : False := by
  obtain ⟨P, N, res, ans, hP, hN, hr, ha, hs⟩ := hb
  refine hr ans ha D (fun p ds => I.fn p [] ds) (fun p ds => I.pr p [] ds) (fun i => Term.eval I ρ μ (σ i)) (fun p hp => ?_) ⟨fun f hf => ?_, fun f hf => ?_⟩
  · obtain ⟨t, h1, h2, h3⟩ := hs p hp
    rw [h1, utOf_eval (ρ := ρ) t h2]
    simp only [h3, eval_instT]
  · obtain ⟨g, hg, rfl⟩ := List.mem_map.1 hf
    exact (holds_atomUT hI ty (hP g hg).1).2 (h g (hP g hg).2)
  · obtain ⟨g, hg, rfl⟩ := List.mem_map.1 hf
    rw [holds_atomUT (ρ := ρ) hI ty (hN g hg).1]
    simpa using h _ (hN g hg).2

/-- **C23 with the equality module.** A tableau whose branches are closed by one substitution, each by its literals, by its
equations or by an answer of the equality module, shows that the formula is false in every interpretation in which
`eq` is equality. -/
theorem C23_closed_tableau_module_partial (s : Strategy) (F : Form) (c eq : Nat) (ty : Ty → UT) (hw : WF F c) (hm : F.metas = []) (T : Tab)
    (hs : Steps s (initTab F c) T) (σ : Nat → Term) (hσ : Respects σ T.cons)
    (hc : ∀ b ∈ T.branches, b.closedConv eq σ ∨ b.closedMod eq ty σ) (D : Type) (I : Interp D)
    (hI : ∀ tys a b, I.pr eq tys [a, b] ↔ a = b) (μ ρ : Nat → D) : ¬ Form.holds I μ ρ F := by
  intro h
  obtain ⟨J, hJ, b, hb, hh⟩ := sound_core hw hm hs σ hσ h
  rw [← hJ] at hI
  rcases hc b hb with h1 | h1
  · exact closedConv_false hI h1 hh
  · exact closedMod_false hI h1 hh

/-- The call of the equality module on a branch (C75, the case in which it is sound) closes the branch for each
substitution that respects one of its answers. -/
theorem C23_module_closes_partial {ar : Nat → Nat} {eq : Nat} {used : List Nat} {ty0 ty1 : Nat} {fl : List Atom} {P N : List Form}
    {tp tn : Node Instr Atom} (name : Names) (n : Nat) (ty : Ty → UT) (b : Branch)
    (hP : ∀ f ∈ P, PlainAtom eq f ∧ f ∈ b.forms) (hN : ∀ f ∈ N, PlainAtom eq f ∧ Form.neg f ∈ b.forms)
    (H : BranchOk ar eq used ty0 ty1 fl [P.map (atomUT ty)] [N.map (atomUT ty)] tp tn)
    (hE : ∀ e ∈ eqsOf eq (P.map (atomUT ty)), e.1.Gd ar ∧ e.2.Gd ar)
    (hG : ∀ g ∈ goalsOf eq (P.map (atomUT ty)) (N.map (atomUT ty)), ∀ x ∈ g,
      x.2.Gd ar ∧ Minimal ar (compareWith name) (eqsOf eq (P.map (atomUT ty))) x.2) {ok : Bool} {res : List Subst} {st : Store}
    (h : Reason (compareWith name) (addUnification (n + 3)) (n + 3) eq used ty0 ty1 fl tp tn ⟨[], []⟩ ok res st) :
    (ok = true → res ≠ []) ∧ ∀ ans ∈ res, ∀ σ : Nat → Term,
      (∀ p ∈ ans, ∃ t, p.2 = utOf t ∧ Plain t ∧ σ p.1 = instT σ t) → b.closedMod eq ty σ := by
  have := C75_sound_partial name n (pos := [P.map (atomUT ty)]) (neg := [N.map (atomUT ty)]) H (emptyStore _ _ _)
    (by simpa using hE) (by simpa using hG) h
  refine ⟨this.1, fun ans ha σ hσ => ⟨P, N, res, ans, hP, hN, by simpa using this.2, ha, hσ⟩⟩

/-! ### The hypotheses are met -/

/-- `(∀ x. f(x) = x) ∧ p(a) ∧ ¬ p(f(a))`. -/
def eqF : Form := .and [.all [⟨"x", 1, .constr "$i" []⟩] (.pred 5 [.constr "$i" []] [.fn 4 [] [.var 1], .var 1]),
  .pred 0 [] [.fn 2 [] []], .neg (.pred 0 [] [.fn 4 [] [.fn 2 [] []]])]

/-- A tableau for it is closed with `a` for the metavariable, and it is therefore false. -/
example : WF eqF 6 ∧ (∃ T, Steps .outer (initTab eqF 6) T ∧ Respects (fun _ => .fn 2 [] []) T.cons ∧
      (∀ b ∈ T.branches, b.closedConv 5 (fun _ => .fn 2 [] []))) ∧
    ∀ (D : Type) (I : Interp D), (∀ tys a b, I.pr 5 tys [a, b] ↔ a = b) → ∀ μ ρ, ¬ Form.holds I μ ρ eqF := by
  have hw : WF eqF 6 := by
    refine ⟨?_, by decide, by decide, by decide, ?_⟩
    · simp [eqF, FO, FOL, isTType]
    · simp [eqF, Form.fvs, Form.fvsL, Term.vars, Term.varsL]
  have ht : ∃ T, Steps .outer (initTab eqF 6) T ∧ Respects (fun _ => .fn 2 [] []) T.cons ∧
      ∀ b ∈ T.branches, b.closedConv 5 (fun _ => .fn 2 [] []) := by
    refine ⟨_, .tail _ _ _ (.tail _ _ _ (.refl _) (.alpha _ [] [] _ _ rfl (List.mem_singleton.2 rfl) rfl))
      (.gamma _ [] [] _ (.all [⟨"x", 1, .constr "$i" []⟩] (.pred 5 [.constr "$i" []] [.fn 4 [] [.var 1], .var 1])) _ 0 rfl ?_ rfl rfl), ?_, ?_⟩
    · decide
    · intro p hp
      cases hp
    · intro b hb
      simp only [List.nil_append, List.mem_singleton] at hb
      subst hb
      refine Or.inr (Or.inr ⟨0, [], [.fn 2 [] []], [.fn 4 [] [.fn 2 [] []]], by decide, by decide, ?_⟩)
      exact .cons (.symm (.base ⟨[.constr "$i" []], .fn 4 [] [.mv 6], .mv 6, by decide, by decide, by decide⟩)) .nil
  obtain ⟨T, h1, h2, h3⟩ := ht
  exact ⟨hw, ⟨T, h1, h2, h3⟩, fun D I hI μ ρ => C23_closed_tableau_conv_partial .outer eqF 6 5 hw rfl T h1 _ h2 h3 D I hI μ ρ⟩

/-- A branch closed by the module: the literals `b = a`, `q(b)` and `¬ q(a)`. -/
example : (⟨[.pred 5 [.constr "$i" []] [.fn 1 [] [], .fn 0 [] []], .pred 7 [] [.fn 1 [] []], .neg (.pred 7 [] [.fn 0 [] []])], []⟩ : Branch).closedMod 5
      (fun _ => .fn 8 []) (fun _ => .fn 0 [] []) := by
  refine ⟨[.pred 5 [.constr "$i" []] [.fn 1 [] [], .fn 0 [] []], .pred 7 [] [.fn 1 [] []]], [.pred 7 [] [.fn 0 [] []]], [[]], [], ?_, ?_, ?_, by simp, by simp⟩
  · simp [PlainAtom, PlainL, Plain]
  · simp [PlainAtom, PlainL, Plain]
  · intro r _ D A I σ _ ⟨h1, h2⟩
    simp [atomUT, utOfL, utOf, Holds, sides, UT.eval, UT.evalL] at h1 h2
    rw [h1.1] at h1
    exact h2 h1.2

end Verif.Search
