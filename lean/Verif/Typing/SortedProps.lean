import Verif.Typing.Sorted
import Verif.Equality.BseExec
import Verif.Search.IncrSearch
/-!
# C76: the search looks at no types; what that means for typed problems

Without equality reasoning a refutation found by ignoring types is a refutation of the typed problem. With it, an equation that has a variable
as a side is applied to terms of all types.
-/

namespace Verif.Sorted

open Verif.AST Verif.Search Verif.Unif Verif.Equality.LPO Verif.Equality.Bse
open Verif.Search.Incr (utOf utOfL)

variable {U : Type u} {D : Type v} {M : MInterp U D} {S : Sig} {Δ : Nat → Ty}

/-! ### Formulas without metavariables -/

theorem tmVal_congr {θ : TEnv U} {μ μ' ρ : Nat → D} (t : Term) (h : ∀ i ∈ t.metas, μ i = μ' i) : tmVal M θ μ ρ t = tmVal M θ μ' ρ t := by
  induction t using Term.ind with
  | var i => simp [tmVal]
  | mv i => simpa [tmVal, Term.metas] using h
  | fn p tys args ih =>
    simp only [tmVal]
    congr 1
    replace h : ∀ i ∈ Term.metasL args, μ i = μ' i := h
    induction args with
    | nil => rfl
    | cons a l ihl =>
      simp only [tmValL]
      rw [ih a (by simp) fun i hi => h i (Term.mem_metasL.2 ⟨a, by simp, hi⟩),
        ihl (fun a ha => ih a (by simp [ha])) fun i hi => by
          obtain ⟨t, ht, hi⟩ := Term.mem_metasL.1 hi
          exact h i (Term.mem_metasL.2 ⟨t, by simp [ht], hi⟩)]

theorem tmValL_congr {θ : TEnv U} {μ μ' ρ : Nat → D} (l : List Term) (h : ∀ i ∈ Term.metasL l, μ i = μ' i) : tmValL M θ μ ρ l = tmValL M θ μ' ρ l := by
  induction l with
  | nil => rfl
  | cons a l ih =>
    simp only [tmValL]
    rw [tmVal_congr a fun i hi => h i (Term.mem_metasL.2 ⟨a, by simp, hi⟩), ih fun i hi => by
      obtain ⟨t, ht, hi⟩ := Term.mem_metasL.1 hi
      exact h i (Term.mem_metasL.2 ⟨t, by simp [ht], hi⟩)]

theorem qAll_congr {P Q : TEnv U → (Nat → D) → Prop} (h : ∀ θ ρ, P θ ρ ↔ Q θ ρ) : ∀ (vs : List TVar) (θ : TEnv U) (ρ : Nat → D), qAll M P vs θ ρ ↔ qAll M Q vs θ ρ := by
  have : P = Q := by funext θ ρ; exact propext (h θ ρ)
  subst this
  exact fun _ _ _ => Iff.rfl

theorem qEx_congr {P Q : TEnv U → (Nat → D) → Prop} (h : ∀ θ ρ, P θ ρ ↔ Q θ ρ) : ∀ (vs : List TVar) (θ : TEnv U) (ρ : Nat → D), qEx M P vs θ ρ ↔ qEx M Q vs θ ρ := by
  have : P = Q := by funext θ ρ; exact propext (h θ ρ)
  subst this
  exact fun _ _ _ => Iff.rfl

theorem truth_congr {μ μ' : Nat → D} (F : Form) : (∀ i ∈ F.metas, μ i = μ' i) → ∀ (θ : TEnv U) (ρ : Nat → D), truth M μ θ ρ F ↔ truth M μ' θ ρ F := by
  induction F using Form.ind with
  | pred p tys args =>
    intro h θ ρ
    simp only [truth]
    rw [tmValL_congr args h]
  | top => intro _ _ _; simp [truth]
  | bot => intro _ _ _; simp [truth]
  | neg f ih => intro h θ ρ; simp only [truth, ih h θ ρ]
  | and fs ih =>
    intro h θ ρ
    simp only [truth, truthAll_iff]
    exact forall₂_congr fun f hf => ih f hf (fun i hi => h i (Form.mem_metasL.2 ⟨f, hf, hi⟩)) θ ρ
  | or fs ih =>
    intro h θ ρ
    simp only [truth, truthAny_iff]
    exact exists_congr fun f => and_congr_right fun hf => ih f hf (fun i hi => h i (Form.mem_metasL.2 ⟨f, hf, hi⟩)) θ ρ
  | imp f g ihf ihg =>
    intro h θ ρ
    simp only [Form.metas, List.mem_append] at h
    simp only [truth, ihf (fun i hi => h i (Or.inl hi)) θ ρ, ihg (fun i hi => h i (Or.inr hi)) θ ρ]
  | equ f g ihf ihg =>
    intro h θ ρ
    simp only [Form.metas, List.mem_append] at h
    simp only [truth, ihf (fun i hi => h i (Or.inl hi)) θ ρ, ihg (fun i hi => h i (Or.inr hi)) θ ρ]
  | all vs f ih =>
    intro h θ ρ
    simp only [truth]
    exact qAll_congr (fun θ ρ => ih h θ ρ) vs θ ρ
  | ex vs f ih =>
    intro h θ ρ
    simp only [truth]
    exact qEx_congr (fun θ ρ => ih h θ ρ) vs θ ρ

theorem castV_none (θ : TEnv U) (ρ : Nat → D) : castV M θ (fun _ => none) ρ = ρ := rfl

/-! ### Refutations without equality reasoning -/

/-- **C76, tableaux.** A closed tableau for a well-sorted formula without type quantifiers refutes it in the many-sorted sense: it is false in every
structure in which types are non-empty sets, functions respect the declared types, and `eq` is equality on each type. Branches may be closed by
complementary literals and by a negated equation whose sides have the same instance, the instances need not respect types. -/
theorem C76_closed_tableau_partial (s : Strategy) (F : Form) (c eq : Nat) (hw : WF F c) (hm : F.metas = []) (T : Tab)
    (hs : Steps s (initTab F c) T) (σ : Nat → Term) (hσ : Respects σ T.cons) (hc : ∀ b ∈ T.branches, b.closedEq eq σ)
    (S : Sig) (hF : FmOk S Δ (fun _ => none) F) (hS : EqSig S eq)
    (U : Type u) (D : Type v) (M : MInterp U D) (θ : TEnv U) (hM : Respecting M S θ) (hE : EqId M eq) (μ ρ : Nat → D) : ¬ truth M μ θ ρ F := by
  intro h
  have h1 : Form.holds (flat M S θ) μ ρ F :=
    (flat_truth (Δ := Δ) hM μ F (fun _ => none) ρ hw.fo hF).2 ((truth_congr F (by simp [hm]) θ ρ).1 h)
  obtain ⟨J, hJ, b, hb, hh⟩ := sound_core hw hm hs σ hσ h1
  rcases hc b hb with hb | ⟨tys, u, v, h2, e⟩
  · exact closed_false hb hh
  · have := hh _ h2
    simp only [Form.holds_neg, Form.holds_pred, List.map_cons, List.map_nil] at this
    rw [← eval_instT, ← eval_instT, e, hJ] at this
    refine this ?_
    simp only [flat]
    cases hp : S.pr eq tys with
    | none => exact (hE _ _ _).2 rfl
    | some as =>
      obtain ⟨τ, rfl⟩ := hS tys as hp
      exact (hE _ _ _).2 rfl

/-- **C76, refutations by equality reasoning.** A well-sorted formula that is false in every one-sorted interpretation with equality is false in every
many-sorted structure, if none of its equations that occur positively has a variable as a side. -/
theorem C76_equality_partial (F : Form) (eq : Nat) (hfo : FO F) (hm : F.metas = []) (S : Sig) (hF : FmOk S Δ (fun _ => none) F) (hS : EqSig S eq)
    (hn : NoNaked eq true F) (D : Type v)
    (hu : ∀ (I : Interp D), (∀ tys a b, I.pr eq tys [a, b] ↔ a = b) → ∀ μ ρ : Nat → D, ¬ Form.holds I μ ρ F)
    (U : Type u) (M : MInterp U D) (θ : TEnv U) (hM : Respecting M S θ) (hE : EqId M eq) (μ ρ : Nat → D) : ¬ truth M μ θ ρ F := fun h =>
  hu (flatEq M S θ eq) (fun tys a b => by simp [flatEq]) μ ρ
    ((flatEq_truth hM hS hE μ F true (fun _ => none) ρ hfo hF hn).1 rfl ((truth_congr F (by simp [hm]) θ ρ).1 h))

/-- `¬((∀x:A. p(x)) ⇒ p(a))`. -/
def exF : Form := .neg (.imp (.all [⟨"x", 1, .constr "A" []⟩] (.pred 0 [] [.var 1])) (.pred 0 [] [.fn 2 [] []]))
/-- `a` is of type `A`, and `p` is a predicate on `A`; `=` (symbol 5) is binary on each type. -/
def exS : Sig where
  fn p tys := if p = 2 ∧ tys = [] then some ([], .constr "A" []) else none
  pr p tys := if p = 0 ∧ tys = [] then some [.constr "A" []] else match tys with
    | [τ] => if p = 5 then some [τ, τ] else none
    | _ => none

/-- The hypotheses of `C76_closed_tableau_partial` are met by `exF`, which is therefore refuted. -/
example : WF exF 3 ∧ FmOk exS (fun _ => .constr "A" []) (fun _ => none) exF ∧ EqSig exS 5 ∧
    (∃ T, Steps .outer (initTab exF 3) T ∧ ∀ b ∈ T.branches, b.closedEq 5 (fun _ => .fn 2 [] [])) ∧
    ∀ (U D : Type) (M : MInterp U D) (θ : TEnv U), Respecting M exS θ → EqId M 5 → ∀ μ ρ : Nat → D, ¬ truth M μ θ ρ exF := by
  have hw : WF exF 3 := by
    refine ⟨?_, by decide, by decide, by decide, ?_⟩
    · simp [exF, FO, FOL, isTType]
    · simp [exF, Form.fvs, Term.vars, Term.varsL]
  have hF : FmOk exS (fun _ => .constr "A" []) (fun _ => none) exF := by
    refine ⟨⟨[.constr "A" []], by simp [exS], ?_⟩, ⟨[.constr "A" []], by simp [exS], ?_⟩⟩
    · simp [TmOkL, TmOk, bind]
    · simp [TmOkL, TmOk, exS]
  have hS : EqSig exS 5 := by
    intro tys as h
    simp only [exS] at h
    simp only [show ¬ (5 = 0) by decide, false_and, if_false] at h
    split at h
    · rename_i τ
      exact ⟨τ, by simpa using h.symm⟩
    · cases h
  have ht : ∃ T, Steps .outer (initTab exF 3) T ∧ Respects (fun _ => .fn 2 [] []) T.cons ∧ ∀ b ∈ T.branches, b.closedEq 5 (fun _ => .fn 2 [] []) := by
    refine ⟨_, .tail _ _ _ (.tail _ _ _ (.refl _) (.alpha _ [] [] _ _ rfl (List.mem_singleton.2 rfl) rfl))
      (.gamma _ [] [] _ (.all [⟨"x", 1, .constr "A" []⟩] (.pred 0 [] [.var 1])) _ 0 rfl ?_ rfl rfl), ?_, ?_⟩
    · decide
    · intro p hp
      cases hp
    · intro b hb
      simp only [List.nil_append, List.mem_singleton] at hb
      subst hb
      exact Or.inl (Or.inr (Or.inr ⟨0, [], [.mv 3], [.fn 2 [] []], by decide, by decide, by decide⟩))
  obtain ⟨T, h1, h2, h3⟩ := ht
  exact ⟨hw, hF, hS, ⟨T, h1, h3⟩, fun U D M θ hM hE μ ρ =>
    C76_closed_tableau_partial .outer exF 3 5 hw rfl T h1 _ h2 h3 exS hF hS U D M θ hM hE μ ρ⟩

/-- The hypotheses of `C76_equality_partial` about the form of the formula, for `a = a ∧ ¬ a = a`. -/
example : let F : Form := .and [.pred 5 [.constr "A" []] [.fn 2 [] [], .fn 2 [] []], .neg (.pred 5 [.constr "A" []] [.fn 2 [] [], .fn 2 [] []])]
    FO F ∧ FmOk exS (fun _ => .constr "A" []) (fun _ => none) F ∧ NoNaked 5 true F := by
  refine ⟨by simp [FO, FOL], ⟨?_, ?_, trivial⟩, ?_⟩
  · exact ⟨[.constr "A" [], .constr "A" []], by simp [exS], by simp [TmOkL, TmOk, exS]⟩
  · exact ⟨[.constr "A" [], .constr "A" []], by simp [exS], by simp [TmOkL, TmOk, exS]⟩
  · simp [NoNaked, NoNakedL, Compound]

/-! ### The branch given to the equality module -/

mutual
/-- `TyToTerm` (src/AST/ty-syntax.go:456-473); other types are an anomaly there. `id` is the identifier of the symbol. -/
def tyUT (id : String → Nat) : Ty → UT
  | .constr s args => .fn (id s) (tyUTL id args)
  | .mv _ i => .mv i
  | _ => .fn 0 []
def tyUTL (id : String → Nat) : List Ty → List UT
  | [] => []
  | t :: l => tyUT id t :: tyUTL id l
end

/-- The term of a literal as it is put into the index (`getFunctionalArguments`, src/Unif/parsing.go:147-164), for functions without type arguments. -/
def litAtom (id : String → Nat) : Form → Atom
  | .pred p tys args => ⟨p, tyUTL id tys ++ utOfL args⟩
  | _ => ⟨0, []⟩

/-- Only `eq` has a type argument. -/
structure Mono (S : Sig) (eq : Nat) : Prop where
  fn : ∀ p tys r, S.fn p tys = some r → tys = []
  pr : ∀ p tys as, S.pr p tys = some as → p ≠ eq → tys = []
  eq : ∀ tys as, S.pr eq tys = some as → ∃ τ, tys = [τ] ∧ as = [τ, τ]

theorem Mono.sig {eq : Nat} (h : Mono S eq) : EqSig S eq := fun tys as k => by
  obtain ⟨τ, -, k⟩ := h.eq tys as k
  exact ⟨τ, k⟩

/-- The literals are atoms. -/
def Atomic : Form → Prop
  | .pred _ _ _ => True
  | _ => False

/-- The structure satisfies the literals, for all values of metavariables that are of their types. -/
structure SModel (M : MInterp U D) (S : Sig) (Δ : Nat → Ty) (θ : TEnv U) (eq : Nat) (P N : List Form) : Prop where
  fns : Respecting M S θ
  eq : EqId M eq
  pos : ∀ μ ρ : Nat → D, (∀ i, M.dom (tyVal M θ (Δ i)) (μ i)) → ∀ f ∈ P, truth M μ θ ρ f
  neg : ∀ μ ρ : Nat → D, (∀ i, M.dom (tyVal M θ (Δ i)) (μ i)) → ∀ f ∈ N, ¬ truth M μ θ ρ f

/-- **C76, as a user would have it.** If the equality reasoning closes a branch of well-sorted literals, no structure with sets for the types satisfies
them. -/
def C76_statement : Prop := ∀ (ar : Nat → Nat) (name : Names) (n eq : Nat) (used : List Nat) (ty0 ty1 : Nat) (id : String → Nat) (S : Sig)
    (Δ : Nat → Ty) (P N : List Form) (tp tn : Node Instr Atom),
    BranchOk ar eq used ty0 ty1 (P.map (litAtom id)) [P.map (litAtom id)] [N.map (litAtom id)] tp tn → Mono S eq →
    (∀ f ∈ P ++ N, Atomic f ∧ FmOk S Δ (fun _ => none) f) → ∀ b res s',
    Reason (compareWith name) (addUnification (n + 3)) (n + 3) eq used ty0 ty1 (P.map (litAtom id)) tp tn ⟨[], []⟩ b res s' → b = true →
    ∀ (U D : Type) (M : MInterp U D) (θ : TEnv U), ¬ SModel M S Δ θ eq P N

theorem utOf_eval (hS : ∀ p tys r, S.fn p tys = some r → tys = []) {θ : TEnv U} {A : Alg D} (hA : ∀ p ds, A p ds = (flat M S θ).fn p [] ds)
    {σ ρ : Nat → D} (t : Term) : ∀ τ, TmOk S Δ (fun _ => none) t τ → (utOf t).eval A σ = Term.eval (flat M S θ) ρ σ t := by
  induction t using Term.ind with
  | var i => intro τ h; simp [TmOk] at h
  | mv i => intro τ h; simp [utOf, UT.eval, Term.eval]
  | fn p tys args ih =>
    intro τ h
    simp only [TmOk] at h
    obtain ⟨as, h1, h2⟩ := h
    obtain rfl := hS p tys _ h1
    have key : ∀ (l : List Term) (m : List Ty), (∀ t ∈ l, t ∈ args) → TmOkL S Δ (fun _ => none) l m →
        UT.evalL A σ (utOfL l) = Term.evalL (flat M S θ) ρ σ l := by
      intro l
      induction l with
      | nil => intro m _ _; rfl
      | cons a l ihl =>
        intro m hm h
        cases m with
        | nil => simp [TmOkL] at h
        | cons b m =>
          simp only [TmOkL] at h
          simp only [utOfL, UT.evalL, Term.evalL]
          rw [ih a (hm a (by simp)) b h.1, ihl m (fun t ht => hm t (by simp [ht])) h.2]
    simp only [utOf, UT.eval, Term.eval, hA]
    rw [key args as (fun _ h => h) h2]

theorem utOfL_eval (hS : ∀ p tys r, S.fn p tys = some r → tys = []) {θ : TEnv U} {A : Alg D} (hA : ∀ p ds, A p ds = (flat M S θ).fn p [] ds)
    {σ ρ : Nat → D} : ∀ (l : List Term) (m : List Ty), TmOkL S Δ (fun _ => none) l m → (utOfL l).map (UT.eval A σ) = l.map (Term.eval (flat M S θ) ρ σ) := by
  intro l
  induction l with
  | nil => intro m _; rfl
  | cons a l ih =>
    intro m h
    cases m with
    | nil => simp [TmOkL] at h
    | cons b m =>
      simp only [TmOkL] at h
      simp only [utOfL, List.map_cons, utOf_eval hS hA a b h.1 (ρ := ρ), ih m h.2]

/-- The truth of a literal put into the index is that of the literal in the one-sorted interpretation. -/
theorem holds_litAtom {D : Type} {M : MInterp U D} {eq : Nat} (hS : Mono S eq) {θ : TEnv U} {A : Alg D} {I : Nat → List D → Prop}
    (hA : ∀ p ds, A p ds = (flat M S θ).fn p [] ds) (hI : ∀ p ds, I p ds ↔ (flat M S θ).pr p [] ds) (id : String → Nat) {σ ρ : Nat → D} {f : Form}
    (ha : Atomic f) (hf : FmOk S Δ (fun _ => none) f) : Holds eq A I σ (litAtom id f) ↔ Form.holds (flatEq M S θ eq) σ ρ f := by
  cases f with
  | pred p tys args =>
    simp only [FmOk] at hf
    obtain ⟨as, h1, h2⟩ := hf
    have hargs := utOfL_eval (M := M) hS.fn hA (σ := σ) (ρ := ρ) args as h2
    have he : args.map (Term.eval (flatEq M S θ eq) ρ σ) = args.map (Term.eval (flat M S θ) ρ σ) := List.map_congr_left fun t _ => eval_flatEq t
    simp only [Form.holds_pred, he]
    by_cases hp : p = eq
    · subst hp
      obtain ⟨τ, rfl, rfl⟩ := hS.eq tys as h1
      match args, h2 with
      | [s, t], _ =>
        simp only [utOfL, List.map_cons, List.map_nil, List.cons.injEq, and_true] at hargs
        simp [Holds, litAtom, tyUTL, utOfL, sides, flatEq, hargs.1, hargs.2]
      | [], h2 => simp [TmOkL] at h2
      | [_], h2 => simp [TmOkL] at h2
      | _ :: _ :: _ :: _, h2 => simp [TmOkL] at h2
    · obtain rfl := hS.pr p tys as h1 hp
      simp [Holds, litAtom, tyUTL, hp, hargs, flatEq, hI]
  | _ => cases ha

/-- A substitution in solved form has a solution. -/
theorem solved_sol {D : Type} (A : Alg D) (σ0 : Nat → D) {s : Subst} (h : s.Solved) : ∃ σ : Nat → D, Subst.Sol A σ s := by
  refine ⟨fun i => ((s.get i).map (UT.eval A σ0)).getD (σ0 i), fun p hp => ?_⟩
  have h1 : s.get p.1 = some p.2 := Subst.get_of_mem h.1 hp
  simp only [h1, Option.map_some, Option.getD_some]
  refine UT.eval_congr _ fun i hi => ?_
  have : s.get i = none := Subst.get_eq_none fun hk => h.2 p hp i hk hi
  simp [this]

/-- **C76, branches.** If the substitutions found make the literals contradictory when types are ignored (C75), one of them is in solved form, and no
equality of the branch has a metavariable as a side, then no many-sorted structure satisfies the literals. -/
theorem C76_branch_partial (eq : Nat) (id : String → Nat) {P N : List Form} (hS : Mono S eq)
    (hf : ∀ f ∈ P ++ N, Atomic f ∧ FmOk S Δ (fun _ => none) f) (hn : ∀ f ∈ P, NoNaked eq true f) {res : List Subst}
    (hr : Refutes eq (P.map (litAtom id)) (N.map (litAtom id)) res) {r : Subst} (hr1 : r ∈ res) (hr2 : r.Solved)
    (U : Type u) (D : Type) (M : MInterp U D) (θ : TEnv U) : ¬ SModel M S Δ θ eq P N := by
  intro hm
  obtain ⟨d, -⟩ := M.ne (tyVal M θ (Δ 0))
  obtain ⟨σ, hσ⟩ := solved_sol (fun p ds => (flat M S θ).fn p [] ds) (fun _ => d) hr2
  have fits : ∀ i, M.dom (tyVal M θ (Δ i)) (castM M Δ θ σ i) := fun i => cast_dom M _ _
  have fo : ∀ f, Atomic f → FO f := fun f h => by cases f <;> first | trivial | cases h
  refine hr r hr1 D _ (fun p ds => (flat M S θ).pr p [] ds) σ hσ ⟨fun a ha => ?_, fun a ha h => ?_⟩ <;> obtain ⟨f, h1, rfl⟩ := List.mem_map.1 ha
  · obtain ⟨h2, h3⟩ := hf f (by simp [h1])
    refine (holds_litAtom hS (fun _ _ => rfl) (fun _ _ => Iff.rfl) id h2 h3 (ρ := fun _ => d)).2 ?_
    exact (flatEq_truth hm.fns hS.sig hm.eq σ f true _ _ (fo f h2) h3 (hn f h1)).1 rfl (hm.pos _ _ fits f h1)
  · obtain ⟨h2, h3⟩ := hf f (by simp [h1])
    have h4 := (holds_litAtom hS (fun _ _ => rfl) (fun _ _ => Iff.rfl) id h2 h3 (ρ := fun _ => d)).1 h
    refine hm.neg _ _ fits f h1 ((flatEq_truth hm.fns hS.sig hm.eq σ f false _ _ (fo f h2) h3 ?_).2 rfl h4)
    cases f with
    | pred p tys args => simp [NoNaked]
    | _ => cases h2

/-- The hypotheses are met: `a = a` and `a ≠ a` at type `A`, with the empty substitution. -/
example : let f : Form := .pred 5 [.constr "A" []] [.fn 2 [] [], .fn 2 [] []]
    (∀ g ∈ [f] ++ [f], Atomic g ∧ FmOk exS (fun _ => .constr "A" []) (fun _ => none) g) ∧ (∀ g ∈ [f], NoNaked 5 true g) ∧
    Refutes 5 ([f].map (litAtom fun _ => 4)) ([f].map (litAtom fun _ => 4)) [[]] ∧ Subst.Solved [] := by
  intro f
  refine ⟨?_, by simp [f, NoNaked, Compound], fun ρ _ D A I σ _ hm => hm.2 _ (List.mem_cons_self ..) (hm.1 _ (List.mem_cons_self ..)), by simp [Subst.Solved, Subst.keys]⟩
  simp only [List.cons_append, List.nil_append, List.mem_cons, List.not_mem_nil, or_false, or_self, forall_eq]
  exact ⟨trivial, [.constr "A" [], .constr "A" []], by simp [exS], by simp [TmOkL, TmOk, exS]⟩

/-- The same for a run on a branch whose equalities are ground and whose goals have ground, minimal second sides. -/
theorem C76_reason_partial {ar : Nat → Nat} (name : Names) (n : Nat) {eq : Nat} {used : List Nat} {ty0 ty1 : Nat} (id : String → Nat) {P N : List Form}
    {tp tn : Node Instr Atom} (H : BranchOk ar eq used ty0 ty1 (P.map (litAtom id)) [P.map (litAtom id)] [N.map (litAtom id)] tp tn) (hS : Mono S eq)
    (hf : ∀ f ∈ P ++ N, Atomic f ∧ FmOk S Δ (fun _ => none) f) (hn : ∀ f ∈ P, NoNaked eq true f)
    (hE : ∀ e ∈ eqsOf eq (P.map (litAtom id)), e.1.Gd ar ∧ e.2.Gd ar)
    (hG : ∀ g ∈ goalsOf eq (P.map (litAtom id)) (N.map (litAtom id)), ∀ x ∈ g, x.2.Gd ar ∧ Minimal ar (compareWith name) (eqsOf eq (P.map (litAtom id))) x.2)
    {b : Bool} {res : List Subst} {s' : Store}
    (h : Reason (compareWith name) (addUnification (n + 3)) (n + 3) eq used ty0 ty1 (P.map (litAtom id)) tp tn ⟨[], []⟩ b res s') {r : Subst} (hr1 : r ∈ res)
    (hr2 : r.Solved) (U : Type u) (D : Type) (M : MInterp U D) (θ : TEnv U) : ¬ SModel M S Δ θ eq P N := by
  have h1 : ([P.map (litAtom id)] : List (List Atom)).flatten = P.map (litAtom id) := by simp
  have h2 : ([N.map (litAtom id)] : List (List Atom)).flatten = N.map (litAtom id) := by simp
  have := (C75_sound_partial name n H (emptyStore _ _ _) (by rw [h1]; exact hE) (by rw [h1, h2]; exact hG) h).2
  rw [h1, h2] at this
  exact C76_branch_partial eq id hS hf hn this hr1 hr2 U D M θ

/-! ### A branch closed by mixing types -/

def tyA : Ty := .constr "A" []
def tyB : Ty := .constr "B" []
/-- `A` is symbol 4, `B` is symbol 6. -/
def idT : String → Nat := fun s => if s = "A" then 4 else 6
/-- `X = Y` at type `A`. -/
def eqXY : Form := .pred idEq [tyA] [.mv 10, .mv 11]
/-- `b = a` at type `B`. -/
def eqBA : Form := .pred idEq [tyB] [.fn 1 [] [], .fn 0 [] []]
/-- Two constants of type `B`, equality at every type. -/
def sigAB : Sig where
  fn p tys := if tys = [] ∧ (p = 0 ∨ p = 1) then some ([], tyB) else none
  pr p tys := match tys with
    | [τ] => if p = idEq then some [τ, τ] else none
    | _ => none

theorem sigAB_mono : Mono sigAB idEq := by
  refine ⟨fun p tys r h => ?_, fun p tys as h hp => ?_, fun tys as h => ?_⟩
  · simp only [sigAB] at h
    split at h
    · rename_i h1; exact h1.1
    · cases h
  · simp only [sigAB] at h
    split at h
    · simp [hp] at h
    · cases h
  · simp only [sigAB] at h
    split at h
    · rename_i τ
      exact ⟨τ, rfl, by simpa using h.symm⟩
    · cases h

theorem sigAB_ok : ∀ f ∈ [eqXY] ++ [eqBA], Atomic f ∧ FmOk sigAB (fun _ => tyA) (fun _ => none) f := by
  have h1 : FmOk sigAB (fun _ => tyA) (fun _ => none) eqXY := ⟨[tyA, tyA], by simp [sigAB], by simp [TmOkL, TmOk]⟩
  have h2 : FmOk sigAB (fun _ => tyA) (fun _ => none) eqBA := ⟨[tyB, tyB], by simp [sigAB], by simp [TmOkL, TmOk, sigAB]⟩
  simpa using ⟨⟨trivial, h1⟩, trivial, h2⟩

/-- One element of type `A`, two of type `B`. -/
def strAB : MInterp String Bool where
  con s _ := s
  tvar s := s
  prod _ := ""
  func _ _ := ""
  pi _ _ := ""
  dom u d := u = "A" → d = true
  ne _ := ⟨true, fun _ => rfl⟩
  fn p _ _ := decide (p = 0)
  pr _ _ ds := match ds with | [a, b] => a = b | _ => False

theorem strAB_model (θ : TEnv String) : SModel strAB sigAB (fun _ => tyA) θ idEq [eqXY] [eqBA] := by
  refine ⟨fun p tys as τ h ds _ => ?_, fun us a b => Iff.rfl, fun μ ρ hμ f hf => ?_, fun μ ρ hμ f hf => ?_⟩
  · have hτ : τ = tyB := by
      simp only [sigAB] at h
      split at h
      · simp only [Option.some.injEq, Prod.mk.injEq] at h
        exact h.2.symm
      · cases h
    subst hτ
    intro h
    simp [tyVal, tyB, strAB] at h
  · obtain rfl := List.mem_singleton.1 hf
    have h1 := hμ 10 rfl
    have h2 := hμ 11 rfl
    simp [eqXY, truth, tmValL, tmVal, strAB, h1, h2]
  · obtain rfl := List.mem_singleton.1 hf
    simp [eqBA, truth, tmValL, tmVal, strAB]

theorem branchAB : ∃ tp tn, BranchOk arE idEq [0, 1, 10, 11] 0 1 ([eqXY].map (litAtom idT)) [[eqXY].map (litAtom idT)] [[eqBA].map (litAtom idT)] tp tn := by
  obtain ⟨tp, hp, -⟩ := index_built [[eqXY].map (litAtom idT)]
  obtain ⟨tn, hn, -⟩ := index_built [[eqBA].map (litAtom idT)]
  refine ⟨tp, tn, hp, hn, by simp, ?_, ?_, ⟨by simp, ?_⟩, ⟨by simp, ?_⟩, ?_, ?_⟩
  · refine ⟨?_, ?_, ?_⟩ <;> simp only [List.map_cons, List.map_nil, List.flatten_cons, List.flatten_nil, List.append_nil, List.mem_singleton, forall_eq]
    · simp [eqXY, litAtom, tyUTL, tyUT, tyA, utOfL, utOf, Atom.term, UT.Ar, UT.ArL, arE, idEq, idT]
    · exact fun _ => ⟨4, [], .mv 10, .mv 11, rfl⟩
    · intro z hz
      have : z ∈ UT.occL [UT.fn 4 [], .mv 10, .mv 11] := hz
      simp [UT.occL, UT.occ] at this
      rcases this with rfl | rfl <;> simp
  · refine ⟨?_, ?_, ?_⟩ <;> simp only [List.map_cons, List.map_nil, List.flatten_cons, List.flatten_nil, List.append_nil, List.mem_singleton, forall_eq]
    · simp [eqBA, litAtom, tyUTL, tyUT, tyB, utOfL, utOf, Atom.term, UT.Ar, UT.ArL, arE, idEq, idT]
    · exact fun _ => ⟨6, [], kb, ka, rfl⟩
    · intro z hz
      have : z ∈ UT.occL [UT.fn 6 [], kb, ka] := hz
      simp [UT.occL, UT.occ, ka, kb] at this
  · simp [eqXY, litAtom, tyUTL, tyUT, tyA, utOfL, utOf, UT.occL, UT.occ]
  · simp [eqBA, litAtom, tyUTL, tyUT, tyB, utOfL, utOf, UT.occL, UT.occ]
  · show eqsOf idEq [litAtom idT eqXY] ≠ []
    decide +kernel
  · show ∀ f ∈ [litAtom idT eqXY], f ∉ [litAtom idT eqBA]
    decide +kernel

/-- **C76 fails.** `X = Y` for all `X`, `Y` of type `A`, and `b ≠ a` for two constants of type `B`: a run closes the branch, though the structure with one
element of type `A` and two of type `B` satisfies it. When types are ignored the literals are contradictory. -/
theorem C76_violated : ∃ tp tn, BranchOk arE idEq [0, 1, 10, 11] 0 1 ([eqXY].map (litAtom idT)) [[eqXY].map (litAtom idT)] [[eqBA].map (litAtom idT)] tp tn ∧
    (∃ res s', Reason (compareWith nm) (addUnification 8) 8 idEq [0, 1, 10, 11] 0 1 ([eqXY].map (litAtom idT)) tp tn ⟨[], []⟩ true res s' ∧
      Refutes idEq ([eqXY].map (litAtom idT)) ([eqBA].map (litAtom idT)) res) ∧
    ∀ θ : TEnv String, SModel strAB sigAB (fun _ => tyA) θ idEq [eqXY] [eqBA] := by
  obtain ⟨tp, tn, H⟩ := branchAB
  refine ⟨tp, tn, H, ?_, strAB_model⟩
  obtain ⟨⟨E, gss, flag, hB⟩, hx⟩ := H.exact 5
  obtain ⟨h1, h2, h3⟩ := hx E gss flag hB
  have he : eqsOf idEq ([[eqXY].map (litAtom idT)] : List (List Atom)).flatten = [(.mv 10, .mv 11)] := by decide +kernel
  have hg : goalsOf idEq ([eqXY].map (litAtom idT)) ([[eqBA].map (litAtom idT)] : List (List Atom)).flatten = [[(kb, ka)]] := by decide +kernel
  rw [he] at h1 h3
  rw [hg] at h2 h3
  obtain rfl := List.perm_singleton.1 h1
  obtain rfl := List.perm_singleton.1 (h2 (by simp))
  have hrun : runF (compareWith nm) (addUnification 8) 8 6 (.prob ⟨[(.mv 10, .mv 11)], kb, ka, {}⟩ none) = some (true, [[(10, kb), (11, ka)]]) := by
    decide +kernel
  refine ⟨[[(10, kb), (11, ka)]], _, ⟨_, _, flag, hB, Or.inr ⟨h3.2 ⟨by simp, by simp⟩, by simp, rfl, ?_⟩⟩, ?_⟩
  · have a1 : (Store.add ⟨[], []⟩ [(UT.mv 10, UT.mv 11)] [[(kb, ka)]]).E = [(.mv 10, .mv 11)] := by decide +kernel
    have a2 : (Store.add ⟨[], []⟩ [(UT.mv 10, UT.mv 11)] [[(kb, ka)]]).G = [[(kb, ka)]] := by decide +kernel
    rw [a1, a2]
    have hl : Manage (compareWith nm) (addUnification 8) 8 ⟨[(.mv 10, .mv 11)], kb, ka, {}⟩ [] [[(10, kb), (11, ka)]] :=
      ⟨true, runF_sound _ _ _ 6 _ _ _ hrun⟩
    exact Solve.yes (GoalList.step hl (by simp) .done) .done
  · intro ρ hρ D A I σ hσ hm
    obtain rfl := List.mem_singleton.1 hρ
    have e1 := hσ (10, kb) (by simp)
    have e2 := hσ (11, ka) (by simp)
    have e3 := hm.1 (litAtom idT eqXY) (by simp)
    refine hm.2 (litAtom idT eqBA) (by simp) ?_
    simp only [Holds, litAtom, eqXY, eqBA, if_true, sides, tyUTL, utOfL, utOf, List.cons_append, List.nil_append, UT.eval] at e3 ⊢
    exact e1.symm.trans (e3.trans e2)

theorem C76_statement_false : ¬ C76_statement := fun h => by
  obtain ⟨tp, tn, H, ⟨res, s', hr, -⟩, hm⟩ := C76_violated
  exact h arE nm 5 idEq [0, 1, 10, 11] 0 1 idT sigAB (fun _ => tyA) [eqXY] [eqBA] tp tn H sigAB_mono sigAB_ok true res s' hr rfl String Bool strAB
    ⟨fun _ => "", fun _ _ => ""⟩ (hm _)

end Verif.Sorted
