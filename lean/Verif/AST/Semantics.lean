import Verif.AST.Syntax
/-!
# First-order semantics (specification)

One-sorted Tarski semantics: this is the reference against which the prover's transformations
are judged. It does not mention any function of the model. Types of quantified variables are
ignored; type arguments of symbols are part of the symbol.
-/

namespace Verif.AST

/-- An interpretation over a domain `D`. -/
structure Interp (D : Type u) where
  fn : Nat → List Ty → List D → D
  pr : Nat → List Ty → List D → Prop

/-- Update of an assignment. -/
def upd {D : Type u} (ρ : Nat → D) (i : Nat) (d : D) : Nat → D := fun j => if j = i then d else ρ j

section
variable {D : Type u} (I : Interp D)

mutual
/-- Value of a term; `ρ` gives the values of variables, `μ` those of metavariables. -/
def Term.eval (ρ μ : Nat → D) : Term → D
  | .var i => ρ i
  | .mv i => μ i
  | .fn p tys args => I.fn p tys (Term.evalL ρ μ args)
def Term.evalL (ρ μ : Nat → D) : List Term → List D
  | [] => []
  | a :: l => Term.eval ρ μ a :: Term.evalL ρ μ l
end

/-- Universal quantification over the values of a list of variables. -/
def forallVars (P : (Nat → D) → Prop) : List TVar → (Nat → D) → Prop
  | [], ρ => P ρ
  | v :: vs, ρ => ∀ d, forallVars P vs (upd ρ v.index d)

/-- Existential quantification over the values of a list of variables. -/
def existsVars (P : (Nat → D) → Prop) : List TVar → (Nat → D) → Prop
  | [], ρ => P ρ
  | v :: vs, ρ => ∃ d, existsVars P vs (upd ρ v.index d)

mutual
/-- Truth of a formula. -/
def Form.holds (μ : Nat → D) : (Nat → D) → Form → Prop
  | ρ, .pred p tys args => I.pr p tys (Term.evalL I ρ μ args)
  | _, .top => True
  | _, .bot => False
  | ρ, .neg f => ¬ Form.holds μ ρ f
  | ρ, .and fs => Form.holdsAll μ ρ fs
  | ρ, .or fs => Form.holdsAny μ ρ fs
  | ρ, .imp f g => Form.holds μ ρ f → Form.holds μ ρ g
  | ρ, .equ f g => Form.holds μ ρ f ↔ Form.holds μ ρ g
  | ρ, .all vs f => forallVars (fun ρ' => Form.holds μ ρ' f) vs ρ
  | ρ, .ex vs f => existsVars (fun ρ' => Form.holds μ ρ' f) vs ρ
def Form.holdsAll (μ : Nat → D) : (Nat → D) → List Form → Prop
  | _, [] => True
  | ρ, f :: fs => Form.holds μ ρ f ∧ Form.holdsAll μ ρ fs
def Form.holdsAny (μ : Nat → D) : (Nat → D) → List Form → Prop
  | _, [] => False
  | ρ, f :: fs => Form.holds μ ρ f ∨ Form.holdsAny μ ρ fs
end

end

/-! ### Basic facts -/

section
variable {D : Type u} {I : Interp D}

theorem Term.evalL_eq_map (ρ μ : Nat → D) (l : List Term) :
    Term.evalL I ρ μ l = l.map (Term.eval I ρ μ) := by
  induction l with
  | nil => rfl
  | cons a l ih => simp [Term.evalL, ih]

theorem Form.holdsAll_iff {μ ρ : Nat → D} {fs : List Form} :
    Form.holdsAll I μ ρ fs ↔ ∀ f ∈ fs, Form.holds I μ ρ f := by
  induction fs with
  | nil => simp [Form.holdsAll]
  | cons f fs ih => simp [Form.holdsAll, ih]

theorem Form.holdsAny_iff {μ ρ : Nat → D} {fs : List Form} :
    Form.holdsAny I μ ρ fs ↔ ∃ f ∈ fs, Form.holds I μ ρ f := by
  induction fs with
  | nil => simp [Form.holdsAny]
  | cons f fs ih => simp [Form.holdsAny, ih]

@[simp] theorem Form.holds_pred {μ ρ : Nat → D} {p tys args} :
    Form.holds I μ ρ (.pred p tys args) ↔ I.pr p tys (args.map (Term.eval I ρ μ)) := by
  simp [Form.holds, Term.evalL_eq_map]
@[simp] theorem Form.holds_top {μ ρ : Nat → D} : Form.holds I μ ρ .top ↔ True := by
  simp [Form.holds]
@[simp] theorem Form.holds_bot {μ ρ : Nat → D} : Form.holds I μ ρ .bot ↔ False := by
  simp [Form.holds]
@[simp] theorem Form.holds_neg {μ ρ : Nat → D} {f} :
    Form.holds I μ ρ (.neg f) ↔ ¬ Form.holds I μ ρ f := by simp [Form.holds]
@[simp] theorem Form.holds_and {μ ρ : Nat → D} {fs} :
    Form.holds I μ ρ (.and fs) ↔ ∀ f ∈ fs, Form.holds I μ ρ f := by
  simp [Form.holds, Form.holdsAll_iff]
@[simp] theorem Form.holds_or {μ ρ : Nat → D} {fs} :
    Form.holds I μ ρ (.or fs) ↔ ∃ f ∈ fs, Form.holds I μ ρ f := by
  simp [Form.holds, Form.holdsAny_iff]
@[simp] theorem Form.holds_imp {μ ρ : Nat → D} {f g} :
    Form.holds I μ ρ (.imp f g) ↔ (Form.holds I μ ρ f → Form.holds I μ ρ g) := by
  simp [Form.holds]
@[simp] theorem Form.holds_equ {μ ρ : Nat → D} {f g} :
    Form.holds I μ ρ (.equ f g) ↔ (Form.holds I μ ρ f ↔ Form.holds I μ ρ g) := by
  simp [Form.holds]
theorem Form.holds_all {μ ρ : Nat → D} {vs f} :
    Form.holds I μ ρ (.all vs f) ↔ forallVars (fun ρ' => Form.holds I μ ρ' f) vs ρ := by
  simp [Form.holds]
theorem Form.holds_ex {μ ρ : Nat → D} {vs f} :
    Form.holds I μ ρ (.ex vs f) ↔ existsVars (fun ρ' => Form.holds I μ ρ' f) vs ρ := by
  simp [Form.holds]

@[simp] theorem Form.holds_all_nil {μ ρ : Nat → D} {f} :
    Form.holds I μ ρ (.all [] f) ↔ Form.holds I μ ρ f := by simp [Form.holds_all, forallVars]
theorem Form.holds_all_cons {μ ρ : Nat → D} {v vs f} :
    Form.holds I μ ρ (.all (v :: vs) f) ↔ ∀ d, Form.holds I μ (upd ρ v.index d) (.all vs f) := by
  simp [Form.holds_all, forallVars]
@[simp] theorem Form.holds_ex_nil {μ ρ : Nat → D} {f} :
    Form.holds I μ ρ (.ex [] f) ↔ Form.holds I μ ρ f := by simp [Form.holds_ex, existsVars]
theorem Form.holds_ex_cons {μ ρ : Nat → D} {v vs f} :
    Form.holds I μ ρ (.ex (v :: vs) f) ↔ ∃ d, Form.holds I μ (upd ρ v.index d) (.ex vs f) := by
  simp [Form.holds_ex, existsVars]

theorem forallVars_congr {P Q : (Nat → D) → Prop} {vs : List TVar} {ρ : Nat → D}
    (h : ∀ ρ, P ρ ↔ Q ρ) : forallVars P vs ρ ↔ forallVars Q vs ρ := by
  have : P = Q := funext fun ρ => propext (h ρ)
  rw [this]

theorem existsVars_congr {P Q : (Nat → D) → Prop} {vs : List TVar} {ρ : Nat → D}
    (h : ∀ ρ, P ρ ↔ Q ρ) : existsVars P vs ρ ↔ existsVars Q vs ρ := by
  have : P = Q := funext fun ρ => propext (h ρ)
  rw [this]

theorem existsVars_not {P : (Nat → D) → Prop} {vs : List TVar} {ρ : Nat → D} :
    ¬ existsVars P vs ρ ↔ forallVars (fun ρ => ¬ P ρ) vs ρ := by
  induction vs generalizing ρ with
  | nil => simp [existsVars, forallVars]
  | cons v vs ih => simp [existsVars, forallVars, ih]

theorem forallVars_not {P : (Nat → D) → Prop} {vs : List TVar} {ρ : Nat → D} :
    ¬ forallVars P vs ρ ↔ existsVars (fun ρ => ¬ P ρ) vs ρ := by
  induction vs generalizing ρ with
  | nil => simp [existsVars, forallVars]
  | cons v vs ih => simp [existsVars, forallVars, ih]

/-- The value of a term depends only on the values of its variables, metavariables and on the
interpretation of its function symbols. -/
theorem Term.eval_congr {I J : Interp D} {ρ ρ' μ μ' : Nat → D} {t : Term}
    (hρ : ∀ i ∈ t.vars, ρ i = ρ' i) (hμ : ∀ i ∈ t.metas, μ i = μ' i)
    (hI : ∀ p ∈ t.funs, I.fn p = J.fn p) : Term.eval I ρ μ t = Term.eval J ρ' μ' t := by
  induction t using Term.ind with
  | var i => simpa [Term.eval, Term.vars] using hρ
  | mv i => simpa [Term.eval, Term.metas] using hμ
  | fn p tys args ih =>
    simp only [Term.eval, Term.evalL_eq_map]
    rw [hI p (by simp [Term.funs])]
    congr 1
    apply List.map_congr_left
    intro a ha
    apply ih a ha
    · intro i hi; exact hρ i (by simp only [Term.vars, Term.mem_varsL]; exact ⟨a, ha, hi⟩)
    · intro i hi; exact hμ i (by simp only [Term.metas, Term.mem_metasL]; exact ⟨a, ha, hi⟩)
    · intro i hi
      exact hI i (by simp only [Term.funs, List.mem_cons, Term.mem_funsL]; exact Or.inr ⟨a, ha, hi⟩)

theorem Term.map_eval_congr {I J : Interp D} {ρ ρ' μ μ' : Nat → D} {l : List Term}
    (hρ : ∀ i ∈ Term.varsL l, ρ i = ρ' i) (hμ : ∀ i ∈ Term.metasL l, μ i = μ' i)
    (hI : ∀ p ∈ Term.funsL l, I.fn p = J.fn p) :
    l.map (Term.eval I ρ μ) = l.map (Term.eval J ρ' μ') := by
  apply List.map_congr_left
  intro a ha
  apply Term.eval_congr
  · intro i hi; exact hρ i (Term.mem_varsL.2 ⟨a, ha, hi⟩)
  · intro i hi; exact hμ i (Term.mem_metasL.2 ⟨a, ha, hi⟩)
  · intro i hi; exact hI i (Term.mem_funsL.2 ⟨a, ha, hi⟩)

theorem forallVars_congr' {P Q : (Nat → D) → Prop} {vs : List TVar} {ρ ρ' : Nat → D}
    {S : Nat → Prop}
    (h : ∀ ρ ρ', (∀ i, S i → ρ i = ρ' i) → (P ρ ↔ Q ρ'))
    (hρ : ∀ i, S i → i ∉ vs.map TVar.index → ρ i = ρ' i) :
    forallVars P vs ρ ↔ forallVars Q vs ρ' := by
  induction vs generalizing ρ ρ' with
  | nil => exact h _ _ (fun i hi => hρ i hi (by simp))
  | cons v vs ih =>
    simp only [forallVars]
    apply forall_congr'; intro d
    apply ih
    intro i hi hn
    simp only [upd]
    split
    · rfl
    · exact hρ i hi (by simp only [List.map_cons, List.mem_cons, not_or]; exact ⟨‹_›, hn⟩)

theorem existsVars_congr' {P Q : (Nat → D) → Prop} {vs : List TVar} {ρ ρ' : Nat → D}
    {S : Nat → Prop}
    (h : ∀ ρ ρ', (∀ i, S i → ρ i = ρ' i) → (P ρ ↔ Q ρ'))
    (hρ : ∀ i, S i → i ∉ vs.map TVar.index → ρ i = ρ' i) :
    existsVars P vs ρ ↔ existsVars Q vs ρ' := by
  induction vs generalizing ρ ρ' with
  | nil => exact h _ _ (fun i hi => hρ i hi (by simp))
  | cons v vs ih =>
    simp only [existsVars]
    apply exists_congr; intro d
    apply ih
    intro i hi hn
    simp only [upd]
    split
    · rfl
    · exact hρ i hi (by simp only [List.map_cons, List.mem_cons, not_or]; exact ⟨‹_›, hn⟩)

/-- Truth of a formula depends only on its free variables, metavariables and function symbols
(for interpretations that agree on predicates). -/
theorem Form.holds_congr {I J : Interp D} {μ μ' : Nat → D} {f : Form} {ρ ρ' : Nat → D}
    (hρ : ∀ i ∈ f.fvs, ρ i = ρ' i) (hμ : ∀ i ∈ f.metas, μ i = μ' i)
    (hI : ∀ p ∈ f.funs, I.fn p = J.fn p) (hP : I.pr = J.pr) :
    Form.holds I μ ρ f ↔ Form.holds J μ' ρ' f := by
  induction f using Form.ind generalizing ρ ρ' with
  | pred p tys args =>
    simp only [Form.holds_pred, hP]
    rw [Term.map_eval_congr (J := J) (ρ' := ρ') (μ' := μ')]
    · simpa [Form.fvs] using hρ
    · simpa [Form.metas] using hμ
    · simpa [Form.funs] using hI
  | top => simp
  | bot => simp
  | neg f ih =>
    simp only [Form.holds_neg]
    rw [ih (by simpa [Form.fvs] using hρ) (by simpa [Form.metas] using hμ)
      (by simpa [Form.funs] using hI)]
  | and fs ih =>
    simp only [Form.holds_and]
    apply forall_congr'; intro f
    apply forall_congr'; intro hf
    apply ih f hf
    · intro i hi; exact hρ i (by simp only [Form.fvs, Form.mem_fvsL]; exact ⟨f, hf, hi⟩)
    · intro i hi; exact hμ i (by simp only [Form.metas, Form.mem_metasL]; exact ⟨f, hf, hi⟩)
    · intro i hi; exact hI i (by simp only [Form.funs, Form.mem_funsL]; exact ⟨f, hf, hi⟩)
  | or fs ih =>
    simp only [Form.holds_or]
    apply exists_congr; intro f
    apply and_congr_right; intro hf
    apply ih f hf
    · intro i hi; exact hρ i (by simp only [Form.fvs, Form.mem_fvsL]; exact ⟨f, hf, hi⟩)
    · intro i hi; exact hμ i (by simp only [Form.metas, Form.mem_metasL]; exact ⟨f, hf, hi⟩)
    · intro i hi; exact hI i (by simp only [Form.funs, Form.mem_funsL]; exact ⟨f, hf, hi⟩)
  | imp f g ihf ihg =>
    simp only [Form.fvs, Form.metas, Form.funs, List.mem_append] at hρ hμ hI
    simp only [Form.holds_imp]
    rw [ihf (fun i hi => hρ i (Or.inl hi)) (fun i hi => hμ i (Or.inl hi)) (fun i hi => hI i (Or.inl hi)),
      ihg (fun i hi => hρ i (Or.inr hi)) (fun i hi => hμ i (Or.inr hi)) (fun i hi => hI i (Or.inr hi))]
  | equ f g ihf ihg =>
    simp only [Form.fvs, Form.metas, Form.funs, List.mem_append] at hρ hμ hI
    simp only [Form.holds_equ]
    rw [ihf (fun i hi => hρ i (Or.inl hi)) (fun i hi => hμ i (Or.inl hi)) (fun i hi => hI i (Or.inl hi)),
      ihg (fun i hi => hρ i (Or.inr hi)) (fun i hi => hμ i (Or.inr hi)) (fun i hi => hI i (Or.inr hi))]
  | all vs f ih =>
    simp only [Form.holds_all]
    apply forallVars_congr' (S := fun i => i ∈ f.fvs)
    · intro ρ ρ' h
      exact ih h (by simpa [Form.metas] using hμ) (by simpa [Form.funs] using hI)
    · intro i hi hn
      refine hρ i ?_
      simp only [Form.fvs, List.mem_filter]
      exact ⟨hi, by simpa using hn⟩
  | ex vs f ih =>
    simp only [Form.holds_ex]
    apply existsVars_congr' (S := fun i => i ∈ f.fvs)
    · intro ρ ρ' h
      exact ih h (by simpa [Form.metas] using hμ) (by simpa [Form.funs] using hI)
    · intro i hi hn
      refine hρ i ?_
      simp only [Form.fvs, List.mem_filter]
      exact ⟨hi, by simpa using hn⟩

end
end Verif.AST
