import Verif.Search.TableauSound
/-!
# Many-sorted, polymorphic semantics (specification) and well-sorted formulas

The typed problems of TPTP speak of several sorts; the tableau works as if there were one: the types of metavariables are never looked at
(`GetTy` of a metavariable is only used to drop type metavariables, src/Unif/matching_substitutions.go:81). The semantics below interprets types by
non-empty sets. Types are evaluated in a universe `U`, so that quantifiers over types have a meaning as well.
-/

namespace Verif.Sorted

open Verif.AST Verif.Search

/-- A structure: a universe of types closed under type constructors, a non-empty set of elements for each, functions and predicates that may
depend on types. -/
structure MInterp (U : Type u) (D : Type v) where
  con : String → List U → U
  tvar : String → U
  prod : List U → U
  func : U → U → U
  pi : List String → U → U
  dom : U → D → Prop
  ne : ∀ u, ∃ d, dom u d
  fn : Nat → List U → List D → D
  pr : Nat → List U → List D → Prop

variable {U : Type u} {D : Type v} (M : MInterp U D)

/-- Values of bound type variables and of type metavariables. -/
structure TEnv (U : Type u) where
  bv : String → U
  mv : String → Nat → U

mutual
/-- Value of a type. -/
def tyVal (θ : TEnv U) : Ty → U
  | .var s => M.tvar s
  | .bound s => θ.bv s
  | .mv s i => θ.mv s i
  | .constr s args => M.con s (tyValL θ args)
  | .prod args => M.prod (tyValL θ args)
  | .func a b => M.func (tyVal θ a) (tyVal θ b)
  | .pi vs t => M.pi vs (tyVal θ t)
def tyValL (θ : TEnv U) : List Ty → List U
  | [] => []
  | a :: l => tyVal θ a :: tyValL θ l
end

mutual
/-- Value of a term. -/
def tmVal (θ : TEnv U) (μ ρ : Nat → D) : Term → D
  | .var i => ρ i
  | .mv i => μ i
  | .fn p tys args => M.fn p (tyValL M θ tys) (tmValL θ μ ρ args)
def tmValL (θ : TEnv U) (μ ρ : Nat → D) : List Term → List D
  | [] => []
  | a :: l => tmVal θ μ ρ a :: tmValL θ μ ρ l
end

/-- Change of the value of a type variable. -/
def TEnv.upd (θ : TEnv U) (s : String) (u : U) : TEnv U := { θ with bv := fun t => if t = s then u else θ.bv t }

/-- Quantification over a list of variables: over all types, or over the elements of a type. -/
def qAll (P : TEnv U → (Nat → D) → Prop) : List TVar → TEnv U → (Nat → D) → Prop
  | [], θ, ρ => P θ ρ
  | v :: vs, θ, ρ =>
    if isTType v.ty then ∀ u, qAll P vs (θ.upd v.name u) ρ
    else ∀ d, M.dom (tyVal M θ v.ty) d → qAll P vs θ (upd ρ v.index d)
def qEx (P : TEnv U → (Nat → D) → Prop) : List TVar → TEnv U → (Nat → D) → Prop
  | [], θ, ρ => P θ ρ
  | v :: vs, θ, ρ =>
    if isTType v.ty then ∃ u, qEx P vs (θ.upd v.name u) ρ
    else ∃ d, M.dom (tyVal M θ v.ty) d ∧ qEx P vs θ (upd ρ v.index d)

mutual
/-- Truth of a formula. -/
def truth (μ : Nat → D) : TEnv U → (Nat → D) → Form → Prop
  | θ, ρ, .pred p tys args => M.pr p (tyValL M θ tys) (tmValL M θ μ ρ args)
  | _, _, .top => True
  | _, _, .bot => False
  | θ, ρ, .neg f => ¬ truth μ θ ρ f
  | θ, ρ, .and fs => truthAll μ θ ρ fs
  | θ, ρ, .or fs => truthAny μ θ ρ fs
  | θ, ρ, .imp f g => truth μ θ ρ f → truth μ θ ρ g
  | θ, ρ, .equ f g => truth μ θ ρ f ↔ truth μ θ ρ g
  | θ, ρ, .all vs f => qAll M (fun θ' ρ' => truth μ θ' ρ' f) vs θ ρ
  | θ, ρ, .ex vs f => qEx M (fun θ' ρ' => truth μ θ' ρ' f) vs θ ρ
def truthAll (μ : Nat → D) : TEnv U → (Nat → D) → List Form → Prop
  | _, _, [] => True
  | θ, ρ, f :: fs => truth μ θ ρ f ∧ truthAll μ θ ρ fs
def truthAny (μ : Nat → D) : TEnv U → (Nat → D) → List Form → Prop
  | _, _, [] => False
  | θ, ρ, f :: fs => truth μ θ ρ f ∨ truthAny μ θ ρ fs
end

/-! ### Well-sorted formulas -/

/-- Declared types: for a symbol and its type arguments, the types of the arguments and of the result. -/
structure Sig where
  fn : Nat → List Ty → Option (List Ty × Ty)
  pr : Nat → List Ty → Option (List Ty)

variable (S : Sig) (Δ : Nat → Ty)

mutual
/-- The term has the type, for given types of the free variables and of the metavariables. -/
def TmOk (Γ : Nat → Option Ty) : Term → Ty → Prop
  | .var i, τ => Γ i = some τ
  | .mv i, τ => Δ i = τ
  | .fn p tys args, τ => ∃ as, S.fn p tys = some (as, τ) ∧ TmOkL Γ args as
def TmOkL (Γ : Nat → Option Ty) : List Term → List Ty → Prop
  | [], [] => True
  | t :: l, τ :: m => TmOk Γ t τ ∧ TmOkL Γ l m
  | [], _ :: _ => False
  | _ :: _, [] => False
end

/-- Types of variables under a quantifier. -/
def bind (Γ : Nat → Option Ty) (vs : List TVar) : Nat → Option Ty := vs.foldl (fun Γ v => fun i => if i = v.index then some v.ty else Γ i) Γ

mutual
/-- Well-sorted formulas. -/
def FmOk : (Nat → Option Ty) → Form → Prop
  | Γ, .pred p tys args => ∃ as, S.pr p tys = some as ∧ TmOkL S Δ Γ args as
  | _, .top => True
  | _, .bot => True
  | Γ, .neg f => FmOk Γ f
  | Γ, .and fs => FmOkL Γ fs
  | Γ, .or fs => FmOkL Γ fs
  | Γ, .imp f g => FmOk Γ f ∧ FmOk Γ g
  | Γ, .equ f g => FmOk Γ f ∧ FmOk Γ g
  | Γ, .all vs f => FmOk (bind Γ vs) f
  | Γ, .ex vs f => FmOk (bind Γ vs) f
def FmOkL : (Nat → Option Ty) → List Form → Prop
  | _, [] => True
  | Γ, f :: fs => FmOk Γ f ∧ FmOkL Γ fs
end

/-- The elements are of the types. -/
def Fits (θ : TEnv U) : List Ty → List D → Prop
  | [], [] => True
  | τ :: m, d :: l => M.dom (tyVal M θ τ) d ∧ Fits θ m l
  | [], _ :: _ => False
  | _ :: _, [] => False

/-- The structure respects the declared types. -/
def Respecting (θ : TEnv U) : Prop := ∀ p tys as τ, S.fn p tys = some (as, τ) → ∀ ds : List D, Fits M θ as ds →
  M.dom (tyVal M θ τ) (M.fn p (tyValL M θ tys) ds)

/-! ### From many sorts to one -/

open Classical in
/-- The element itself if it is of the type, otherwise some element of the type. -/
noncomputable def cast (u : U) (d : D) : D := if M.dom u d then d else (M.ne u).choose

theorem cast_dom (u : U) (d : D) : M.dom u (cast M u d) := by
  unfold cast
  split
  · assumption
  · exact (M.ne u).choose_spec

theorem cast_id {u : U} {d : D} (h : M.dom u d) : cast M u d = d := by simp [cast, h]

/-- Arguments changed to the declared types. -/
noncomputable def castL (θ : TEnv U) : List Ty → List D → List D
  | τ :: m, d :: l => cast M (tyVal M θ τ) d :: castL θ m l
  | _, l => l

/-- The one-sorted interpretation: functions and predicates first change their arguments. -/
noncomputable def flat (θ : TEnv U) : Interp D where
  fn p tys ds := M.fn p (tyValL M θ tys) (castL M θ (((S.fn p tys).map (·.1)).getD []) ds)
  pr p tys ds := M.pr p (tyValL M θ tys) (castL M θ ((S.pr p tys).getD []) ds)

/-- Values of variables changed to their types. -/
noncomputable def castV (θ : TEnv U) (Γ : Nat → Option Ty) (ρ : Nat → D) : Nat → D := fun i =>
  match Γ i with
  | some τ => cast M (tyVal M θ τ) (ρ i)
  | none => ρ i

noncomputable def castM (θ : TEnv U) (μ : Nat → D) : Nat → D := fun i => cast M (tyVal M θ (Δ i)) (μ i)

variable {M S Δ}

theorem flat_term {θ : TEnv U} (hM : Respecting M S θ) (Γ : Nat → Option Ty) (μ ρ : Nat → D) : ∀ (t : Term) (τ : Ty), TmOk S Δ Γ t τ →
    cast M (tyVal M θ τ) (Term.eval (flat M S θ) ρ μ t) = tmVal M θ (castM M Δ θ μ) (castV M θ Γ ρ) t ∧
      M.dom (tyVal M θ τ) (tmVal M θ (castM M Δ θ μ) (castV M θ Γ ρ) t) := by
  intro t
  induction t using Term.ind with
  | var i =>
    intro τ h
    simp only [TmOk] at h
    simp only [Term.eval, tmVal, castV, h]
    exact ⟨trivial, cast_dom _ _ _⟩
  | mv i =>
    intro τ h
    simp only [TmOk] at h
    subst h
    simp only [Term.eval, tmVal, castM]
    exact ⟨trivial, cast_dom _ _ _⟩
  | fn p tys args ih =>
    intro τ h
    simp only [TmOk] at h
    obtain ⟨as, hS, hl⟩ := h
    have key : ∀ (l : List Term) (m : List Ty), (∀ t ∈ l, t ∈ args) → TmOkL S Δ Γ l m →
        castL M θ m (l.map (Term.eval (flat M S θ) ρ μ)) = tmValL M θ (castM M Δ θ μ) (castV M θ Γ ρ) l ∧
        Fits M θ m (tmValL M θ (castM M Δ θ μ) (castV M θ Γ ρ) l) := by
      intro l
      induction l with
      | nil =>
        intro m _ h
        cases m with
        | nil => exact ⟨by simp [castL, tmValL], trivial⟩
        | cons a m => simp [TmOkL] at h
      | cons t l ihl =>
        intro m hm h
        cases m with
        | nil => simp [TmOkL] at h
        | cons a m =>
          simp only [TmOkL] at h
          obtain ⟨h1, h2⟩ := ih t (hm t (by simp)) a h.1
          obtain ⟨h3, h4⟩ := ihl m (fun t ht => hm t (by simp [ht])) h.2
          exact ⟨by simp [castL, tmValL, h1, h3], h2, h4⟩
    obtain ⟨h1, h2⟩ := key args as (fun _ h => h) hl
    have hv : Term.eval (flat M S θ) ρ μ (.fn p tys args) = tmVal M θ (castM M Δ θ μ) (castV M θ Γ ρ) (.fn p tys args) := by
      simp only [Term.eval, Term.evalL_eq_map, tmVal, flat, hS, Option.map_some, Option.getD_some]
      rw [← h1]
      rfl
    have hd : M.dom (tyVal M θ τ) (tmVal M θ (castM M Δ θ μ) (castV M θ Γ ρ) (.fn p tys args)) := by
      simp only [tmVal]
      exact hM p tys as τ hS _ h2
    exact ⟨by rw [hv]; exact cast_id M hd, hd⟩

theorem flat_args {θ : TEnv U} (hM : Respecting M S θ) (Γ : Nat → Option Ty) (μ ρ : Nat → D) : ∀ (l : List Term) (m : List Ty), TmOkL S Δ Γ l m →
    castL M θ m (l.map (Term.eval (flat M S θ) ρ μ)) = tmValL M θ (castM M Δ θ μ) (castV M θ Γ ρ) l := by
  intro l
  induction l with
  | nil =>
    intro m h
    cases m with
    | nil => simp [castL, tmValL]
    | cons a m => simp [TmOkL] at h
  | cons t l ih =>
    intro m h
    cases m with
    | nil => simp [TmOkL] at h
    | cons a m =>
      simp only [TmOkL] at h
      simp [castL, tmValL, ih m h.2, (flat_term hM Γ μ ρ t a h.1).1]

theorem castV_upd (θ : TEnv U) (Γ : Nat → Option Ty) (ρ : Nat → D) (v : TVar) (d : D) :
    castV M θ (fun i => if i = v.index then some v.ty else Γ i) (upd ρ v.index d) = upd (castV M θ Γ ρ) v.index (cast M (tyVal M θ v.ty) d) := by
  funext i
  by_cases h : i = v.index
  · subst h
    simp [castV, upd]
  · simp [castV, upd, h]

theorem flat_all {θ : TEnv U} {P : (Nat → D) → Prop} {Q : TEnv U → (Nat → D) → Prop} : ∀ (vs : List TVar) (Γ : Nat → Option Ty) (ρ : Nat → D),
    (∀ v ∈ vs, isTType v.ty = false) → (∀ ρ, P ρ ↔ Q θ (castV M θ (bind Γ vs) ρ)) →
    (forallVars P vs ρ ↔ qAll M Q vs θ (castV M θ Γ ρ)) := by
  intro vs
  induction vs with
  | nil => intro Γ ρ _ h; exact h ρ
  | cons v vs ih =>
    intro Γ ρ hv h
    have hf := hv v (by simp)
    simp only [forallVars, qAll, hf, Bool.false_eq_true, if_false]
    have key : ∀ d, forallVars P vs (upd ρ v.index d) ↔ qAll M Q vs θ (upd (castV M θ Γ ρ) v.index (cast M (tyVal M θ v.ty) d)) := by
      intro d
      rw [← castV_upd]
      exact ih _ _ (fun w hw => hv w (by simp [hw])) h
    constructor
    · intro h d hd
      have := (key d).1 (h d)
      rwa [cast_id M hd] at this
    · intro h d
      exact (key d).2 (h _ (cast_dom M _ _))

theorem flat_ex {θ : TEnv U} {P : (Nat → D) → Prop} {Q : TEnv U → (Nat → D) → Prop} : ∀ (vs : List TVar) (Γ : Nat → Option Ty) (ρ : Nat → D),
    (∀ v ∈ vs, isTType v.ty = false) → (∀ ρ, P ρ ↔ Q θ (castV M θ (bind Γ vs) ρ)) →
    (existsVars P vs ρ ↔ qEx M Q vs θ (castV M θ Γ ρ)) := by
  intro vs
  induction vs with
  | nil => intro Γ ρ _ h; exact h ρ
  | cons v vs ih =>
    intro Γ ρ hv h
    have hf := hv v (by simp)
    simp only [existsVars, qEx, hf, Bool.false_eq_true, if_false]
    have key : ∀ d, existsVars P vs (upd ρ v.index d) ↔ qEx M Q vs θ (upd (castV M θ Γ ρ) v.index (cast M (tyVal M θ v.ty) d)) := by
      intro d
      rw [← castV_upd]
      exact ih _ _ (fun w hw => hv w (by simp [hw])) h
    constructor
    · rintro ⟨d, h⟩
      exact ⟨_, cast_dom M _ _, (key d).1 h⟩
    · rintro ⟨d, hd, h⟩
      refine ⟨d, (key d).2 ?_⟩
      rwa [cast_id M hd]

theorem truthAll_iff {μ : Nat → D} {θ : TEnv U} {ρ : Nat → D} {fs : List Form} : truthAll M μ θ ρ fs ↔ ∀ f ∈ fs, truth M μ θ ρ f := by
  induction fs with
  | nil => simp [truthAll]
  | cons f fs ih => simp [truthAll, ih]

theorem truthAny_iff {μ : Nat → D} {θ : TEnv U} {ρ : Nat → D} {fs : List Form} : truthAny M μ θ ρ fs ↔ ∃ f ∈ fs, truth M μ θ ρ f := by
  induction fs with
  | nil => simp [truthAny]
  | cons f fs ih => simp [truthAny, ih]

theorem FmOkL_iff {Γ : Nat → Option Ty} {fs : List Form} : FmOkL S Δ Γ fs ↔ ∀ f ∈ fs, FmOk S Δ Γ f := by
  induction fs with
  | nil => simp [FmOkL]
  | cons f fs ih => simp [FmOkL, ih]

/-- A well-sorted formula without type quantifiers is true in the one-sorted interpretation exactly if it is true in the many-sorted one. -/
theorem flat_truth {θ : TEnv U} (hM : Respecting M S θ) (μ : Nat → D) : ∀ (F : Form) (Γ : Nat → Option Ty) (ρ : Nat → D), FO F → FmOk S Δ Γ F →
    (Form.holds (flat M S θ) μ ρ F ↔ truth M (castM M Δ θ μ) θ (castV M θ Γ ρ) F) := by
  intro F
  induction F using Form.ind with
  | pred p tys args =>
    intro Γ ρ _ h
    simp only [FmOk] at h
    obtain ⟨as, hS, hl⟩ := h
    simp only [Form.holds_pred, truth, flat, hS, Option.getD_some]
    have := flat_args hM Γ μ ρ args as hl
    simp only [flat] at this
    rw [this]
  | top => intro Γ ρ _ _; simp [truth]
  | bot => intro Γ ρ _ _; simp [truth]
  | neg f ih =>
    intro Γ ρ h1 h2
    simp only [Form.holds_neg, truth, ih Γ ρ h1 h2]
  | and fs ih =>
    intro Γ ρ h1 h2
    simp only [FO, FOL_iff, FmOk, FmOkL_iff] at h1 h2
    simp only [Form.holds_and, truth, truthAll_iff]
    exact forall_congr' fun f => forall_congr' fun hf => ih f hf Γ ρ (h1 f hf) (h2 f hf)
  | or fs ih =>
    intro Γ ρ h1 h2
    simp only [FO, FOL_iff, FmOk, FmOkL_iff] at h1 h2
    simp only [Form.holds_or, truth, truthAny_iff]
    exact exists_congr fun f => and_congr_right fun hf => ih f hf Γ ρ (h1 f hf) (h2 f hf)
  | imp f g ihf ihg =>
    intro Γ ρ h1 h2
    simp only [Form.holds_imp, truth, ihf Γ ρ h1.1 h2.1, ihg Γ ρ h1.2 h2.2]
  | equ f g ihf ihg =>
    intro Γ ρ h1 h2
    simp only [Form.holds_equ, truth, ihf Γ ρ h1.1 h2.1, ihg Γ ρ h1.2 h2.2]
  | all vs f ih =>
    intro Γ ρ h1 h2
    simp only [Form.holds_all, truth]
    exact flat_all vs Γ ρ h1.1.2 fun ρ' => ih (bind Γ vs) ρ' h1.2 h2
  | ex vs f ih =>
    intro Γ ρ h1 h2
    simp only [Form.holds_ex, truth]
    exact flat_ex vs Γ ρ h1.1.2 fun ρ' => ih (bind Γ vs) ρ' h1.2 h2

/-! ### Equality as identity -/

theorem forallVars_imp {P Q : (Nat → D) → Prop} {vs : List TVar} (h : ∀ ρ, P ρ → Q ρ) : ∀ {ρ : Nat → D}, forallVars P vs ρ → forallVars Q vs ρ := by
  induction vs with
  | nil => exact fun {ρ} => h ρ
  | cons v vs ih => exact fun {ρ} k d => ih (k d)

theorem existsVars_imp {P Q : (Nat → D) → Prop} {vs : List TVar} (h : ∀ ρ, P ρ → Q ρ) : ∀ {ρ : Nat → D}, existsVars P vs ρ → existsVars Q vs ρ := by
  induction vs with
  | nil => exact fun {ρ} => h ρ
  | cons v vs ih => exact fun {ρ} ⟨d, k⟩ => ⟨d, ih k⟩

/-- The side of an equation is not just a variable. -/
def Compound : Term → Prop
  | .fn _ _ _ => True
  | .var _ => False
  | .mv _ => False

mutual
/-- No equation that occurs positively (for `pol = true`) has a variable as a side. -/
def NoNaked (eq : Nat) : Bool → Form → Prop
  | pol, .pred p _ args => p = eq → pol = true → ∀ t ∈ args, Compound t
  | _, .top => True
  | _, .bot => True
  | pol, .neg f => NoNaked eq (!pol) f
  | pol, .and fs => NoNakedL eq pol fs
  | pol, .or fs => NoNakedL eq pol fs
  | pol, .imp f g => NoNaked eq (!pol) f ∧ NoNaked eq pol g
  | _, .equ f g => (NoNaked eq true f ∧ NoNaked eq false f) ∧ NoNaked eq true g ∧ NoNaked eq false g
  | pol, .all _ f => NoNaked eq pol f
  | pol, .ex _ f => NoNaked eq pol f
def NoNakedL (eq : Nat) : Bool → List Form → Prop
  | _, [] => True
  | pol, f :: fs => NoNaked eq pol f ∧ NoNakedL eq pol fs
end

theorem NoNakedL_iff {eq : Nat} {pol : Bool} {fs : List Form} : NoNakedL eq pol fs ↔ ∀ f ∈ fs, NoNaked eq pol f := by
  induction fs with
  | nil => simp [NoNakedL]
  | cons f fs ih => simp [NoNakedL, ih]

/-- `eq` is declared as a binary predicate on each type. -/
def EqSig (S : Sig) (eq : Nat) : Prop := ∀ tys as, S.pr eq tys = some as → ∃ τ, as = [τ, τ]

/-- `eq` is equality. -/
def EqId (M : MInterp U D) (eq : Nat) : Prop := ∀ us a b, M.pr eq us [a, b] ↔ a = b

variable (M S) in
/-- The one-sorted interpretation with identity for `eq`. -/
noncomputable def flatEq (θ : TEnv U) (eq : Nat) : Interp D where
  fn := (flat M S θ).fn
  pr p tys ds := if p = eq then (match ds with | [a, b] => a = b | _ => False) else (flat M S θ).pr p tys ds

theorem eval_flatEq {θ : TEnv U} {eq : Nat} {μ ρ : Nat → D} (t : Term) : Term.eval (flatEq M S θ eq) ρ μ t = Term.eval (flat M S θ) ρ μ t :=
  Term.eval_congr (fun _ _ => rfl) (fun _ _ => rfl) (fun _ _ => rfl)

/-- The value of a term that is not a variable is of its type. -/
theorem compound_val {θ : TEnv U} (hM : Respecting M S θ) {Γ : Nat → Option Ty} {μ ρ : Nat → D} {t : Term} {τ : Ty} (h : TmOk S Δ Γ t τ)
    (hc : Compound t) : Term.eval (flat M S θ) ρ μ t = tmVal M θ (castM M Δ θ μ) (castV M θ Γ ρ) t := by
  cases t with
  | var i => cases hc
  | mv i => cases hc
  | fn p tys args =>
    simp only [TmOk] at h
    obtain ⟨as, hS, hl⟩ := h
    simp only [Term.eval, Term.evalL_eq_map, tmVal]
    have := flat_args hM Γ μ ρ args as hl
    rw [← this]
    simp [flat, hS]

theorem flatEq_pred {θ : TEnv U} (hM : Respecting M S θ) {eq : Nat} (hS : EqSig S eq) (hE : EqId M eq) (μ : Nat → D) (Γ : Nat → Option Ty) (ρ : Nat → D)
    {tys : List Ty} {args : List Term} (h : FmOk S Δ Γ (.pred eq tys args)) :
    ∃ τ s t, args = [s, t] ∧ TmOk S Δ Γ s τ ∧ TmOk S Δ Γ t τ ∧
      (truth M (castM M Δ θ μ) θ (castV M θ Γ ρ) (.pred eq tys args) ↔ tmVal M θ (castM M Δ θ μ) (castV M θ Γ ρ) s = tmVal M θ (castM M Δ θ μ) (castV M θ Γ ρ) t) ∧
      (Form.holds (flatEq M S θ eq) μ ρ (.pred eq tys args) ↔ Term.eval (flat M S θ) ρ μ s = Term.eval (flat M S θ) ρ μ t) := by
  simp only [FmOk] at h
  obtain ⟨as, h1, h2⟩ := h
  obtain ⟨τ, rfl⟩ := hS tys as h1
  match args, h2 with
  | [s, t], h2 =>
    simp only [TmOkL] at h2
    refine ⟨τ, s, t, rfl, h2.1, h2.2.1, ?_, ?_⟩
    · simp only [truth, tmValL]
      exact hE _ _ _
    · simp only [Form.holds_pred, List.map_cons, List.map_nil, eval_flatEq]
      simp [flatEq]
  | [], h2 => simp [TmOkL] at h2
  | [_], h2 => simp [TmOkL] at h2
  | _ :: _ :: _ :: _, h2 => simp [TmOkL] at h2

/-- A well-sorted formula that is true (false) in the many-sorted structure is true (false) in the one-sorted one, if no equation that occurs
positively (negatively) has a variable as a side. -/
theorem flatEq_truth {θ : TEnv U} (hM : Respecting M S θ) {eq : Nat} (hS : EqSig S eq) (hE : EqId M eq) (μ : Nat → D) : ∀ (F : Form) (pol : Bool)
    (Γ : Nat → Option Ty) (ρ : Nat → D), FO F → FmOk S Δ Γ F → NoNaked eq pol F →
    (pol = true → truth M (castM M Δ θ μ) θ (castV M θ Γ ρ) F → Form.holds (flatEq M S θ eq) μ ρ F) ∧
    (pol = false → Form.holds (flatEq M S θ eq) μ ρ F → truth M (castM M Δ θ μ) θ (castV M θ Γ ρ) F) := by
  intro F
  induction F using Form.ind with
  | pred p tys args =>
    intro pol Γ ρ h1 h2 h3
    by_cases hp : p = eq
    · subst hp
      obtain ⟨τ, s, t, rfl, hs, ht, k1, k2⟩ := flatEq_pred hM hS hE μ Γ ρ h2
      rw [k1, k2]
      refine ⟨fun hpol h => ?_, fun _ h => ?_⟩
      · have h4 : p = p → pol = true → ∀ u ∈ [s, t], Compound u := by simpa only [NoNaked] using h3
        rw [compound_val hM hs (h4 rfl hpol s (by simp)), compound_val hM ht (h4 rfl hpol t (by simp)), h]
      · rw [← (flat_term hM Γ μ ρ s τ hs).1, ← (flat_term hM Γ μ ρ t τ ht).1, h]
    · have : Form.holds (flatEq M S θ eq) μ ρ (.pred p tys args) ↔ Form.holds (flat M S θ) μ ρ (.pred p tys args) := by
        simp only [Form.holds_pred, flatEq, hp, if_false]
        have : args.map (Term.eval (flatEq M S θ eq) ρ μ) = args.map (Term.eval (flat M S θ) ρ μ) :=
          List.map_congr_left fun t _ => eval_flatEq t
        simp only [flatEq] at this
        rw [this]
      rw [this, flat_truth hM μ (.pred p tys args) Γ ρ h1 h2]
      exact ⟨fun _ h => h, fun _ h => h⟩
  | top => intro pol Γ ρ _ _ _; simp [truth]
  | bot => intro pol Γ ρ _ _ _; simp [truth]
  | neg f ih =>
    intro pol Γ ρ h1 h2 h3
    simp only [Form.holds_neg, truth]
    have := ih (!pol) Γ ρ h1 h2 h3
    exact ⟨fun hp h hf => h (this.2 (by simp [hp]) hf), fun hp h hf => h (this.1 (by simp [hp]) hf)⟩
  | and fs ih =>
    intro pol Γ ρ h1 h2 h3
    simp only [FO, FOL_iff, FmOk, FmOkL_iff, NoNaked, NoNakedL_iff] at h1 h2 h3
    simp only [Form.holds_and, truth, truthAll_iff]
    exact ⟨fun hp h f hf => (ih f hf pol Γ ρ (h1 f hf) (h2 f hf) (h3 f hf)).1 hp (h f hf),
      fun hp h f hf => (ih f hf pol Γ ρ (h1 f hf) (h2 f hf) (h3 f hf)).2 hp (h f hf)⟩
  | or fs ih =>
    intro pol Γ ρ h1 h2 h3
    simp only [FO, FOL_iff, FmOk, FmOkL_iff, NoNaked, NoNakedL_iff] at h1 h2 h3
    simp only [Form.holds_or, truth, truthAny_iff]
    exact ⟨fun hp ⟨f, hf, h⟩ => ⟨f, hf, (ih f hf pol Γ ρ (h1 f hf) (h2 f hf) (h3 f hf)).1 hp h⟩,
      fun hp ⟨f, hf, h⟩ => ⟨f, hf, (ih f hf pol Γ ρ (h1 f hf) (h2 f hf) (h3 f hf)).2 hp h⟩⟩
  | imp f g ihf ihg =>
    intro pol Γ ρ h1 h2 h3
    simp only [Form.holds_imp, truth]
    have a := ihf (!pol) Γ ρ h1.1 h2.1 h3.1
    have b := ihg pol Γ ρ h1.2 h2.2 h3.2
    exact ⟨fun hp h hf => b.1 hp (h (a.2 (by simp [hp]) hf)), fun hp h hf => b.2 hp (h (a.1 (by simp [hp]) hf))⟩
  | equ f g ihf ihg =>
    intro pol Γ ρ h1 h2 h3
    simp only [Form.holds_equ, truth]
    have a : _ ↔ _ := ⟨(ihf true Γ ρ h1.1 h2.1 h3.1.1).1 rfl, (ihf false Γ ρ h1.1 h2.1 h3.1.2).2 rfl⟩
    have b : _ ↔ _ := ⟨(ihg true Γ ρ h1.2 h2.2 h3.2.1).1 rfl, (ihg false Γ ρ h1.2 h2.2 h3.2.2).2 rfl⟩
    rw [a, b]
    exact ⟨fun _ h => h, fun _ h => h⟩
  | all vs f ih =>
    intro pol Γ ρ h1 h2 h3
    simp only [Form.holds_all, truth]
    cases pol with
    | true =>
      refine ⟨fun _ h => ?_, by simp⟩
      have h' := (flat_all (P := fun ρ => truth M (castM M Δ θ μ) θ (castV M θ (bind Γ vs) ρ) f) vs Γ ρ h1.1.2 fun ρ => Iff.rfl).2 h
      exact forallVars_imp (fun ρ' => (ih true (bind Γ vs) ρ' h1.2 h2 h3).1 rfl) h'
    | false =>
      refine ⟨by simp, fun _ h => ?_⟩
      refine (flat_all (P := fun ρ => truth M (castM M Δ θ μ) θ (castV M θ (bind Γ vs) ρ) f) vs Γ ρ h1.1.2 fun ρ => Iff.rfl).1 ?_
      exact forallVars_imp (fun ρ' => (ih false (bind Γ vs) ρ' h1.2 h2 h3).2 rfl) h
  | ex vs f ih =>
    intro pol Γ ρ h1 h2 h3
    simp only [Form.holds_ex, truth]
    cases pol with
    | true =>
      refine ⟨fun _ h => ?_, by simp⟩
      have h' := (flat_ex (P := fun ρ => truth M (castM M Δ θ μ) θ (castV M θ (bind Γ vs) ρ) f) vs Γ ρ h1.1.2 fun ρ => Iff.rfl).2 h
      exact existsVars_imp (fun ρ' => (ih true (bind Γ vs) ρ' h1.2 h2 h3).1 rfl) h'
    | false =>
      refine ⟨by simp, fun _ h => ?_⟩
      refine (flat_ex (P := fun ρ => truth M (castM M Δ θ μ) θ (castV M θ (bind Γ vs) ρ) f) vs Γ ρ h1.1.2 fun ρ => Iff.rfl).1 ?_
      exact existsVars_imp (fun ρ' => (ih false (bind Γ vs) ρ' h1.2 h2 h3).2 rfl) h

end Verif.Sorted
