import Verif.Typing.SortedProps
import Verif.Search.Skolem
/-!
# C77: quantifiers over types

The rules for quantified formulas replace a type variable by a type metavariable (universal) or by a type constant (negated universal; existential
quantifiers over types are refused when the problem is read, src/Engine/syntax-translation.go:240-246).
-/

namespace Verif.Sorted

open Verif.AST Verif.Search

variable {U : Type u} {D : Type v} {M : MInterp U D}

/-! ### The model -/

/-- A type variable of a negated universal formula replaced by the constant (`realSkolemize`, src/Core/skolemisation.go:121-157). The types of the
variables that remain in the list are kept as they are. -/
def skoType (c : String) : Form → Option Form
  | .neg (.all (v :: vs) f) =>
    if isTType v.ty then some (.neg (if vs.length > 0 then .all vs (f.substBound v.name (.constr c [])) else f.substBound v.name (.constr c []))) else none
  | _ => none

/-- Steps on the branches of a tableau, with the table of identifiers from which constants are made; the flag tells whether steps on delta formulas
are allowed. There is no step for quantified term variables of delta formulas. -/
inductive TStep : Bool → List (List Form) × Maker → List (List Form) × Maker → Prop where
  | alpha {d : Bool} (pre post : List (List Form)) (b : List Form) (m : Maker) (f : Form) (hf : f ∈ b) (hk : showKind f = .alpha) :
      TStep d (pre ++ b :: post, m) (pre ++ (b ++ applyAlpha f) :: post, m)
  | beta {d : Bool} (pre post : List (List Form)) (b : List Form) (m : Maker) (f : Form) (hf : f ∈ b) (hk : showKind f = .beta) :
      TStep d (pre ++ b :: post, m) (pre ++ (applyBeta f).map (b ++ ·) ++ post, m)
  | gamma {d : Bool} (pre post : List (List Form)) (b : List Form) (m : Maker) (f g : Form) (i k : Nat) (hf : f ∈ b) (hg : instantiate i k f = some g) :
      TStep d (pre ++ b :: post, m) (pre ++ (b ++ [g]) :: post, m)
  | delta (pre post : List (List Form)) (b : List Form) (m : Maker) (f g : Form) (hf : f ∈ b) (hg : skoType (skoTyConst m).1 f = some g) :
      TStep true (pre ++ b :: post, m) (pre ++ (b ++ [g]) :: post, (skoTyConst m).2)

/-- Sequences of steps. -/
inductive TSteps : Bool → List (List Form) × Maker → List (List Form) × Maker → Prop where
  | refl {d : Bool} (s : List (List Form) × Maker) : TSteps d s s
  | tail {d : Bool} {s t r : List (List Form) × Maker} (h : TSteps d s t) (h1 : TStep d t r) : TSteps d s r

/-! ### Specification -/

mutual
/-- A type with its metavariables replaced. -/
def instTy (δ : String → Nat → Ty) : Ty → Ty
  | .var s => .var s
  | .bound s => .bound s
  | .mv s i => δ s i
  | .constr s args => .constr s (instTyL δ args)
  | .prod args => .prod (instTyL δ args)
  | .func a b => .func (instTy δ a) (instTy δ b)
  | .pi vs t => .pi vs (instTy δ t)
def instTyL (δ : String → Nat → Ty) : List Ty → List Ty
  | [] => []
  | a :: l => instTy δ a :: instTyL δ l
end

mutual
/-- A term with its metavariables and its type metavariables replaced. -/
def instTm (δ : String → Nat → Ty) (σ : Nat → Term) : Term → Term
  | .var i => .var i
  | .mv i => σ i
  | .fn p tys args => .fn p (instTyL δ tys) (instTmL δ σ args)
def instTmL (δ : String → Nat → Ty) (σ : Nat → Term) : List Term → List Term
  | [] => []
  | a :: l => instTm δ σ a :: instTmL δ σ l
end

/-- The branch has complementary literals with a common instance. -/
def ClosedBy (δ : String → Nat → Ty) (σ : Nat → Term) (b : List Form) : Prop :=
  ∃ p tys tys' args args', Form.pred p tys args ∈ b ∧ Form.neg (.pred p tys' args') ∈ b ∧ instTyL δ tys = instTyL δ tys' ∧
    instTmL δ σ args = instTmL δ σ args'

/-- The formula is true for all values of its metavariables, in some structure. -/
def Satisfiable (F : Form) : Prop := ∃ (U D : Type) (M : MInterp U D), ∀ (μ ρ : Nat → D) (θ : TEnv U), truth M μ θ ρ F

/-- What a binder binds. -/
def bkey (v : TVar) : String ⊕ Nat := if isTType v.ty then .inl v.name else .inr v.index

mutual
/-- What the quantifiers of a formula bind. -/
def keysF : Form → List (String ⊕ Nat)
  | .pred _ _ _ => []
  | .top => []
  | .bot => []
  | .neg f => keysF f
  | .and fs => keysL fs
  | .or fs => keysL fs
  | .imp f g => keysF f ++ keysF g
  | .equ f g => keysF f ++ keysF g
  | .all vs f => vs.map bkey ++ keysF f
  | .ex vs f => vs.map bkey ++ keysF f
def keysL : List Form → List (String ⊕ Nat)
  | [] => []
  | f :: fs => keysF f ++ keysL fs
end

/-- No variable is bound twice, and the index of no bound variable is that of a function symbol (RenameVariables provides for this). -/
def Clean (F : Form) : Prop := (keysF F).Nodup ∧ ∀ x, .inr x ∈ keysF F → x ∉ F.funs

/-- **C77, as a user would have it.** If steps from a formula lead to a tableau whose branches are all closed by one instance, the formula has no model. -/
def C77_statement : Prop := ∀ (F : Form) (m m' : Maker) (T : List (List Form)) (δ : String → Nat → Ty) (σ : Nat → Term),
    Clean F → TSteps true ([[F]], m) (T, m') → (∀ b ∈ T, ClosedBy δ σ b) → ¬ Satisfiable F

/-! ### Violations -/

def tv (n : String) : TVar := ⟨n, 0, .constr "$tType" []⟩

/-- `∀A. p(A, A)`, and not `∀A, B. p(A, B)`. -/
def twoTypes : Form := .and [.all [tv "A"] (.pred 0 [.bound "A", .bound "A"] []), .neg (.all [tv "A", tv "B"] (.pred 0 [.bound "A", .bound "B"] []))]

/-- `∀A. p(A, A)`, and for each type `A` not `∀B. p(A, B)`. -/
def depTypes : Form := .and [.all [tv "A"] (.pred 0 [.bound "A", .bound "A"] []), .all [tv "B"] (.neg (.all [tv "C"] (.pred 0 [.bound "B", .bound "C"] [])))]

/-- Two types, and `p` is their identity. -/
def twoM : MInterp Bool Unit := ⟨fun _ _ => true, fun _ => true, fun _ => true, fun _ _ => true, fun _ _ => true, fun _ _ => True, fun _ => ⟨(), trivial⟩,
  fun _ _ _ => (), fun _ us _ => match us with | [a, b] => a = b | _ => False⟩

/-- **C77 fails**: the two type variables of the conjecture are replaced by the same constant, so a formula that is true when `p` is the identity of types is
refuted: `∀A, B. p(A, B)` is "proved" from `∀A. p(A, A)`. -/
theorem C77_violated_same : (∃ (m m' : Maker) (T : List (List Form)) (δ : String → Nat → Ty),
    TSteps true ([[twoTypes]], m) (T, m') ∧ ∀ b ∈ T, ClosedBy δ (fun _ => .mv 0) b) ∧ Satisfiable twoTypes := by
  constructor
  · have s0 := TSteps.refl (d := true) ([[twoTypes]], Maker.reset)
    have s1 := s0.tail (TStep.alpha [] [] [twoTypes] _ twoTypes (by simp) rfl)
    have s2 := s1.tail (TStep.delta [] [] _ _ (.neg (.all [tv "A", tv "B"] (.pred 0 [.bound "A", .bound "B"] []))) _ (by decide) rfl)
    have s3 := s2.tail (TStep.delta [] [] _ _ (.neg (.all [tv "B"] (.pred 0 [.constr (skoTyConst Maker.reset).1 [], .bound "B"] []))) _ (by decide) rfl)
    have s4 := s3.tail (TStep.gamma [] [] _ _ (.all [tv "A"] (.pred 0 [.bound "A", .bound "A"] [])) _ 0 7 (by decide) rfl)
    refine ⟨_, _, _, fun _ _ => .constr (skoTyConst Maker.reset).1 [], s4, ?_⟩
    intro b hb
    simp only [List.nil_append, List.mem_singleton] at hb
    subst hb
    exact ⟨0, [.mv "A" 7, .mv "A" 7], [.constr (skoTyConst Maker.reset).1 [], .constr (skoTyConst Maker.reset).1 []], [], [], by decide, by decide, rfl, rfl⟩
  · refine ⟨Bool, Unit, twoM, fun μ ρ θ => ?_⟩
    simp only [twoTypes, truth, truthAll, qAll, tyValL, tyVal, tv]
    refine ⟨?_, ?_, trivial⟩
    · simp [isTType, TEnv.upd, twoM]
    · intro h
      have := h true false
      simp [isTType, TEnv.upd, twoM] at this

/-- **C77 fails also for a single constant**: it does not depend on the type metavariables of the formula, so "for each type there is another one" is
refuted. -/
theorem C77_violated_dependence : Clean depTypes ∧ (∃ (m m' : Maker) (T : List (List Form)) (δ : String → Nat → Ty),
    TSteps true ([[depTypes]], m) (T, m') ∧ ∀ b ∈ T, ClosedBy δ (fun _ => .mv 0) b) ∧ Satisfiable depTypes := by
  refine ⟨⟨by decide, by simp [keysF, keysL, depTypes, bkey, tv, isTType]⟩, ?_, ?_⟩
  · have s0 := TSteps.refl (d := true) ([[depTypes]], Maker.reset)
    have s1 := s0.tail (TStep.alpha [] [] [depTypes] _ depTypes (by simp) rfl)
    have s2 := s1.tail (TStep.gamma [] [] _ _ (.all [tv "A"] (.pred 0 [.bound "A", .bound "A"] [])) _ 0 7 (by decide) rfl)
    have s3 := s2.tail (TStep.gamma [] [] _ _ (.all [tv "B"] (.neg (.all [tv "C"] (.pred 0 [.bound "B", .bound "C"] [])))) _ 0 8 (by decide) rfl)
    have s4 := s3.tail (TStep.delta [] [] _ _ (.neg (.all [tv "C"] (.pred 0 [.mv "B" 8, .bound "C"] []))) _ (by decide) rfl)
    refine ⟨_, _, _, fun _ _ => .constr (skoTyConst Maker.reset).1 [], s4, ?_⟩
    intro b hb
    simp only [List.nil_append, List.mem_singleton] at hb
    subst hb
    exact ⟨0, [.mv "A" 7, .mv "A" 7], [.mv "B" 8, .constr (skoTyConst Maker.reset).1 []], [], [], by decide, by decide, rfl, rfl⟩
  · refine ⟨Bool, Unit, twoM, fun μ ρ θ => ?_⟩
    simp only [depTypes, truth, truthAll, qAll, tyValL, tyVal, tv]
    refine ⟨?_, ?_, trivial⟩
    · simp [isTType, TEnv.upd, twoM]
    · simp only [isTType, decide_true, if_true]
      intro u h
      have := h (!u)
      simp [TEnv.upd, twoM] at this

theorem C77_statement_false : ¬ C77_statement := fun h => by
  obtain ⟨hc, ⟨m, m', T, δ, h1, h2⟩, h3⟩ := C77_violated_dependence
  exact h depTypes m m' T δ _ hc h1 h2 h3

/-! ### Substitution of type variables and of variables -/

theorem keysL_eq (fs : List Form) : keysL fs = fs.flatMap keysF := by
  induction fs with
  | nil => rfl
  | cons f fs ih => simp [keysL, ih]

theorem tyVal_sub (θ : TEnv U) (n : String) (new : Ty) (τ : Ty) :
    tyVal M θ (Ty.substBound n new τ) = tyVal M (θ.upd n (tyVal M θ new)) τ := by
  induction τ using Ty.ind with
  | var s => simp [Ty.substBound, tyVal]
  | bound s => by_cases h : s = n <;> simp [Ty.substBound, tyVal, TEnv.upd, h]
  | mv s i => simp [Ty.substBound, tyVal, TEnv.upd]
  | constr s args ih =>
    simp only [Ty.substBound, tyVal]
    congr 1
    induction args with
    | nil => rfl
    | cons a l ihl => simp only [Ty.substBoundL, tyValL, ih a (by simp), ihl fun a ha => ih a (by simp [ha])]
  | prod args ih =>
    simp only [Ty.substBound, tyVal]
    congr 1
    induction args with
    | nil => rfl
    | cons a l ihl => simp only [Ty.substBoundL, tyValL, ih a (by simp), ihl fun a ha => ih a (by simp [ha])]
  | func a b iha ihb => simp only [Ty.substBound, tyVal, iha, ihb]
  | pi vs t ih => simp only [Ty.substBound, tyVal, ih]

theorem tyValL_sub (θ : TEnv U) (n : String) (new : Ty) (l : List Ty) : tyValL M θ (Ty.substBoundL n new l) = tyValL M (θ.upd n (tyVal M θ new)) l := by
  induction l with
  | nil => rfl
  | cons a l ih => simp only [Ty.substBoundL, tyValL, tyVal_sub θ n new a, ih]

theorem tmVal_sub (θ : TEnv U) (n : String) (new : Ty) (μ ρ : Nat → D) (t : Term) :
    tmVal M θ μ ρ (t.substBound n new) = tmVal M (θ.upd n (tyVal M θ new)) μ ρ t := by
  induction t using Term.ind with
  | var i => rfl
  | mv i => rfl
  | fn p tys args ih =>
    simp only [Term.substBound, tmVal, tyValL_sub]
    congr 1
    induction args with
    | nil => rfl
    | cons a l ihl => simp only [Term.substBoundL, tmValL, ih a (by simp), ihl fun a ha => ih a (by simp [ha])]

theorem tmValL_sub (θ : TEnv U) (n : String) (new : Ty) (μ ρ : Nat → D) (l : List Term) :
    tmValL M θ μ ρ (Term.substBoundL n new l) = tmValL M (θ.upd n (tyVal M θ new)) μ ρ l := by
  induction l with
  | nil => rfl
  | cons a l ih => simp only [Term.substBoundL, tmValL, tmVal_sub, ih]

theorem upd_comm (θ : TEnv U) {m n : String} (h : m ≠ n) (a b : U) : (θ.upd m a).upd n b = (θ.upd n b).upd m a := by
  simp only [TEnv.upd, TEnv.mk.injEq, and_true]
  funext t
  by_cases h1 : t = m
  · subst h1
    simp [h]
  · by_cases h2 : t = n
    · subst h2
      simp [h1]
    · simp [h1, h2]

theorem qAll_sub {P P' : TEnv U → (Nat → D) → Prop} {n : String} {x : TEnv U → U} {g : TVar → TVar} (hx : ∀ θ m u, x (TEnv.upd θ m u) = x θ)
    (hg : ∀ v, (g v).name = v.name ∧ (g v).index = v.index ∧ isTType (g v).ty = isTType v.ty)
    (hP : ∀ θ ρ, P' θ ρ ↔ P (TEnv.upd θ n (x θ)) ρ) : ∀ (vs : List TVar), (.inl n ∉ vs.map bkey) →
    (∀ v ∈ vs, ∀ θ d, M.dom (tyVal M θ (g v).ty) d ↔ M.dom (tyVal M (TEnv.upd θ n (x θ)) v.ty) d) →
    ∀ (θ : TEnv U) (ρ : Nat → D), qAll M P' (vs.map g) θ ρ ↔ qAll M P vs (θ.upd n (x θ)) ρ := by
  intro vs
  induction vs with
  | nil => exact fun _ _ θ ρ => hP θ ρ
  | cons v vs ih =>
    intro hk hd θ ρ
    obtain ⟨g1, g2, g3⟩ := hg v
    simp only [List.map_cons, List.mem_cons, not_or] at hk
    simp only [List.map_cons, qAll, g3]
    have ih' := ih hk.2 fun w hw => hd w (by simp [hw])
    by_cases h : isTType v.ty = true
    · have hne : v.name ≠ n := by
        intro e
        exact hk.1 (by simp [bkey, h, e])
      simp only [h, if_true, g1]
      refine forall_congr' fun u => ?_
      rw [ih', hx, upd_comm θ hne]
    · simp only [h, if_false, g2]
      refine forall_congr' fun d => ?_
      rw [hd v (by simp) θ d, ih']

theorem qEx_sub {P P' : TEnv U → (Nat → D) → Prop} {n : String} {x : TEnv U → U} {g : TVar → TVar} (hx : ∀ θ m u, x (TEnv.upd θ m u) = x θ)
    (hg : ∀ v, (g v).name = v.name ∧ (g v).index = v.index ∧ isTType (g v).ty = isTType v.ty)
    (hP : ∀ θ ρ, P' θ ρ ↔ P (TEnv.upd θ n (x θ)) ρ) : ∀ (vs : List TVar), (.inl n ∉ vs.map bkey) →
    (∀ v ∈ vs, ∀ θ d, M.dom (tyVal M θ (g v).ty) d ↔ M.dom (tyVal M (TEnv.upd θ n (x θ)) v.ty) d) →
    ∀ (θ : TEnv U) (ρ : Nat → D), qEx M P' (vs.map g) θ ρ ↔ qEx M P vs (θ.upd n (x θ)) ρ := by
  intro vs
  induction vs with
  | nil => exact fun _ _ θ ρ => hP θ ρ
  | cons v vs ih =>
    intro hk hd θ ρ
    obtain ⟨g1, g2, g3⟩ := hg v
    simp only [List.map_cons, List.mem_cons, not_or] at hk
    simp only [List.map_cons, qEx, g3]
    have ih' := ih hk.2 fun w hw => hd w (by simp [hw])
    by_cases h : isTType v.ty = true
    · have hne : v.name ≠ n := by
        intro e
        exact hk.1 (by simp [bkey, h, e])
      simp only [h, if_true, g1]
      refine exists_congr fun u => ?_
      rw [ih', hx, upd_comm θ hne]
    · simp only [h, if_false, g2]
      refine exists_congr fun d => ?_
      rw [hd v (by simp) θ d, ih']

/-- Types that may replace a type variable: metavariables and constants other than `$tType`. -/
def Plain (τ : Ty) : Prop := (∃ s i, τ = .mv s i) ∨ ∃ c, c ≠ "$tType" ∧ τ = .constr c []

theorem Plain.val {τ : Ty} (h : Plain τ) (θ : TEnv U) (m : String) (u : U) : tyVal M (θ.upd m u) τ = tyVal M θ τ := by
  rcases h with ⟨s, i, rfl⟩ | ⟨c, -, rfl⟩ <;> simp [tyVal, tyValL, TEnv.upd]

theorem Plain.ttype {τ : Ty} (h : Plain τ) (n : String) (σ : Ty) : isTType (Ty.substBound n τ σ) = isTType σ := by
  cases σ with
  | bound s =>
    by_cases e : s = n
    · rcases h with ⟨t, i, rfl⟩ | ⟨c, hc, rfl⟩ <;> simp [isTType, Ty.substBound, e]
      exact hc
    · simp [isTType, Ty.substBound, e]
  | constr c l => cases l <;> simp [isTType, Ty.substBound, Ty.substBoundL]
  | _ => simp [isTType, Ty.substBound]

theorem Form.substBoundL_eq (n : String) (new : Ty) (fs : List Form) : Form.substBoundL n new fs = fs.map (Form.substBound n new) := by
  induction fs with
  | nil => rfl
  | cons f fs ih => simp [Form.substBoundL, ih]

/-- Replacing a type variable that the formula does not bind. -/
theorem truth_sub {n : String} {new : Ty} (hn : Plain new) (μ : Nat → D) (F : Form) : .inl n ∉ keysF F → ∀ (θ : TEnv U) (ρ : Nat → D),
    truth M μ θ ρ (F.substBound n new) ↔ truth M μ (θ.upd n (tyVal M θ new)) ρ F := by
  induction F using Form.ind with
  | pred p tys args => intro _ θ ρ; simp only [Form.substBound, truth, tyValL_sub, tmValL_sub]
  | top => intro _ θ ρ; simp [Form.substBound, truth]
  | bot => intro _ θ ρ; simp [Form.substBound, truth]
  | neg f ih => intro h θ ρ; simp only [Form.substBound, truth, ih h θ ρ]
  | and fs ih =>
    intro h θ ρ
    simp only [keysF, keysL_eq, List.mem_flatMap, not_exists, not_and] at h
    simp only [Form.substBound, truth, truthAll_iff, Form.substBoundL_eq, List.mem_map, forall_exists_index, and_imp, forall_apply_eq_imp_iff₂]
    exact forall₂_congr fun f hf => ih f hf (h f hf) θ ρ
  | or fs ih =>
    intro h θ ρ
    simp only [keysF, keysL_eq, List.mem_flatMap, not_exists, not_and] at h
    simp only [Form.substBound, truth, truthAny_iff, Form.substBoundL_eq, List.mem_map, exists_exists_and_eq_and]
    exact exists_congr fun f => and_congr_right fun hf => ih f hf (h f hf) θ ρ
  | imp f g ihf ihg =>
    intro h θ ρ
    simp only [keysF, List.mem_append, not_or] at h
    simp only [Form.substBound, truth, ihf h.1 θ ρ, ihg h.2 θ ρ]
  | equ f g ihf ihg =>
    intro h θ ρ
    simp only [keysF, List.mem_append, not_or] at h
    simp only [Form.substBound, truth, ihf h.1 θ ρ, ihg h.2 θ ρ]
  | all vs f ih =>
    intro h θ ρ
    simp only [keysF, List.mem_append, not_or] at h
    simp only [Form.substBound, truth]
    exact qAll_sub (M := M) (P := fun θ ρ => truth M μ θ ρ f) (P' := fun θ ρ => truth M μ θ ρ (f.substBound n new)) (x := fun θ => tyVal M θ new)
      (g := fun v => { v with ty := Ty.substBound n new v.ty }) (fun θ m u => hn.val θ m u) (fun v => ⟨rfl, rfl, hn.ttype n v.ty⟩) (fun θ ρ => ih h.2 θ ρ) vs h.1
      (fun v _ θ d => by rw [tyVal_sub θ n new v.ty]) θ ρ
  | ex vs f ih =>
    intro h θ ρ
    simp only [keysF, List.mem_append, not_or] at h
    simp only [Form.substBound, truth]
    exact qEx_sub (M := M) (P := fun θ ρ => truth M μ θ ρ f) (P' := fun θ ρ => truth M μ θ ρ (f.substBound n new)) (x := fun θ => tyVal M θ new)
      (g := fun v => { v with ty := Ty.substBound n new v.ty }) (fun θ m u => hn.val θ m u) (fun v => ⟨rfl, rfl, hn.ttype n v.ty⟩) (fun θ ρ => ih h.2 θ ρ) vs h.1
      (fun v _ θ d => by rw [tyVal_sub θ n new v.ty]) θ ρ


theorem tmVal_repl {θ : TEnv U} {μ ρ : Nat → D} {x m : Nat} (t : Term) (h : x ∉ t.funs) :
    tmVal M θ μ ρ (replT (.var x) (.mv m) t).1 = tmVal M θ μ (upd ρ x (μ m)) t := by
  induction t using Term.ind with
  | var i =>
    rw [replT_var_fst]
    split
    · subst_vars; simp [tmVal, upd]
    · rename_i h; simp [tmVal, upd, Ne.symm h]
  | mv i => simp [replT, tmVal]
  | fn p tys args ih =>
    simp only [Term.funs, List.mem_cons, not_or, Term.mem_funsL, not_exists, not_and] at h
    rw [replT_fn_fst, if_neg h.1]
    simp only [tmVal]
    congr 1
    obtain ⟨-, h⟩ := h
    induction args with
    | nil => rfl
    | cons a l ihl =>
      simp only [List.map_cons, tmValL]
      rw [ih a (by simp) (h a (by simp)), ihl (fun a ha => ih a (by simp [ha])) fun a ha => h a (by simp [ha])]

theorem tmValL_repl {θ : TEnv U} {μ ρ : Nat → D} {x m : Nat} (l : List Term) (h : x ∉ Term.funsL l) :
    tmValL M θ μ ρ (replTL (.var x) (.mv m) l).1 = tmValL M θ μ (upd ρ x (μ m)) l := by
  induction l with
  | nil => rfl
  | cons a l ih =>
    simp only [Term.mem_funsL, not_exists, not_and] at h ih
    simp only [replTL, tmValL]
    rw [tmVal_repl a (h a (by simp)), ih fun a ha => h a (by simp [ha])]

theorem qAll_updV {P : TEnv U → (Nat → D) → Prop} {x : Nat} (c : D) : ∀ (vs : List TVar), (.inr x ∉ vs.map bkey) → ∀ (θ : TEnv U) (ρ : Nat → D),
    qAll M (fun θ ρ => P θ (upd ρ x c)) vs θ ρ ↔ qAll M P vs θ (upd ρ x c) := by
  intro vs
  induction vs with
  | nil => exact fun _ θ ρ => Iff.rfl
  | cons v vs ih =>
    intro hk θ ρ
    simp only [List.map_cons, List.mem_cons, not_or] at hk
    simp only [qAll]
    by_cases h : isTType v.ty = true
    · simp only [h, if_true]
      exact forall_congr' fun u => ih hk.2 _ _
    · have hne : v.index ≠ x := by
        intro e
        exact hk.1 (by simp [bkey, h, e])
      simp only [h, if_false]
      refine forall_congr' fun d => imp_congr_right fun _ => ?_
      rw [ih hk.2, AST.upd_comm _ _ _ hne]

theorem qEx_updV {P : TEnv U → (Nat → D) → Prop} {x : Nat} (c : D) : ∀ (vs : List TVar), (.inr x ∉ vs.map bkey) → ∀ (θ : TEnv U) (ρ : Nat → D),
    qEx M (fun θ ρ => P θ (upd ρ x c)) vs θ ρ ↔ qEx M P vs θ (upd ρ x c) := by
  intro vs
  induction vs with
  | nil => exact fun _ θ ρ => Iff.rfl
  | cons v vs ih =>
    intro hk θ ρ
    simp only [List.map_cons, List.mem_cons, not_or] at hk
    simp only [qEx]
    by_cases h : isTType v.ty = true
    · simp only [h, if_true]
      exact exists_congr fun u => ih hk.2 _ _
    · have hne : v.index ≠ x := by
        intro e
        exact hk.1 (by simp [bkey, h, e])
      simp only [h, if_false]
      refine exists_congr fun d => and_congr_right fun _ => ?_
      rw [ih hk.2, AST.upd_comm _ _ _ hne]

/-- Replacing a variable that the formula does not bind by a metavariable. -/
theorem truth_subV {x m : Nat} (μ : Nat → D) (F : Form) : .inr x ∉ keysF F → x ∉ F.funs → ∀ (θ : TEnv U) (ρ : Nat → D),
    truth M μ θ ρ (F.substituteVarByMeta x m) ↔ truth M μ θ (upd ρ x (μ m)) F := by
  induction F using Form.ind with
  | pred p tys args =>
    intro _ h θ ρ
    simp only [Form.substituteVarByMeta, Form.replaceTermByTerm, truth]
    rw [tmValL_repl args h]
  | top => intro _ _ θ ρ; simp [Form.substituteVarByMeta, truth]
  | bot => intro _ _ θ ρ; simp [Form.substituteVarByMeta, truth]
  | neg f ih => intro h h' θ ρ; simp only [Form.substituteVarByMeta, truth, ih h h' θ ρ]
  | and fs ih =>
    intro h h' θ ρ
    simp only [keysF, keysL_eq, List.mem_flatMap, not_exists, not_and] at h
    simp only [Form.substituteVarByMeta, truth, truthAll_iff, Form.substituteVarByMetaL_eq, List.mem_map, forall_exists_index, and_imp, forall_apply_eq_imp_iff₂]
    exact forall₂_congr fun f hf => ih f hf (h f hf) (fun hx => h' (Form.mem_funsL.2 ⟨f, hf, hx⟩)) θ ρ
  | or fs ih =>
    intro h h' θ ρ
    simp only [keysF, keysL_eq, List.mem_flatMap, not_exists, not_and] at h
    simp only [Form.substituteVarByMeta, truth, truthAny_iff, Form.substituteVarByMetaL_eq, List.mem_map, exists_exists_and_eq_and]
    exact exists_congr fun f => and_congr_right fun hf => ih f hf (h f hf) (fun hx => h' (Form.mem_funsL.2 ⟨f, hf, hx⟩)) θ ρ
  | imp f g ihf ihg =>
    intro h h' θ ρ
    simp only [keysF, Form.funs, List.mem_append, not_or] at h h'
    simp only [Form.substituteVarByMeta, truth, ihf h.1 h'.1 θ ρ, ihg h.2 h'.2 θ ρ]
  | equ f g ihf ihg =>
    intro h h' θ ρ
    simp only [keysF, Form.funs, List.mem_append, not_or] at h h'
    simp only [Form.substituteVarByMeta, truth, ihf h.1 h'.1 θ ρ, ihg h.2 h'.2 θ ρ]
  | all vs f ih =>
    intro h h' θ ρ
    simp only [keysF, List.mem_append, not_or] at h
    simp only [Form.substituteVarByMeta, truth]
    rw [← qAll_updV (μ m) vs h.1]
    exact qAll_congr (fun θ ρ => ih h.2 h' θ ρ) vs θ ρ
  | ex vs f ih =>
    intro h h' θ ρ
    simp only [keysF, List.mem_append, not_or] at h
    simp only [Form.substituteVarByMeta, truth]
    rw [← qEx_updV (μ m) vs h.1]
    exact qEx_congr (fun θ ρ => ih h.2 h' θ ρ) vs θ ρ

theorem keysF_sub {n : String} {new : Ty} (hn : Plain new) (F : Form) : keysF (F.substBound n new) = keysF F ∧ (F.substBound n new).funs = F.funs := by
  have hT : ∀ t : Term, (t.substBound n new).funs = t.funs := by
    intro t
    induction t using Term.ind with
    | var i => rfl
    | mv i => rfl
    | fn p tys args ih =>
      simp only [Term.substBound, Term.funs]
      congr 1
      induction args with
      | nil => rfl
      | cons a l ihl => simp only [Term.substBoundL, Term.funsL, ih a (by simp), ihl fun a ha => ih a (by simp [ha])]
  have hL : ∀ l : List Term, Term.funsL (Term.substBoundL n new l) = Term.funsL l := by
    intro l
    induction l with
    | nil => rfl
    | cons a l ih => simp only [Term.substBoundL, Term.funsL, hT, ih]
  have hk : ∀ vs : List TVar, (vs.map fun v => ({ v with ty := Ty.substBound n new v.ty } : TVar)).map bkey = vs.map bkey := by
    intro vs
    rw [List.map_map]
    exact List.map_congr_left fun v _ => by simp [bkey, hn.ttype]
  induction F using Form.ind with
  | pred p tys args => exact ⟨rfl, hL args⟩
  | top => exact ⟨rfl, rfl⟩
  | bot => exact ⟨rfl, rfl⟩
  | neg f ih => exact ih
  | and fs ih =>
    simp only [Form.substBound, keysF, Form.funs]
    induction fs with
    | nil => exact ⟨rfl, rfl⟩
    | cons f fs ihf =>
      obtain ⟨h1, h2⟩ := ih f (by simp)
      obtain ⟨h3, h4⟩ := ihf fun f hf => ih f (by simp [hf])
      simp only [Form.substBoundL, keysL, Form.funsL, h1, h2, h3, h4]
      exact ⟨trivial, trivial⟩
  | or fs ih =>
    simp only [Form.substBound, keysF, Form.funs]
    induction fs with
    | nil => exact ⟨rfl, rfl⟩
    | cons f fs ihf =>
      obtain ⟨h1, h2⟩ := ih f (by simp)
      obtain ⟨h3, h4⟩ := ihf fun f hf => ih f (by simp [hf])
      simp only [Form.substBoundL, keysL, Form.funsL, h1, h2, h3, h4]
      exact ⟨trivial, trivial⟩
  | imp f g ihf ihg => simp only [Form.substBound, keysF, Form.funs, ihf.1, ihf.2, ihg.1, ihg.2]; exact ⟨trivial, trivial⟩
  | equ f g ihf ihg => simp only [Form.substBound, keysF, Form.funs, ihf.1, ihf.2, ihg.1, ihg.2]; exact ⟨trivial, trivial⟩
  | all vs f ih => simp only [Form.substBound, keysF, Form.funs, ih.1, ih.2, hk]; exact ⟨trivial, trivial⟩
  | ex vs f ih => simp only [Form.substBound, keysF, Form.funs, ih.1, ih.2, hk]; exact ⟨trivial, trivial⟩

theorem keysF_subV {x m : Nat} (F : Form) : keysF (F.substituteVarByMeta x m) = keysF F := by
  induction F using Form.ind with
  | pred p tys args => rfl
  | top => rfl
  | bot => rfl
  | neg f ih => exact ih
  | and fs ih =>
    simp only [Form.substituteVarByMeta, keysF, Form.substituteVarByMetaL_eq]
    induction fs with
    | nil => rfl
    | cons f fs ihf => simp only [List.map_cons, keysL, ih f (by simp), ihf fun f hf => ih f (by simp [hf])]
  | or fs ih =>
    simp only [Form.substituteVarByMeta, keysF, Form.substituteVarByMetaL_eq]
    induction fs with
    | nil => rfl
    | cons f fs ihf => simp only [List.map_cons, keysL, ih f (by simp), ihf fun f hf => ih f (by simp [hf])]
  | imp f g ihf ihg => simp only [Form.substituteVarByMeta, keysF, ihf, ihg]
  | equ f g ihf ihg => simp only [Form.substituteVarByMeta, keysF, ihf, ihg]
  | all vs f ih => simp only [Form.substituteVarByMeta, keysF, ih]
  | ex vs f ih => simp only [Form.substituteVarByMeta, keysF, ih]

theorem funs_subV {x m : Nat} (F : Form) {i : Nat} (h : i ∈ (F.substituteVarByMeta x m).funs) : i ∈ F.funs := by
  rw [Form.substituteVarByMeta_eq] at h
  rcases Form.replaceTermByTerm_funs x (.mv m) (by simp) h with h | h
  · exact h
  · simp [Term.funs] at h

/-! ### The rules -/

/-- Elements are not told apart by types. -/
def OneSorted (M : MInterp U D) : Prop := ∀ u d, M.dom u d

theorem truth_allOr {μ : Nat → D} {θ : TEnv U} {ρ : Nat → D} (vs : List TVar) (f : Form) :
    truth M μ θ ρ (if vs.length > 0 then .all vs f else f) ↔ qAll M (fun θ ρ => truth M μ θ ρ f) vs θ ρ := by
  cases vs with
  | nil => simp [qAll]
  | cons v vs => simp [truth]

theorem truth_exOr {μ : Nat → D} {θ : TEnv U} {ρ : Nat → D} (vs : List TVar) (f : Form) :
    truth M μ θ ρ (if vs.length > 0 then .ex vs f else f) ↔ qEx M (fun θ ρ => truth M μ θ ρ f) vs θ ρ := by
  cases vs with
  | nil => simp [qEx]
  | cons v vs => simp [truth]

theorem keys_allOr (vs : List TVar) (f : Form) : keysF (if vs.length > 0 then .all vs f else f) = vs.map bkey ++ keysF f ∧
    (if vs.length > 0 then Form.all vs f else f).funs = f.funs := by
  cases vs with
  | nil => simp
  | cons v vs => simp [keysF, Form.funs]

theorem keys_exOr (vs : List TVar) (f : Form) : keysF (if vs.length > 0 then .ex vs f else f) = vs.map bkey ++ keysF f ∧
    (if vs.length > 0 then Form.ex vs f else f).funs = f.funs := by
  cases vs with
  | nil => simp
  | cons v vs => simp [keysF, Form.funs]

theorem instFirst_clean {i k : Nat} {v : TVar} {f : Form} : keysF (instFirst i k v f) = keysF f ∧ ∀ x ∈ (instFirst i k v f).funs, x ∈ f.funs := by
  unfold instFirst
  split
  · obtain ⟨h1, h2⟩ := keysF_sub (n := v.name) (new := .mv v.name k) (Or.inl ⟨_, _, rfl⟩) f
    exact ⟨h1, by rw [h2]; exact fun _ h => h⟩
  · exact ⟨keysF_subV f, fun x h => funs_subV f h⟩

theorem instFirst_all (hM : OneSorted M) {i k : Nat} {v : TVar} {vs : List TVar} {f : Form} (hk : (bkey v :: (vs.map bkey ++ keysF f)).Nodup)
    (hf : ∀ x, .inr x ∈ bkey v :: (vs.map bkey ++ keysF f) → x ∉ f.funs) {μ ρ : Nat → D} {θ : TEnv U} (h : qAll M (fun θ ρ => truth M μ θ ρ f) (v :: vs) θ ρ) :
    qAll M (fun θ ρ => truth M μ θ ρ (instFirst i k v f)) vs θ ρ := by
  simp only [List.nodup_cons, List.mem_append, not_or] at hk
  by_cases ht : isTType v.ty = true
  · have hb : bkey v = .inl v.name := by simp [bkey, ht]
    rw [hb] at hk
    simp only [instFirst, ht, if_true, qAll] at h ⊢
    have := (qAll_sub (M := M) (P := fun θ ρ => truth M μ θ ρ f) (P' := fun θ ρ => truth M μ θ ρ (f.substBound v.name (.mv v.name k)))
      (n := v.name) (x := fun θ => tyVal M θ (.mv v.name k)) (g := id) (fun θ m u => rfl) (fun v => ⟨rfl, rfl, rfl⟩)
      (fun θ ρ => truth_sub (Or.inl ⟨_, _, rfl⟩) μ f hk.1.2 θ ρ) vs hk.1.1 (fun v _ θ d => ⟨fun _ => hM _ _, fun _ => hM _ _⟩) θ ρ).2 (h _)
    simpa using this
  · have hb : bkey v = .inr v.index := by simp [bkey, ht]
    rw [hb] at hk hf
    simp only [instFirst, ht, if_false, qAll] at h ⊢
    have := (qAll_updV (P := fun θ ρ => truth M μ θ ρ f) (μ i) vs hk.1.1 θ ρ).2 (h (μ i) (hM _ _))
    exact (qAll_congr (fun θ ρ => truth_subV μ f hk.1.2 (hf v.index (by simp)) θ ρ) vs θ ρ).2 this

theorem instFirst_ex (hM : OneSorted M) {i k : Nat} {v : TVar} {vs : List TVar} {f : Form} (hk : (bkey v :: (vs.map bkey ++ keysF f)).Nodup)
    (hf : ∀ x, .inr x ∈ bkey v :: (vs.map bkey ++ keysF f) → x ∉ f.funs) {μ ρ : Nat → D} {θ : TEnv U}
    (h : qEx M (fun θ ρ => truth M μ θ ρ (instFirst i k v f)) vs θ ρ) : qEx M (fun θ ρ => truth M μ θ ρ f) (v :: vs) θ ρ := by
  simp only [List.nodup_cons, List.mem_append, not_or] at hk
  by_cases ht : isTType v.ty = true
  · have hb : bkey v = .inl v.name := by simp [bkey, ht]
    rw [hb] at hk
    simp only [instFirst, ht, if_true, qEx] at h ⊢
    refine ⟨_, (qEx_sub (M := M) (P := fun θ ρ => truth M μ θ ρ f) (P' := fun θ ρ => truth M μ θ ρ (f.substBound v.name (.mv v.name k)))
      (n := v.name) (x := fun θ => tyVal M θ (.mv v.name k)) (g := id) (fun θ m u => rfl) (fun v => ⟨rfl, rfl, rfl⟩)
      (fun θ ρ => truth_sub (Or.inl ⟨_, _, rfl⟩) μ f hk.1.2 θ ρ) vs hk.1.1 (fun v _ θ d => ⟨fun _ => hM _ _, fun _ => hM _ _⟩) θ ρ).1 (by simpa using h)⟩
  · have hb : bkey v = .inr v.index := by simp [bkey, ht]
    rw [hb] at hk hf
    simp only [instFirst, ht, if_false, qEx] at h ⊢
    refine ⟨μ i, hM _ _, (qEx_updV (P := fun θ ρ => truth M μ θ ρ f) (μ i) vs hk.1.1 θ ρ).1 ?_⟩
    exact (qEx_congr (fun θ ρ => truth_subV μ f hk.1.2 (hf v.index (by simp)) θ ρ) vs θ ρ).1 h

/-- `Instantiate` keeps truth. -/
theorem instantiate_truth (hM : OneSorted M) {i k : Nat} {F G : Form} (hc : Clean F) (h : instantiate i k F = some G) :
    Clean G ∧ ∀ (μ ρ : Nat → D) (θ : TEnv U), truth M μ θ ρ F → truth M μ θ ρ G := by
  obtain ⟨hk, hf⟩ := hc
  unfold instantiate at h
  split at h
  · rename_i v vs f
    simp only [Option.some.injEq] at h
    subst h
    obtain ⟨k1, k2⟩ := keys_exOr vs (instFirst i k v f)
    obtain ⟨k3, k4⟩ := instFirst_clean (i := i) (k := k) (v := v) (f := f)
    refine ⟨⟨?_, fun x hx hx' => ?_⟩, fun μ ρ θ ht => ?_⟩
    · show (keysF (if vs.length > 0 then .ex vs (instFirst i k v f) else instFirst i k v f)).Nodup
      rw [k1, k3]
      exact (List.nodup_cons.1 hk).2
    · have hx : Sum.inr x ∈ keysF (if vs.length > 0 then .ex vs (instFirst i k v f) else instFirst i k v f) := hx
      have hx' : x ∈ (if vs.length > 0 then Form.ex vs (instFirst i k v f) else instFirst i k v f).funs := hx'
      rw [k1, k3] at hx
      rw [k2] at hx'
      exact hf x (List.mem_cons_of_mem _ hx) (k4 x hx')
    · simp only [truth] at ht ⊢
      rw [truth_exOr]
      exact fun hx => ht (instFirst_ex hM hk hf hx)
  · rename_i v vs f
    simp only [Option.some.injEq] at h
    subst h
    obtain ⟨k1, k2⟩ := keys_allOr vs (instFirst i k v f)
    obtain ⟨k3, k4⟩ := instFirst_clean (i := i) (k := k) (v := v) (f := f)
    refine ⟨⟨?_, fun x hx hx' => ?_⟩, fun μ ρ θ ht => ?_⟩
    · rw [k1, k3]
      exact (List.nodup_cons.1 hk).2
    · rw [k1, k3] at hx
      rw [k2] at hx'
      exact hf x (List.mem_cons_of_mem _ hx) (k4 x hx')
    · simp only [truth] at ht
      rw [truth_allOr]
      exact instFirst_all hM hk hf ht
  · cases h

theorem Clean.sub {F G : Form} (h : Clean F) (h1 : List.Sublist (keysF G) (keysF F)) (h2 : ∀ x ∈ G.funs, x ∈ F.funs) : Clean G :=
  ⟨h.1.sublist h1, fun x hx hx' => h.2 x (h1.subset hx) (h2 x hx')⟩

theorem Clean.memL {fs : List Form} {f : Form} (hf : f ∈ fs) : List.Sublist (keysF f) (keysL fs) ∧ ∀ x ∈ f.funs, x ∈ Form.funsL fs := by
  refine ⟨?_, fun x hx => Form.mem_funsL.2 ⟨f, hf, hx⟩⟩
  rw [keysL_eq]
  induction fs with
  | nil => cases hf
  | cons g fs ih =>
    rw [List.flatMap_cons]
    rcases List.mem_cons.1 hf with rfl | hf
    · exact List.sublist_append_left _ _
    · exact (ih hf).trans (List.sublist_append_right _ _)

theorem alpha_truth {f : Form} (hc : Clean f) : ∀ g ∈ applyAlpha f, Clean g ∧ ∀ (μ ρ : Nat → D) (θ : TEnv U), truth M μ θ ρ f → truth M μ θ ρ g := by
  intro g hg
  unfold applyAlpha at hg
  split at hg <;> simp only [mem_appendNew, mem_foldl_appendNew, mem_foldl_appendNew_id, List.not_mem_nil, false_or] at hg
  · subst hg
    exact ⟨hc, fun μ ρ θ h => by simpa [truth] using h⟩
  · rename_i fs
    obtain ⟨x, hx, rfl⟩ := hg
    refine ⟨hc.sub (Clean.memL hx).1 (Clean.memL hx).2, fun μ ρ θ h => ?_⟩
    simp only [truth, truthAny_iff, not_exists, not_and] at h ⊢
    exact h x hx
  · rename_i a b
    rcases hg with rfl | rfl
    · refine ⟨hc.sub (List.sublist_append_left _ _) (fun x hx => List.mem_append_left _ hx), fun μ ρ θ h => ?_⟩
      simp only [truth, Classical.not_imp] at h
      exact h.1
    · refine ⟨hc.sub (List.sublist_append_right _ _) (fun x hx => List.mem_append_right _ hx), fun μ ρ θ h => ?_⟩
      simp only [truth, Classical.not_imp] at h ⊢
      exact h.2
  · rename_i fs
    refine ⟨hc.sub (Clean.memL hg).1 (Clean.memL hg).2, fun μ ρ θ h => ?_⟩
    simp only [truth, truthAll_iff] at h
    exact h g hg

theorem beta_truth {f : Form} (hk : showKind f = .beta) (hc : Clean f) : (∀ l ∈ applyBeta f, ∀ g ∈ l, Clean g) ∧
    ∀ (μ ρ : Nat → D) (θ : TEnv U), truth M μ θ ρ f → ∃ l ∈ applyBeta f, ∀ g ∈ l, truth M μ θ ρ g := by
  have left : ∀ {a b : Form}, Clean (.imp a b) → Clean a ∧ Clean b := fun h =>
    ⟨h.sub (List.sublist_append_left _ _) (fun x hx => List.mem_append_left _ hx), h.sub (List.sublist_append_right _ _) (fun x hx => List.mem_append_right _ hx)⟩
  unfold applyBeta
  split
  · rename_i fs
    refine ⟨fun l hl g hg => ?_, fun μ ρ θ h => ?_⟩
    · obtain ⟨x, hx, rfl⟩ := List.mem_map.1 hl
      obtain rfl := List.mem_singleton.1 hg
      exact hc.sub (Clean.memL hx).1 (Clean.memL hx).2
    · simp only [truth, truthAll_iff, Classical.not_forall] at h
      obtain ⟨x, hx, h⟩ := h
      exact ⟨[.neg x], List.mem_map.2 ⟨x, hx, rfl⟩, by simpa [truth] using h⟩
  · rename_i a b
    have := left (a := a) (b := b) hc
    refine ⟨fun l hl g hg => ?_, fun μ ρ θ h => ?_⟩
    · simp only [List.mem_cons, List.not_mem_nil, or_false] at hl
      rcases hl with rfl | rfl <;> simp only [List.mem_cons, List.not_mem_nil, or_false] at hg <;> rcases hg with rfl | rfl <;> first | exact this.1 | exact this.2
    · simp only [truth] at h
      by_cases ha : truth M μ θ ρ a
      · exact ⟨[a, .neg b], by simp, by simpa [truth, ha] using fun hb => h ⟨fun _ => hb, fun _ => ha⟩⟩
      · refine ⟨[.neg a, b], by simp, ?_⟩
        have : truth M μ θ ρ b := Classical.byContradiction fun hb => h ⟨fun x => absurd x ha, fun x => absurd x hb⟩
        simpa [truth, ha] using this
  · rename_i fs
    refine ⟨fun l hl g hg => ?_, fun μ ρ θ h => ?_⟩
    · obtain ⟨x, hx, rfl⟩ := List.mem_map.1 hl
      obtain rfl := List.mem_singleton.1 hg
      exact hc.sub (Clean.memL hx).1 (Clean.memL hx).2
    · simp only [truth, truthAny_iff] at h
      obtain ⟨x, hx, h⟩ := h
      exact ⟨[x], List.mem_map.2 ⟨x, hx, rfl⟩, by simpa using h⟩
  · rename_i a b
    have := left (a := a) (b := b) hc
    refine ⟨fun l hl g hg => ?_, fun μ ρ θ h => ?_⟩
    · simp only [List.mem_cons, List.not_mem_nil, or_false] at hl
      rcases hl with rfl | rfl <;> obtain rfl := List.mem_singleton.1 hg <;> first | exact this.1 | exact this.2
    · simp only [truth] at h
      by_cases ha : truth M μ θ ρ a
      · exact ⟨[b], by simp, by simpa using h ha⟩
      · exact ⟨[.neg a], by simp, by simpa [truth] using ha⟩
  · rename_i a b
    have := left (a := a) (b := b) hc
    refine ⟨fun l hl g hg => ?_, fun μ ρ θ h => ?_⟩
    · simp only [List.mem_cons, List.not_mem_nil, or_false] at hl
      rcases hl with rfl | rfl <;> simp only [List.mem_cons, List.not_mem_nil, or_false] at hg <;> rcases hg with rfl | rfl <;> first | exact this.1 | exact this.2
    · simp only [truth] at h
      by_cases ha : truth M μ θ ρ a
      · exact ⟨[a, b], by simp, by simpa [ha] using h.1 ha⟩
      · exact ⟨[.neg a, .neg b], by simp, by simpa [truth, ha] using fun hb => ha (h.2 hb)⟩
  · exfalso
    rename_i h1 h2 h3 h4 h5
    cases f with
    | neg f => cases f <;> simp_all [showKind]
    | _ => simp_all [showKind]


/-- The steps other than those on delta formulas keep truth for all values of the metavariables. -/
theorem tstep_sound (hM : OneSorted M) {s t : List (List Form) × Maker} (h : TStep false s t) (hc : ∀ b ∈ s.1, ∀ f ∈ b, Clean f) :
    (∀ b ∈ t.1, ∀ f ∈ b, Clean f) ∧ ∀ (μ ρ : Nat → D) (θ : TEnv U), (∃ b ∈ s.1, ∀ f ∈ b, truth M μ θ ρ f) → ∃ b ∈ t.1, ∀ f ∈ b, truth M μ θ ρ f := by
  have key : ∀ (pre post : List (List Form)) (b : List Form) (ls : List (List Form)), (∀ c ∈ pre ++ b :: post, ∀ f ∈ c, Clean f) →
      (∀ l ∈ ls, ∀ g ∈ l, Clean g) → (∀ (μ ρ : Nat → D) (θ : TEnv U), (∀ f ∈ b, truth M μ θ ρ f) → ∃ l ∈ ls, ∀ g ∈ l, truth M μ θ ρ g) →
      (∀ c ∈ pre ++ ls.map (b ++ ·) ++ post, ∀ f ∈ c, Clean f) ∧ ∀ (μ ρ : Nat → D) (θ : TEnv U),
        (∃ c ∈ pre ++ b :: post, ∀ f ∈ c, truth M μ θ ρ f) → ∃ c ∈ pre ++ ls.map (b ++ ·) ++ post, ∀ f ∈ c, truth M μ θ ρ f := by
    intro pre post b ls h1 h2 h3
    refine ⟨fun c hc f hf => ?_, fun μ ρ θ ⟨c, hc, ht⟩ => ?_⟩
    · simp only [List.mem_append, List.mem_map] at hc
      rcases hc with (hc | ⟨l, hl, rfl⟩) | hc
      · exact h1 c (by simp [hc]) f hf
      · rcases List.mem_append.1 hf with hf | hf
        · exact h1 b (by simp) f hf
        · exact h2 l hl f hf
      · exact h1 c (by simp [hc]) f hf
    · simp only [List.mem_append, List.mem_cons] at hc
      rcases hc with hc | rfl | hc
      · exact ⟨c, by simp [hc], ht⟩
      · obtain ⟨l, hl, h⟩ := h3 μ ρ θ ht
        refine ⟨c ++ l, by simp [hl], fun f hf => ?_⟩
        rcases List.mem_append.1 hf with hf | hf
        · exact ht f hf
        · exact h f hf
      · exact ⟨c, by simp [hc], ht⟩
  cases h with
  | alpha pre post b m f hf hk =>
    have ha := alpha_truth (M := M) (hc b (by simp) f hf)
    have := key pre post b [applyAlpha f] hc (fun l hl g hg => by obtain rfl := List.mem_singleton.1 hl; exact (ha g hg).1)
      fun μ ρ θ ht => ⟨_, List.mem_singleton.2 rfl, fun g hg => (ha g hg).2 μ ρ θ (ht f hf)⟩
    simpa using this
  | beta pre post b m f hf hk =>
    have ha := beta_truth (M := M) hk (hc b (by simp) f hf)
    exact key pre post b (applyBeta f) hc ha.1 fun μ ρ θ ht => ha.2 μ ρ θ (ht f hf)
  | gamma pre post b m f g i k hf hg =>
    have ha := instantiate_truth hM (hc b (by simp) f hf) hg
    have := key pre post b [[g]] hc (fun l hl g' hg' => by
        obtain rfl := List.mem_singleton.1 hl
        obtain rfl := List.mem_singleton.1 hg'
        exact ha.1)
      fun μ ρ θ ht => ⟨_, List.mem_singleton.2 rfl, fun g' hg' => by obtain rfl := List.mem_singleton.1 hg'; exact ha.2 μ ρ θ (ht f hf)⟩
    simpa using this

theorem tsteps_sound (hM : OneSorted M) {s t : List (List Form) × Maker} (h : TSteps false s t) (hc : ∀ b ∈ s.1, ∀ f ∈ b, Clean f) :
    (∀ b ∈ t.1, ∀ f ∈ b, Clean f) ∧ ∀ (μ ρ : Nat → D) (θ : TEnv U), (∃ b ∈ s.1, ∀ f ∈ b, truth M μ θ ρ f) → ∃ b ∈ t.1, ∀ f ∈ b, truth M μ θ ρ f := by
  generalize hd : false = d at h
  induction h with
  | refl => exact ⟨hc, fun _ _ _ h => h⟩
  | tail h h1 ih =>
    subst hd
    obtain ⟨i1, i2⟩ := ih
    obtain ⟨j1, j2⟩ := tstep_sound hM h1 i1
    exact ⟨j1, fun μ ρ θ h => j2 μ ρ θ (i2 μ ρ θ h)⟩

/-! ### Instances -/

variable (M) in
/-- The environment that gives a type metavariable the value of its instance. -/
def TEnv.inst (θ : TEnv U) (δ : String → Nat → Ty) : TEnv U := ⟨θ.bv, fun s i => tyVal M θ (δ s i)⟩

theorem tyVal_inst (θ : TEnv U) (δ : String → Nat → Ty) (τ : Ty) : tyVal M θ (instTy δ τ) = tyVal M (θ.inst M δ) τ := by
  induction τ using Ty.ind with
  | var s => rfl
  | bound s => rfl
  | mv s i => rfl
  | constr s args ih =>
    simp only [instTy, tyVal]
    congr 1
    induction args with
    | nil => rfl
    | cons a l ihl => simp only [instTyL, tyValL, ih a (by simp), ihl fun a ha => ih a (by simp [ha])]
  | prod args ih =>
    simp only [instTy, tyVal]
    congr 1
    induction args with
    | nil => rfl
    | cons a l ihl => simp only [instTyL, tyValL, ih a (by simp), ihl fun a ha => ih a (by simp [ha])]
  | func a b iha ihb => simp only [instTy, tyVal, iha, ihb]
  | pi vs t ih => simp only [instTy, tyVal, ih]

theorem tyValL_inst (θ : TEnv U) (δ : String → Nat → Ty) (l : List Ty) : tyValL M θ (instTyL δ l) = tyValL M (θ.inst M δ) l := by
  induction l with
  | nil => rfl
  | cons a l ih => simp only [instTyL, tyValL, tyVal_inst, ih]

theorem tmVal_inst (θ : TEnv U) (δ : String → Nat → Ty) (σ : Nat → Term) (μ ρ : Nat → D) (t : Term) :
    tmVal M θ μ ρ (instTm δ σ t) = tmVal M (θ.inst M δ) (fun i => tmVal M θ μ ρ (σ i)) ρ t := by
  induction t using Term.ind with
  | var i => rfl
  | mv i => rfl
  | fn p tys args ih =>
    simp only [instTm, tmVal, tyValL_inst]
    congr 1
    induction args with
    | nil => rfl
    | cons a l ihl => simp only [instTmL, tmValL, ih a (by simp), ihl fun a ha => ih a (by simp [ha])]

theorem tmValL_inst (θ : TEnv U) (δ : String → Nat → Ty) (σ : Nat → Term) (μ ρ : Nat → D) (l : List Term) :
    tmValL M θ μ ρ (instTmL δ σ l) = tmValL M (θ.inst M δ) (fun i => tmVal M θ μ ρ (σ i)) ρ l := by
  induction l with
  | nil => rfl
  | cons a l ih => simp only [instTmL, tmValL, tmVal_inst, ih]

/-- A closed branch is false for the values of the instance. -/
theorem closedBy_false {δ : String → Nat → Ty} {σ : Nat → Term} {b : List Form} (h : ClosedBy δ σ b) (μ ρ : Nat → D) (θ : TEnv U) :
    ¬ ∀ f ∈ b, truth M (fun i => tmVal M θ μ ρ (σ i)) (θ.inst M δ) ρ f := by
  obtain ⟨p, tys, tys', args, args', h1, h2, h3, h4⟩ := h
  intro hb
  have k1 := hb _ h1
  have k2 := hb _ h2
  simp only [truth] at k1 k2
  rw [← tyValL_inst, ← tmValL_inst] at k1 k2
  rw [← h3, ← h4] at k2
  exact k2 k1

/-- **C77 for one sort and without delta steps**: the instances found for type metavariables, together with those for metavariables, refute the
formula in all structures whose elements are not told apart by types. -/
theorem C77_one_sorted_partial (F : Form) (m m' : Maker) (T : List (List Form)) (δ : String → Nat → Ty) (σ : Nat → Term) (hF : Clean F)
    (hs : TSteps false ([[F]], m) (T, m')) (hT : ∀ b ∈ T, ClosedBy δ σ b) (U : Type u) (D : Type v) (M : MInterp U D) (hM : OneSorted M) :
    ¬ ∀ (μ ρ : Nat → D) (θ : TEnv U), truth M μ θ ρ F := by
  intro h
  obtain ⟨d, -⟩ := M.ne (M.tvar "")
  have hs := (tsteps_sound hM hs (by simpa using hF)).2
  obtain ⟨b, hb, ht⟩ := hs (fun i => tmVal M ⟨fun _ => M.tvar "", fun _ _ => M.tvar ""⟩ (fun _ => d) (fun _ => d) (σ i)) (fun _ => d)
    (TEnv.inst M ⟨fun _ => M.tvar "", fun _ _ => M.tvar ""⟩ δ) ⟨[F], by simp, by simpa using h _ _ _⟩
  exact closedBy_false (hT b hb) _ _ _ ht

/-! ### Many sorts -/

/-- Declared types of the symbols: type variables, types of the arguments, type of the result. -/
structure PSig where
  fn : Nat → Option (List String × List Ty × Ty)
  pr : Nat → Option (List String × List Ty)

/-- What is given for a type variable. -/
def look {α : Type u} (z : String → α) : List String → List α → String → α
  | x :: xs, a :: as, s => if s = x then a else look z xs as s
  | _, _, s => z s

mutual
/-- A declared type for given type arguments. (Declared types are closed; what would be free is read as a constant.) -/
def declTy (g : String → Ty) : Ty → Ty
  | .var s => .var s
  | .bound s => g s
  | .mv s _ => .var s
  | .constr s args => .constr s (declTyL g args)
  | .prod args => .prod (declTyL g args)
  | .func a b => .func (declTy g a) (declTy g b)
  | .pi vs t => .pi vs (declTy g t)
def declTyL (g : String → Ty) : List Ty → List Ty
  | [] => []
  | a :: l => declTy g a :: declTyL g l
end

variable (P : PSig)

mutual
/-- The term has the type, for given types of the free variables. There are no metavariables. -/
def PTmOk (Γ : Nat → Option Ty) : Term → Ty → Prop
  | .var i, τ => Γ i = some τ
  | .mv _, _ => False
  | .fn p tys args, τ => ∃ xs as r, P.fn p = some (xs, as, r) ∧ xs.length = tys.length ∧ declTy (look .var xs tys) r = τ ∧
      PTmOkL Γ args (declTyL (look .var xs tys) as)
def PTmOkL (Γ : Nat → Option Ty) : List Term → List Ty → Prop
  | [], [] => True
  | t :: l, τ :: m => PTmOk Γ t τ ∧ PTmOkL Γ l m
  | [], _ :: _ => False
  | _ :: _, [] => False
end

mutual
/-- The type variables of a type. -/
def tyNames : Ty → List String
  | .var _ => []
  | .bound s => [s]
  | .mv _ _ => []
  | .constr _ args => tyNamesL args
  | .prod args => tyNamesL args
  | .func a b => tyNames a ++ tyNames b
  | .pi _ t => tyNames t
def tyNamesL : List Ty → List String
  | [] => []
  | a :: l => tyNames a ++ tyNamesL l
end

/-- Types of variables under a list of binders; a type variable may not have the name of one that the types before it are built from. -/
def PBind (Q : (Nat → Option Ty) → Prop) : List TVar → (Nat → Option Ty) → Prop
  | [], Γ => Q Γ
  | v :: vs, Γ =>
    if isTType v.ty then (∀ i τ, Γ i = some τ → v.name ∉ tyNames τ) ∧ PBind Q vs Γ
    else PBind Q vs (fun i => if i = v.index then some v.ty else Γ i)

mutual
/-- Well-sorted formulas with quantifiers over types. -/
def PFmOk : Form → (Nat → Option Ty) → Prop
  | .pred p tys args, Γ => ∃ xs as, P.pr p = some (xs, as) ∧ xs.length = tys.length ∧ PTmOkL P Γ args (declTyL (look .var xs tys) as)
  | .top, _ => True
  | .bot, _ => True
  | .neg f, Γ => PFmOk f Γ
  | .and fs, Γ => PFmOkL fs Γ
  | .or fs, Γ => PFmOkL fs Γ
  | .imp f g, Γ => PFmOk f Γ ∧ PFmOk g Γ
  | .equ f g, Γ => PFmOk f Γ ∧ PFmOk g Γ
  | .all vs f, Γ => PBind (fun Γ => PFmOk f Γ) vs Γ
  | .ex vs f, Γ => PBind (fun Γ => PFmOk f Γ) vs Γ
def PFmOkL : List Form → (Nat → Option Ty) → Prop
  | [], _ => True
  | f :: fs, Γ => PFmOk f Γ ∧ PFmOkL fs Γ
end

/-- The elements are of the types. -/
def PFits (M : MInterp U D) : List U → List D → Prop
  | [], [] => True
  | u :: us, d :: ds => M.dom u d ∧ PFits M us ds
  | [], _ :: _ => False
  | _ :: _, [] => False

/-- Values of the type variables of a declaration. -/
def declEnv (M : MInterp U D) (xs : List String) (us : List U) : TEnv U := ⟨look M.tvar xs us, fun s _ => M.tvar s⟩

/-- The structure respects the declared types. -/
def PRespecting (M : MInterp U D) : Prop := ∀ p xs as r, P.fn p = some (xs, as, r) → ∀ (us : List U) (ds : List D), xs.length = us.length →
  PFits M (tyValL M (declEnv M xs us) as) ds → M.dom (tyVal M (declEnv M xs us) r) (M.fn p us ds)

/-- Arguments changed to the types. -/
noncomputable def pcastL (M : MInterp U D) : List U → List D → List D
  | u :: us, d :: ds => cast M u d :: pcastL M us ds
  | _, ds => ds

/-- The structure with one sort: functions and predicates first change their arguments. -/
noncomputable def pflat (M : MInterp U D) : MInterp U D :=
  { M with
    dom := fun _ _ => True
    ne := fun u => ⟨(M.ne u).choose, trivial⟩
    fn := fun p us ds => M.fn p us (match P.fn p with | some (xs, as, _) => pcastL M (tyValL M (declEnv M xs us) as) ds | none => ds)
    pr := fun p us ds => M.pr p us (match P.pr p with | some (xs, as) => pcastL M (tyValL M (declEnv M xs us) as) ds | none => ds) }

variable {P}

theorem look_val {g : String → Ty} {θ : TEnv U} {z : String → U} (hz : ∀ s, tyVal M θ (g s) = z s) : ∀ (xs : List String) (tys : List Ty) (s : String),
    tyVal M θ (look g xs tys s) = look z xs (tyValL M θ tys) s := by
  intro xs
  induction xs with
  | nil => intro tys s; simp [look, hz]
  | cons x xs ih =>
    intro tys s
    cases tys with
    | nil => simp [look, tyValL, hz]
    | cons a l =>
      simp only [look, tyValL]
      split
      · rfl
      · exact ih l s

theorem declTy_val {θ : TEnv U} (xs : List String) (tys : List Ty) (τ : Ty) :
    tyVal M θ (declTy (look .var xs tys) τ) = tyVal M (declEnv M xs (tyValL M θ tys)) τ := by
  induction τ using Ty.ind with
  | var s => rfl
  | bound s => exact look_val (fun s => rfl) xs tys s
  | mv s i => rfl
  | constr s args ih =>
    simp only [declTy, tyVal]
    congr 1
    induction args with
    | nil => rfl
    | cons a l ihl => simp only [declTyL, tyValL, ih a (by simp), ihl fun a ha => ih a (by simp [ha])]
  | prod args ih =>
    simp only [declTy, tyVal]
    congr 1
    induction args with
    | nil => rfl
    | cons a l ihl => simp only [declTyL, tyValL, ih a (by simp), ihl fun a ha => ih a (by simp [ha])]
  | func a b iha ihb => simp only [declTy, tyVal, iha, ihb]
  | pi vs t ih => simp only [declTy, tyVal, ih]

theorem declTyL_val {θ : TEnv U} (xs : List String) (tys : List Ty) (l : List Ty) :
    tyValL M θ (declTyL (look .var xs tys) l) = tyValL M (declEnv M xs (tyValL M θ tys)) l := by
  induction l with
  | nil => rfl
  | cons a l ih => simp only [declTyL, tyValL, declTy_val, ih]

theorem tyVal_flat {θ : TEnv U} (τ : Ty) : tyVal (pflat P M) θ τ = tyVal M θ τ := by
  induction τ using Ty.ind with
  | var s => rfl
  | bound s => rfl
  | mv s i => rfl
  | constr s args ih =>
    simp only [tyVal, pflat]
    congr 1
    induction args with
    | nil => rfl
    | cons a l ihl =>
      simp only [tyValL]
      rw [← ih a (by simp), ← ihl fun a ha => ih a (by simp [ha])]
      rfl
  | prod args ih =>
    simp only [tyVal, pflat]
    congr 1
    induction args with
    | nil => rfl
    | cons a l ihl =>
      simp only [tyValL]
      rw [← ih a (by simp), ← ihl fun a ha => ih a (by simp [ha])]
      rfl
  | func a b iha ihb => simp only [tyVal, iha, ihb]; rfl
  | pi vs t ih => simp only [tyVal, ih]; rfl

theorem tyValL_flat {θ : TEnv U} (l : List Ty) : tyValL (pflat P M) θ l = tyValL M θ l := by
  induction l with
  | nil => rfl
  | cons a l ih => simp only [tyValL, tyVal_flat, ih]

theorem tyValL_length {θ : TEnv U} (l : List Ty) : (tyValL M θ l).length = l.length := by
  induction l with
  | nil => rfl
  | cons a l ih => simp [tyValL, ih]

theorem pflat_term (hM : PRespecting P M) (θ : TEnv U) (Γ : Nat → Option Ty) (μ ρ : Nat → D) : ∀ (t : Term) (τ : Ty), PTmOk P Γ t τ →
    cast M (tyVal M θ τ) (tmVal (pflat P M) θ μ ρ t) = tmVal M θ μ (castV M θ Γ ρ) t ∧ M.dom (tyVal M θ τ) (tmVal M θ μ (castV M θ Γ ρ) t) := by
  intro t
  induction t using Term.ind with
  | var i =>
    intro τ h
    simp only [PTmOk] at h
    simp only [tmVal, castV, h]
    exact ⟨trivial, cast_dom _ _ _⟩
  | mv i =>
    intro τ h
    simp [PTmOk] at h
  | fn p tys args ih =>
    intro τ h
    simp only [PTmOk] at h
    obtain ⟨xs, as, r, hS, hlen, rfl, hl⟩ := h
    have key : ∀ (l : List Term) (m : List Ty), (∀ t ∈ l, t ∈ args) → PTmOkL P Γ l m →
        pcastL M (tyValL M θ m) (tmValL (pflat P M) θ μ ρ l) = tmValL M θ μ (castV M θ Γ ρ) l ∧
        PFits M (tyValL M θ m) (tmValL M θ μ (castV M θ Γ ρ) l) := by
      intro l
      induction l with
      | nil =>
        intro m _ h
        cases m with
        | nil => exact ⟨by simp [pcastL, tmValL, tyValL], trivial⟩
        | cons a m => simp [PTmOkL] at h
      | cons t l ihl =>
        intro m hm h
        cases m with
        | nil => simp [PTmOkL] at h
        | cons a m =>
          simp only [PTmOkL] at h
          obtain ⟨h1, h2⟩ := ih t (hm t (by simp)) a h.1
          obtain ⟨h3, h4⟩ := ihl m (fun t ht => hm t (by simp [ht])) h.2
          exact ⟨by simp [pcastL, tmValL, tyValL, h1, h3], h2, h4⟩
    obtain ⟨h1, h2⟩ := key args _ (fun _ h => h) hl
    rw [declTyL_val] at h1 h2
    have hv : tmVal (pflat P M) θ μ ρ (.fn p tys args) = tmVal M θ μ (castV M θ Γ ρ) (.fn p tys args) := by
      simp only [tmVal, tyValL_flat]
      rw [← h1]
      simp only [pflat, hS]
    have hd : M.dom (tyVal M θ (declTy (look .var xs tys) r)) (tmVal M θ μ (castV M θ Γ ρ) (.fn p tys args)) := by
      simp only [tmVal, declTy_val]
      exact hM p xs as r hS _ _ (by rw [tyValL_length]; exact hlen) h2
    exact ⟨by rw [hv]; exact cast_id M hd, hd⟩

theorem pflat_args (hM : PRespecting P M) (θ : TEnv U) (Γ : Nat → Option Ty) (μ ρ : Nat → D) : ∀ (l : List Term) (m : List Ty), PTmOkL P Γ l m →
    pcastL M (tyValL M θ m) (tmValL (pflat P M) θ μ ρ l) = tmValL M θ μ (castV M θ Γ ρ) l := by
  intro l
  induction l with
  | nil =>
    intro m h
    cases m with
    | nil => simp [pcastL, tmValL, tyValL]
    | cons a m => simp [PTmOkL] at h
  | cons t l ih =>
    intro m h
    cases m with
    | nil => simp [PTmOkL] at h
    | cons a m =>
      simp only [PTmOkL] at h
      simp [pcastL, tmValL, tyValL, ih m h.2, (pflat_term hM θ Γ μ ρ t a h.1).1]

theorem tyVal_upd {s : String} {u : U} {θ : TEnv U} (τ : Ty) (h : s ∉ tyNames τ) : tyVal M (θ.upd s u) τ = tyVal M θ τ := by
  have hL : ∀ l : List Ty, (∀ a ∈ l, s ∉ tyNames a → tyVal M (θ.upd s u) a = tyVal M θ a) → s ∉ tyNamesL l → tyValL M (θ.upd s u) l = tyValL M θ l := by
    intro l
    induction l with
    | nil => intros; rfl
    | cons a l ih =>
      intro h1 h2
      simp only [tyNamesL, List.mem_append, not_or] at h2
      simp only [tyValL, h1 a (by simp) h2.1, ih (fun a ha => h1 a (by simp [ha])) h2.2]
  induction τ using Ty.ind with
  | var s => rfl
  | bound t =>
    simp only [tyNames, List.mem_singleton] at h
    simp [tyVal, TEnv.upd, Ne.symm h]
  | mv s i => rfl
  | constr c args ih => simp only [tyVal, hL args ih h]
  | prod args ih => simp only [tyVal, hL args ih h]
  | func a b iha ihb =>
    simp only [tyNames, List.mem_append, not_or] at h
    simp only [tyVal, iha h.1, ihb h.2]
  | pi vs t ih => simp only [tyVal, ih h]

theorem castV_updT {s : String} {u : U} {θ : TEnv U} {Γ : Nat → Option Ty} {ρ : Nat → D} (h : ∀ i τ, Γ i = some τ → s ∉ tyNames τ) :
    castV M (θ.upd s u) Γ ρ = castV M θ Γ ρ := by
  funext i
  unfold castV
  cases hi : Γ i with
  | none => rfl
  | some τ => simp only [tyVal_upd τ (h i τ hi)]

theorem pflat_all {Q : (Nat → Option Ty) → Prop} {A B : TEnv U → (Nat → D) → Prop} (h : ∀ Γ, Q Γ → ∀ θ ρ, A θ ρ ↔ B θ (castV M θ Γ ρ)) :
    ∀ (vs : List TVar) (Γ : Nat → Option Ty), PBind Q vs Γ → ∀ (θ : TEnv U) (ρ : Nat → D), qAll (pflat P M) A vs θ ρ ↔ qAll M B vs θ (castV M θ Γ ρ) := by
  intro vs
  induction vs with
  | nil => exact fun Γ hq θ ρ => h Γ hq θ ρ
  | cons v vs ih =>
    intro Γ hq θ ρ
    unfold PBind at hq
    simp only [qAll]
    by_cases ht : isTType v.ty = true
    · rw [if_pos ht] at hq
      simp only [ht, if_true]
      refine forall_congr' fun u => ?_
      rw [ih Γ hq.2, castV_updT hq.1]
    · rw [if_neg ht] at hq
      simp only [ht, if_false]
      have key : ∀ d, qAll (pflat P M) A vs θ (upd ρ v.index d) ↔ qAll M B vs θ (upd (castV M θ Γ ρ) v.index (cast M (tyVal M θ v.ty) d)) := by
        intro d
        rw [← castV_upd]
        exact ih _ hq _ _
      constructor
      · intro h d hd
        have := (key d).1 (h d trivial)
        rwa [cast_id M hd] at this
      · intro h d _
        exact (key d).2 (h _ (cast_dom M _ _))

theorem pflat_ex {Q : (Nat → Option Ty) → Prop} {A B : TEnv U → (Nat → D) → Prop} (h : ∀ Γ, Q Γ → ∀ θ ρ, A θ ρ ↔ B θ (castV M θ Γ ρ)) :
    ∀ (vs : List TVar) (Γ : Nat → Option Ty), PBind Q vs Γ → ∀ (θ : TEnv U) (ρ : Nat → D), qEx (pflat P M) A vs θ ρ ↔ qEx M B vs θ (castV M θ Γ ρ) := by
  intro vs
  induction vs with
  | nil => exact fun Γ hq θ ρ => h Γ hq θ ρ
  | cons v vs ih =>
    intro Γ hq θ ρ
    unfold PBind at hq
    simp only [qEx]
    by_cases ht : isTType v.ty = true
    · rw [if_pos ht] at hq
      simp only [ht, if_true]
      refine exists_congr fun u => ?_
      rw [ih Γ hq.2, castV_updT hq.1]
    · rw [if_neg ht] at hq
      simp only [ht, if_false]
      have key : ∀ d, qEx (pflat P M) A vs θ (upd ρ v.index d) ↔ qEx M B vs θ (upd (castV M θ Γ ρ) v.index (cast M (tyVal M θ v.ty) d)) := by
        intro d
        rw [← castV_upd]
        exact ih _ hq _ _
      constructor
      · rintro ⟨d, -, h⟩
        exact ⟨_, cast_dom M _ _, (key d).1 h⟩
      · rintro ⟨d, hd, h⟩
        refine ⟨d, trivial, (key d).2 ?_⟩
        rwa [cast_id M hd]

theorem PFmOkL_iff {Γ : Nat → Option Ty} {fs : List Form} : PFmOkL P fs Γ ↔ ∀ f ∈ fs, PFmOk P f Γ := by
  induction fs with
  | nil => simp [PFmOkL]
  | cons f fs ih => simp [PFmOkL, ih]

/-- A well-sorted formula is true in the structure with one sort exactly if it is true in the one with many sorts. -/
theorem pflat_truth (hM : PRespecting P M) (μ : Nat → D) (F : Form) : ∀ (Γ : Nat → Option Ty), PFmOk P F Γ → ∀ (θ : TEnv U) (ρ : Nat → D),
    truth (pflat P M) μ θ ρ F ↔ truth M μ θ (castV M θ Γ ρ) F := by
  induction F using Form.ind with
  | pred p tys args =>
    intro Γ h θ ρ
    simp only [PFmOk] at h
    obtain ⟨xs, as, hS, hlen, hl⟩ := h
    simp only [truth, tyValL_flat]
    rw [← pflat_args hM θ Γ μ ρ args _ hl, declTyL_val]
    simp only [pflat, hS]
  | top => intro Γ _ θ ρ; simp [truth]
  | bot => intro Γ _ θ ρ; simp [truth]
  | neg f ih => intro Γ h θ ρ; simp only [truth, ih Γ h θ ρ]
  | and fs ih =>
    intro Γ h θ ρ
    simp only [PFmOk, PFmOkL_iff] at h
    simp only [truth, truthAll_iff]
    exact forall₂_congr fun f hf => ih f hf Γ (h f hf) θ ρ
  | or fs ih =>
    intro Γ h θ ρ
    simp only [PFmOk, PFmOkL_iff] at h
    simp only [truth, truthAny_iff]
    exact exists_congr fun f => and_congr_right fun hf => ih f hf Γ (h f hf) θ ρ
  | imp f g ihf ihg => intro Γ h θ ρ; simp only [truth, ihf Γ h.1 θ ρ, ihg Γ h.2 θ ρ]
  | equ f g ihf ihg => intro Γ h θ ρ; simp only [truth, ihf Γ h.1 θ ρ, ihg Γ h.2 θ ρ]
  | all vs f ih =>
    intro Γ h θ ρ
    simp only [truth]
    exact pflat_all (fun Γ hq θ ρ => ih Γ hq θ ρ) vs Γ h θ ρ
  | ex vs f ih =>
    intro Γ h θ ρ
    simp only [truth]
    exact pflat_ex (fun Γ hq θ ρ => ih Γ hq θ ρ) vs Γ h θ ρ

/-- **C77 for many sorts, without delta steps**: a well-sorted formula with quantifiers over types that is refuted by steps that make no Skolem symbols
is false in every many-sorted structure that respects the declared types. -/
theorem C77_many_sorted_partial (F : Form) (m m' : Maker) (T : List (List Form)) (δ : String → Nat → Ty) (σ : Nat → Term) (hF : Clean F)
    (hs : TSteps false ([[F]], m) (T, m')) (hT : ∀ b ∈ T, ClosedBy δ σ b) (P : PSig) (hok : PFmOk P F fun _ => none) (U : Type u) (D : Type v)
    (M : MInterp U D) (hM : PRespecting P M) : ¬ ∀ (μ ρ : Nat → D) (θ : TEnv U), truth M μ θ ρ F := by
  intro h
  exact C77_one_sorted_partial F m m' T δ σ hF hs hT U D (pflat P M) (fun _ _ => trivial) fun μ ρ θ => (pflat_truth hM μ F _ hok θ ρ).2 (h μ _ θ)

/-! ### A single delta step -/

mutual
/-- Type constructors. -/
def tyCons : Ty → List String
  | .var _ => []
  | .bound _ => []
  | .mv _ _ => []
  | .constr s args => s :: tyConsL args
  | .prod args => tyConsL args
  | .func a b => tyCons a ++ tyCons b
  | .pi _ t => tyCons t
def tyConsL : List Ty → List String
  | [] => []
  | a :: l => tyCons a ++ tyConsL l
end

mutual
def tmCons : Term → List String
  | .var _ => []
  | .mv _ => []
  | .fn _ tys args => tyConsL tys ++ tmConsL args
def tmConsL : List Term → List String
  | [] => []
  | a :: l => tmCons a ++ tmConsL l
end

mutual
/-- The type constructors of the type arguments in a formula. -/
def fmCons : Form → List String
  | .pred _ tys args => tyConsL tys ++ tmConsL args
  | .top => []
  | .bot => []
  | .neg f => fmCons f
  | .and fs => fmConsL fs
  | .or fs => fmConsL fs
  | .imp f g => fmCons f ++ fmCons g
  | .equ f g => fmCons f ++ fmCons g
  | .all _ f => fmCons f
  | .ex _ f => fmCons f
def fmConsL : List Form → List String
  | [] => []
  | f :: fs => fmCons f ++ fmConsL fs
end

/-- The structure with another value for a constant. -/
def setCon (M : MInterp U D) (c : String) (u : U) : MInterp U D := { M with con := fun s us => if s = c ∧ us = [] then u else M.con s us }

variable {c : String} {u : U}

theorem tyVal_setCon {θ : TEnv U} (τ : Ty) (h : c ∉ tyCons τ) : tyVal (setCon M c u) θ τ = tyVal M θ τ := by
  have hL : ∀ l : List Ty, (∀ a ∈ l, c ∉ tyCons a → tyVal (setCon M c u) θ a = tyVal M θ a) → c ∉ tyConsL l → tyValL (setCon M c u) θ l = tyValL M θ l := by
    intro l
    induction l with
    | nil => intros; rfl
    | cons a l ih =>
      intro h1 h2
      simp only [tyConsL, List.mem_append, not_or] at h2
      simp only [tyValL, h1 a (by simp) h2.1, ih (fun a ha => h1 a (by simp [ha])) h2.2]
  induction τ using Ty.ind with
  | var s => rfl
  | bound t => rfl
  | mv s i => rfl
  | constr d args ih =>
    simp only [tyCons, List.mem_cons, not_or] at h
    simp only [tyVal, hL args ih h.2]
    simp [setCon, Ne.symm h.1]
  | prod args ih => simp only [tyVal, hL args ih h]; rfl
  | func a b iha ihb =>
    simp only [tyCons, List.mem_append, not_or] at h
    simp only [tyVal, iha h.1, ihb h.2]
    rfl
  | pi vs t ih => simp only [tyVal, ih h]; rfl

theorem tyValL_setCon {θ : TEnv U} (l : List Ty) (h : c ∉ tyConsL l) : tyValL (setCon M c u) θ l = tyValL M θ l := by
  induction l with
  | nil => rfl
  | cons a l ih =>
    simp only [tyConsL, List.mem_append, not_or] at h
    simp only [tyValL, tyVal_setCon a h.1, ih h.2]

theorem tmVal_setCon {θ : TEnv U} {μ ρ : Nat → D} (t : Term) (h : c ∉ tmCons t) : tmVal (setCon M c u) θ μ ρ t = tmVal M θ μ ρ t := by
  induction t using Term.ind with
  | var i => rfl
  | mv i => rfl
  | fn p tys args ih =>
    simp only [tmCons, List.mem_append, not_or] at h
    simp only [tmVal, tyValL_setCon tys h.1]
    have : tmValL (setCon M c u) θ μ ρ args = tmValL M θ μ ρ args := by
      obtain ⟨-, h⟩ := h
      induction args with
      | nil => rfl
      | cons a l ihl =>
        simp only [tmConsL, List.mem_append, not_or] at h
        simp only [tmValL, ih a (by simp) h.1, ihl (fun a ha => ih a (by simp [ha])) h.2]
    rw [this]
    rfl

theorem tmValL_setCon {θ : TEnv U} {μ ρ : Nat → D} (l : List Term) (h : c ∉ tmConsL l) : tmValL (setCon M c u) θ μ ρ l = tmValL M θ μ ρ l := by
  induction l with
  | nil => rfl
  | cons a l ih =>
    simp only [tmConsL, List.mem_append, not_or] at h
    simp only [tmValL, tmVal_setCon a h.1, ih h.2]

theorem qAll_setCon (hM : OneSorted M) {A B : TEnv U → (Nat → D) → Prop} (h : ∀ θ ρ, A θ ρ ↔ B θ ρ) : ∀ (vs : List TVar) (θ : TEnv U) (ρ : Nat → D),
    qAll (setCon M c u) A vs θ ρ ↔ qAll M B vs θ ρ := by
  intro vs
  induction vs with
  | nil => exact h
  | cons v vs ih =>
    intro θ ρ
    simp only [qAll]
    split
    · exact forall_congr' fun x => ih _ _
    · exact forall_congr' fun d => imp_congr ⟨fun _ => hM _ _, fun _ => hM _ _⟩ (ih _ _)

theorem qEx_setCon (hM : OneSorted M) {A B : TEnv U → (Nat → D) → Prop} (h : ∀ θ ρ, A θ ρ ↔ B θ ρ) : ∀ (vs : List TVar) (θ : TEnv U) (ρ : Nat → D),
    qEx (setCon M c u) A vs θ ρ ↔ qEx M B vs θ ρ := by
  intro vs
  induction vs with
  | nil => exact h
  | cons v vs ih =>
    intro θ ρ
    simp only [qEx]
    split
    · exact exists_congr fun x => ih _ _
    · exact exists_congr fun d => and_congr ⟨fun _ => hM _ _, fun _ => hM _ _⟩ (ih _ _)

theorem fmConsL_iff {fs : List Form} : c ∈ fmConsL fs ↔ ∃ f ∈ fs, c ∈ fmCons f := by
  induction fs with
  | nil => simp [fmConsL]
  | cons f fs ih => simp [fmConsL, ih]

theorem truth_setCon (hM : OneSorted M) {μ : Nat → D} (F : Form) : c ∉ fmCons F → ∀ (θ : TEnv U) (ρ : Nat → D),
    truth (setCon M c u) μ θ ρ F ↔ truth M μ θ ρ F := by
  induction F using Form.ind with
  | pred p tys args =>
    intro h θ ρ
    simp only [fmCons, List.mem_append, not_or] at h
    simp only [truth, tyValL_setCon tys h.1, tmValL_setCon args h.2]
    rfl
  | top => intro h θ ρ; simp [truth]
  | bot => intro h θ ρ; simp [truth]
  | neg f ih => intro h θ ρ; simp only [truth, ih h θ ρ]
  | and fs ih =>
    intro h θ ρ
    simp only [fmCons, fmConsL_iff, not_exists, not_and] at h
    simp only [truth, truthAll_iff]
    exact forall₂_congr fun f hf => ih f hf (h f hf) θ ρ
  | or fs ih =>
    intro h θ ρ
    simp only [fmCons, fmConsL_iff, not_exists, not_and] at h
    simp only [truth, truthAny_iff]
    exact exists_congr fun f => and_congr_right fun hf => ih f hf (h f hf) θ ρ
  | imp f g ihf ihg =>
    intro h θ ρ
    simp only [fmCons, List.mem_append, not_or] at h
    simp only [truth, ihf h.1 θ ρ, ihg h.2 θ ρ]
  | equ f g ihf ihg =>
    intro h θ ρ
    simp only [fmCons, List.mem_append, not_or] at h
    simp only [truth, ihf h.1 θ ρ, ihg h.2 θ ρ]
  | all vs f ih => intro h θ ρ; exact qAll_setCon hM (fun θ ρ => ih h θ ρ) vs θ ρ
  | ex vs f ih => intro h θ ρ; exact qEx_setCon hM (fun θ ρ => ih h θ ρ) vs θ ρ

/-- **C77, one step on a delta formula**: with a constant that the branch does not have, and for given values of the metavariables, the branch stays true
for a suitable value of the constant. (What is missing for more: the constant of the code is not new, and its value may not depend on those of the
metavariables.) -/
theorem C77_delta_partial (hM : OneSorted M) {b : List Form} {f g : Form} (hc : c ≠ "$tType") (hnew : ∀ f ∈ b, c ∉ fmCons f) (hf : f ∈ b) (hcl : Clean f)
    (hg : skoType c f = some g) (μ ρ : Nat → D) (θ : TEnv U) (ht : ∀ f ∈ b, truth M μ θ ρ f) :
    ∃ u, ∀ f ∈ b ++ [g], truth (setCon M c u) μ θ ρ f := by
  unfold skoType at hg
  split at hg
  · rename_i v vs f
    split at hg
    · rename_i hv
      simp only [Option.some.injEq] at hg
      have h1 := ht _ hf
      simp only [truth, qAll, hv, if_true, Classical.not_forall] at h1
      obtain ⟨u, h1⟩ := h1
      refine ⟨u, fun f' hf' => ?_⟩
      rcases List.mem_append.1 hf' with hf' | hf'
      · exact (truth_setCon hM f' (hnew f' hf') θ ρ).2 (ht f' hf')
      · obtain rfl := List.mem_singleton.1 hf'
        subst hg
        simp only [truth]
        rw [truth_allOr]
        intro h2
        have hk := (List.nodup_cons.1 hcl.1).1
        have hb : bkey v = .inl v.name := by simp [bkey, hv]
        have hk' : Sum.inl v.name ∉ vs.map bkey ∧ Sum.inl v.name ∉ keysF f := by
          have : bkey v ∉ vs.map bkey ++ keysF f := hk
          rw [hb, List.mem_append, not_or] at this
          exact this
        have h3 := (qAll_sub (M := setCon M c u) (P := fun θ ρ => truth (setCon M c u) μ θ ρ f)
          (P' := fun θ ρ => truth (setCon M c u) μ θ ρ (f.substBound v.name (.constr c []))) (n := v.name) (x := fun θ => tyVal (setCon M c u) θ (.constr c []))
          (g := id) (fun θ m u => rfl) (fun v => ⟨rfl, rfl, rfl⟩) (fun θ ρ => truth_sub (Or.inr ⟨c, hc, rfl⟩) μ f hk'.2 θ ρ) vs hk'.1
          (fun v _ θ d => ⟨fun _ => hM _ _, fun _ => hM _ _⟩) θ ρ).1 (by simpa using h2)
        have h4 : tyVal (setCon M c u) θ (.constr c []) = u := by simp [tyVal, tyValL, setCon]
        rw [h4] at h3
        exact h1 ((qAll_setCon hM (fun θ ρ => truth_setCon hM f (show c ∉ fmCons f from hnew (.neg (.all (v :: vs) f)) hf) θ ρ) vs _ _).1 h3)
    · cases hg
  · cases hg

/-! ### Cases -/

/-- `∀A. ∀x:A. q(A; x)`, and not `q($i; a)`. -/
def polyF : Form := .and [.all [tv "A", ⟨"x", 1, .bound "A"⟩] (.pred 0 [.bound "A"] [.var 1]), .neg (.pred 0 [.constr "$i" []] [.fn 5 [] []])]

def polyP : PSig := ⟨fun p => if p = 5 then some ([], [], .constr "$i" []) else none, fun p => if p = 0 then some (["T"], [.bound "T"]) else none⟩

/-- The hypotheses of `C77_many_sorted_partial` are met: the formula is well-sorted, and it is refuted with an instance for the type and one for the element. -/
example : Clean polyF ∧ PFmOk polyP polyF (fun _ => none) ∧ ∃ T, TSteps false ([[polyF]], Maker.reset) (T, Maker.reset) ∧
    ∀ b ∈ T, ClosedBy (fun _ _ => .constr "$i" []) (fun _ => .fn 5 [] []) b := by
  refine ⟨⟨by decide, ?_⟩, ?_, ?_⟩
  · simp [keysF, keysL, polyF, bkey, tv, isTType, Form.funs, Form.funsL, Term.funs, Term.funsL]
  · simp [polyF, PFmOk, PFmOkL, PBind, PTmOkL, PTmOk, polyP, tv, isTType, declTy, declTyL, look]
  · have s0 := TSteps.refl (d := false) ([[polyF]], Maker.reset)
    have s1 := s0.tail (TStep.alpha [] [] [polyF] _ polyF (by simp) rfl)
    have s2 := s1.tail (TStep.gamma [] [] _ _ (.all [tv "A", ⟨"x", 1, .bound "A"⟩] (.pred 0 [.bound "A"] [.var 1])) _ 0 7 (by decide) rfl)
    have s3 := s2.tail (TStep.gamma [] [] _ _ (.all [⟨"x", 1, .bound "A"⟩] (.pred 0 [.mv "A" 7] [.var 1])) _ 3 8 (by decide) rfl)
    refine ⟨_, s3, ?_⟩
    intro b hb
    simp only [List.nil_append, List.mem_singleton] at hb
    subst hb
    exact ⟨0, [.mv "A" 7], [.constr "$i" []], [.mv 3], [.fn 5 [] []], by decide, by decide, rfl, rfl⟩

/-- The hypotheses of `C77_delta_partial` are met by `twoTypes`' second conjunct in the structure in which `p` is the identity of types. -/
example : OneSorted twoM ∧ skoType "c" (.neg (.all [tv "A", tv "B"] (.pred 0 [.bound "A", .bound "B"] []))) =
      some (.neg (.all [tv "B"] (.pred 0 [.constr "c" [], .bound "B"] []))) ∧
    truth twoM (fun _ => ()) ⟨fun _ => true, fun _ _ => true⟩ (fun _ => ()) (.neg (.all [tv "A", tv "B"] (.pred 0 [.bound "A", .bound "B"] []))) := by
  refine ⟨fun _ _ => trivial, rfl, ?_⟩
  simp only [truth, qAll, tyValL, tyVal, tv]
  intro h
  have := h true false
  simp [isTType, TEnv.upd, twoM] at this

end Verif.Sorted
