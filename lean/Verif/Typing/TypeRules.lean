import Verif.Typing.TypeQuant
/-!
# C21 and C22 for formulas that quantify over types

The gamma and the delta rule, one application at a time, in structures with many sorts. Both claims fail: the gamma rule leaves the replaced type variable in
the types of the variables that remain in the list, and the constant of the delta rule is neither new nor dependent on the type metavariables.
-/

namespace Verif.Sorted

open Verif.AST Verif.Search

variable {U : Type u} {D : Type v} {M : MInterp U D}

/-! ### Specification -/

/-- The variable that a universal (or negated existential) formula quantifies first, and the others of the list. -/
def firstOf : Form → Option (TVar × List TVar)
  | .all (v :: vs) _ => some (v, vs)
  | .neg (.ex (v :: vs) _) => some (v, vs)
  | _ => none

/-- **C21, for many sorts.** Whatever type the new type metavariable and whatever element of its type the new metavariable denotes: the instance is true
where the formula is. -/
def C21_statement : Prop := ∀ (F G : Form) (i k : Nat) (v : TVar) (vs : List TVar), firstOf F = some (v, vs) → Clean F → instantiate i k F = some G →
  ∀ (U D : Type) (M : MInterp U D) (μ ρ : Nat → D) (θ : TEnv U), (isTType v.ty = false → M.dom (tyVal M θ v.ty) (μ i)) → truth M μ θ ρ F → truth M μ θ ρ G

/-- **C22, for quantified type variables.** Formulas that are true for all values of the metavariables stay so, together with the new formula, when only the
type that the constant denotes is changed. -/
def C22_statement : Prop := ∀ (Γ : List Form) (F G : Form) (m : Maker), F ∈ Γ → (∀ f ∈ Γ, Clean f) → skoType (skoTyConst m).1 F = some G →
  ∀ (U D : Type) (M : MInterp U D), (∀ f ∈ Γ, ∀ (μ ρ : Nat → D) (θ : TEnv U), truth M μ θ ρ f) →
    ∃ u, ∀ f ∈ Γ ++ [G], ∀ (μ ρ : Nat → D) (θ : TEnv U), truth (setCon M (skoTyConst m).1 u) μ θ ρ f

/-! ### The gamma rule -/

/-- `∀A: $tType, x: A. q(A; x)`. -/
def allPoly : Form := .all [tv "A", ⟨"x", 1, .bound "A"⟩] (.pred 0 [.bound "A"] [.var 1])

/-- Two types with one element each; `q` says of a type and an element that the element is of the type. -/
def twoD : MInterp Bool Bool := ⟨fun _ _ => true, fun _ => true, fun _ => true, fun _ _ => true, fun _ _ => true, fun u d => u = d, fun u => ⟨u, rfl⟩,
  fun _ _ _ => true, fun _ us ds => us = ds⟩

/-- **C21 fails**: the instance is `∀x: A. q(A'; x)`, in which `A` is bound no more; it is false where `A` and `A'` are different types. -/
theorem C21_violated : firstOf allPoly = some (tv "A", [⟨"x", 1, .bound "A"⟩]) ∧ Clean allPoly ∧
    instantiate 0 7 allPoly = some (.all [⟨"x", 1, .bound "A"⟩] (.pred 0 [.mv "A" 7] [.var 1])) ∧
    (∀ (μ ρ : Nat → Bool) (θ : TEnv Bool), truth twoD μ θ ρ allPoly) ∧
    ∃ θ, ∀ μ ρ : Nat → Bool, ¬ truth twoD μ θ ρ (.all [⟨"x", 1, .bound "A"⟩] (.pred 0 [.mv "A" 7] [.var 1])) := by
  refine ⟨rfl, ⟨by decide, ?_⟩, rfl, ?_, ⟨fun _ => true, fun _ _ => false⟩, ?_⟩
  · simp [keysF, allPoly, bkey, tv, isTType, Form.funs, Term.funs, Term.funsL]
  · intro μ ρ θ
    simp [truth, allPoly, qAll, tv, isTType, twoD, tyValL, tyVal, tmValL, tmVal, TEnv.upd, upd]
  · intro μ ρ
    simp [truth, qAll, isTType, twoD, tyValL, tyVal, tmValL, tmVal, upd]

theorem C21_statement_false : ¬ C21_statement := fun h => by
  obtain ⟨h1, h2, h3, h4, θ, h5⟩ := C21_violated
  exact h5 (fun _ => true) (fun _ => true) (h allPoly _ 0 7 _ _ h1 h2 h3 Bool Bool twoD _ _ θ (by simp [tv, isTType]) (h4 _ _ _))

/-- The gamma rule on the bodies, for many sorts. -/
theorem instFirst_allS {i k : Nat} {v : TVar} {vs : List TVar} {f : Form} (hk : (bkey v :: (vs.map bkey ++ keysF f)).Nodup)
    (hf : ∀ x, .inr x ∈ bkey v :: (vs.map bkey ++ keysF f) → x ∉ f.funs) {μ ρ : Nat → D} {θ : TEnv U}
    (hv : isTType v.ty = true → ∀ w ∈ vs, v.name ∉ tyNames w.ty) (hd : isTType v.ty = false → M.dom (tyVal M θ v.ty) (μ i))
    (h : qAll M (fun θ ρ => truth M μ θ ρ f) (v :: vs) θ ρ) : qAll M (fun θ ρ => truth M μ θ ρ (instFirst i k v f)) vs θ ρ := by
  simp only [List.nodup_cons, List.mem_append, not_or] at hk
  by_cases ht : isTType v.ty = true
  · have hb : bkey v = .inl v.name := by simp [bkey, ht]
    rw [hb] at hk
    simp only [instFirst, ht, if_true, qAll] at h ⊢
    have := (qAll_sub (M := M) (P := fun θ ρ => truth M μ θ ρ f) (P' := fun θ ρ => truth M μ θ ρ (f.substBound v.name (.mv v.name k)))
      (n := v.name) (x := fun θ => tyVal M θ (.mv v.name k)) (g := id) (fun θ m u => rfl) (fun v => ⟨rfl, rfl, rfl⟩)
      (fun θ ρ => truth_sub (Or.inl ⟨_, _, rfl⟩) μ f hk.1.2 θ ρ) vs hk.1.1 (fun w hw θ d => by rw [tyVal_upd _ (hv ht w hw)]; rfl) θ ρ).2 (h _)
    simpa using this
  · have hb : bkey v = .inr v.index := by simp [bkey, ht]
    rw [hb] at hk hf
    simp only [instFirst, ht, if_false, qAll] at h ⊢
    have := (qAll_updV (P := fun θ ρ => truth M μ θ ρ f) (μ i) vs hk.1.1 θ ρ).2 (h (μ i) (hd (by simpa using ht)))
    exact (qAll_congr (fun θ ρ => truth_subV μ f hk.1.2 (hf v.index (by simp)) θ ρ) vs θ ρ).2 this

theorem instFirst_exS {i k : Nat} {v : TVar} {vs : List TVar} {f : Form} (hk : (bkey v :: (vs.map bkey ++ keysF f)).Nodup)
    (hf : ∀ x, .inr x ∈ bkey v :: (vs.map bkey ++ keysF f) → x ∉ f.funs) {μ ρ : Nat → D} {θ : TEnv U}
    (hv : isTType v.ty = true → ∀ w ∈ vs, v.name ∉ tyNames w.ty) (hd : isTType v.ty = false → M.dom (tyVal M θ v.ty) (μ i))
    (h : qEx M (fun θ ρ => truth M μ θ ρ (instFirst i k v f)) vs θ ρ) : qEx M (fun θ ρ => truth M μ θ ρ f) (v :: vs) θ ρ := by
  simp only [List.nodup_cons, List.mem_append, not_or] at hk
  by_cases ht : isTType v.ty = true
  · have hb : bkey v = .inl v.name := by simp [bkey, ht]
    rw [hb] at hk
    simp only [instFirst, ht, if_true, qEx] at h ⊢
    refine ⟨_, (qEx_sub (M := M) (P := fun θ ρ => truth M μ θ ρ f) (P' := fun θ ρ => truth M μ θ ρ (f.substBound v.name (.mv v.name k)))
      (n := v.name) (x := fun θ => tyVal M θ (.mv v.name k)) (g := id) (fun θ m u => rfl) (fun v => ⟨rfl, rfl, rfl⟩)
      (fun θ ρ => truth_sub (Or.inl ⟨_, _, rfl⟩) μ f hk.1.2 θ ρ) vs hk.1.1 (fun w hw θ d => by rw [tyVal_upd _ (hv ht w hw)]; rfl) θ ρ).1 (by simpa using h)⟩
  · have hb : bkey v = .inr v.index := by simp [bkey, ht]
    rw [hb] at hk hf
    simp only [instFirst, ht, if_false, qEx] at h ⊢
    refine ⟨μ i, hd (by simpa using ht), (qEx_updV (P := fun θ ρ => truth M μ θ ρ f) (μ i) vs hk.1.1 θ ρ).1 ?_⟩
    exact (qEx_congr (fun θ ρ => truth_subV μ f hk.1.2 (hf v.index (by simp)) θ ρ) vs θ ρ).1 h

/-- **C21 for many sorts**, where the violation above is excluded: if the first variable is a type variable, no type of a variable of the same list is built from
it. (What is missing is what fails.) The rule then succeeds, and what it gives is true where the formula is. -/
theorem C21_sorted_partial (F : Form) (i k : Nat) (v : TVar) (vs : List TVar) (h1 : firstOf F = some (v, vs)) (hc : Clean F)
    (hv : isTType v.ty = true → ∀ w ∈ vs, v.name ∉ tyNames w.ty) : ∃ G, instantiate i k F = some G ∧
    ∀ (U : Type u) (D : Type v) (M : MInterp U D) (μ ρ : Nat → D) (θ : TEnv U), (isTType v.ty = false → M.dom (tyVal M θ v.ty) (μ i)) →
      truth M μ θ ρ F → truth M μ θ ρ G := by
  obtain ⟨hk, hf⟩ := hc
  unfold firstOf at h1
  split at h1
  · simp only [Option.some.injEq, Prod.mk.injEq] at h1
    obtain ⟨rfl, rfl⟩ := h1
    rename_i v vs f
    refine ⟨_, rfl, fun U D M μ ρ θ hd ht => ?_⟩
    simp only [truth] at ht
    rw [truth_allOr]
    exact instFirst_allS hk hf hv hd ht
  · simp only [Option.some.injEq, Prod.mk.injEq] at h1
    obtain ⟨rfl, rfl⟩ := h1
    rename_i v vs f
    refine ⟨_, rfl, fun U D M μ ρ θ hd ht => ?_⟩
    simp only [truth] at ht ⊢
    rw [truth_exOr]
    exact fun hx => ht (instFirst_exS hk hf hv hd hx)
  · cases h1

/-- **C21 where types do not tell elements apart**, for all formulas. -/
theorem C21_one_sorted_partial (F : Form) (i k : Nat) (v : TVar) (vs : List TVar) (h1 : firstOf F = some (v, vs)) (hc : Clean F) :
    ∃ G, instantiate i k F = some G ∧ Clean G ∧
    ∀ (U : Type u) (D : Type v) (M : MInterp U D), OneSorted M → ∀ (μ ρ : Nat → D) (θ : TEnv U), truth M μ θ ρ F → truth M μ θ ρ G := by
  have : ∃ G, instantiate i k F = some G := by
    unfold firstOf at h1
    split at h1
    · exact ⟨_, rfl⟩
    · exact ⟨_, rfl⟩
    · cases h1
  obtain ⟨G, hG⟩ := this
  let M0 : MInterp Unit Unit := ⟨fun _ _ => (), fun _ => (), fun _ => (), fun _ _ => (), fun _ _ => (), fun _ _ => True, fun _ => ⟨(), trivial⟩,
    fun _ _ _ => (), fun _ _ _ => True⟩
  exact ⟨G, hG, (instantiate_truth (M := M0) (fun _ _ => trivial) hc hG).1, fun U D M hM μ ρ θ => (instantiate_truth hM hc hG).2 μ ρ θ⟩

/-- The hypotheses are met: `∀A. q(A; f(A))` and `∀x: A'. q(A'; x)`, of which the second is what the first part of `∀A. ∀x: A. q(A; x)` becomes. -/
example : firstOf (.all [tv "A"] (.all [⟨"x", 1, .bound "A"⟩] (.pred 0 [.bound "A"] [.var 1]))) = some (tv "A", []) ∧
    instantiate 0 7 (.all [tv "A"] (.all [⟨"x", 1, .bound "A"⟩] (.pred 0 [.bound "A"] [.var 1]))) =
      some (.all [⟨"x", 1, .mv "A" 7⟩] (.pred 0 [.mv "A" 7] [.var 1])) ∧
    instantiate 3 8 (.all [⟨"x", 1, .mv "A" 7⟩] (.pred 0 [.mv "A" 7] [.var 1])) = some (.pred 0 [.mv "A" 7] [.mv 3]) := ⟨rfl, rfl, rfl⟩

/-! ### The delta rule -/

/-- `∀A. p(A, A)`, and not `∀C. p(B, C)` for a type metavariable `B`. -/
def depBranch : List Form := [.all [tv "A"] (.pred 0 [.bound "A", .bound "A"] []), .neg (.all [tv "C"] (.pred 0 [.mv "B" 8, .bound "C"] []))]

/-- **C22 fails**: the constant does not depend on the type metavariable of the formula. The branch is true in the structure with two types, whatever the
metavariable denotes; with the new formula it is true in none. -/
theorem C22_violated_dependence (m : Maker) : (∀ f ∈ depBranch, Clean f) ∧
    skoType (skoTyConst m).1 (.neg (.all [tv "C"] (.pred 0 [.mv "B" 8, .bound "C"] []))) = some (.neg (.pred 0 [.mv "B" 8, .constr (skoTyConst m).1 []] [])) ∧
    (∀ f ∈ depBranch, ∀ (μ ρ : Nat → Unit) (θ : TEnv Bool), truth twoM μ θ ρ f) ∧
    ∀ (U D : Type) (M : MInterp U D), ¬ ∀ f ∈ depBranch ++ [.neg (.pred 0 [.mv "B" 8, .constr (skoTyConst m).1 []] [])], ∀ (μ ρ : Nat → D) (θ : TEnv U),
      truth M μ θ ρ f := by
  refine ⟨?_, rfl, ?_, ?_⟩
  · intro f hf
    simp only [depBranch, List.mem_cons, List.not_mem_nil, or_false] at hf
    rcases hf with rfl | rfl
    · exact ⟨by decide, by simp [keysF, bkey, tv, isTType]⟩
    · exact ⟨by decide, by simp [keysF, bkey, tv, isTType]⟩
  · intro f hf μ ρ θ
    simp only [depBranch, List.mem_cons, List.not_mem_nil, or_false] at hf
    rcases hf with rfl | rfl
    · simp [truth, qAll, tv, isTType, twoM, tyValL, tyVal, TEnv.upd]
    · simp only [truth, qAll, tv, isTType, decide_true, if_true]
      intro h
      have := h (!θ.mv "B" 8)
      simp [tyValL, tyVal, TEnv.upd, twoM] at this
  · intro U D M h
    obtain ⟨d, -⟩ := M.ne (M.tvar "")
    let u := M.con (skoTyConst m).1 []
    have h1 := h _ (by simp [depBranch]; exact Or.inl rfl) (fun _ => d) (fun _ => d) ⟨fun _ => u, fun _ _ => u⟩
    have h2 := h (.neg (.pred 0 [.mv "B" 8, .constr (skoTyConst m).1 []] [])) (by simp) (fun _ => d) (fun _ => d) ⟨fun _ => u, fun _ _ => u⟩
    simp only [truth, qAll, tv, isTType, decide_true, if_true, tyValL, tyVal, TEnv.upd, tmValL] at h1 h2
    exact h2 (h1 u)

/-- The branch of `twoTypes` after the first of its two type variables is replaced. -/
def sameBranch : List Form := [.all [tv "A"] (.pred 0 [.bound "A", .bound "A"] []), .neg (.all [tv "B"] (.pred 0 [.constr (skoTyConst Maker.reset).1 [], .bound "B"] []))]

/-- **C22 fails also for formulas without metavariables**: the constant is the one made before. The table is the one that a step on
`not ∀A, B. p(A, B)` leaves. -/
theorem C22_violated_same : skoType (skoTyConst Maker.reset).1 (.neg (.all [tv "A", tv "B"] (.pred 0 [.bound "A", .bound "B"] []))) = some (sameBranch.getD 1 .top) ∧
    (∀ f ∈ sameBranch, Clean f) ∧ skoType (skoTyConst (skoTyConst Maker.reset).2).1 (sameBranch.getD 1 .top) =
      some (.neg (.pred 0 [.constr (skoTyConst Maker.reset).1 [], .constr (skoTyConst Maker.reset).1 []] [])) ∧
    (∀ f ∈ sameBranch, ∀ (μ ρ : Nat → Unit) (θ : TEnv Bool), truth twoM μ θ ρ f) ∧
    ∀ (U D : Type) (M : MInterp U D), ¬ ∀ f ∈ sameBranch ++ [.neg (.pred 0 [.constr (skoTyConst Maker.reset).1 [], .constr (skoTyConst Maker.reset).1 []] [])],
      ∀ (μ ρ : Nat → D) (θ : TEnv U), truth M μ θ ρ f := by
  refine ⟨rfl, ?_, by decide +kernel, ?_, ?_⟩
  · intro f hf
    simp only [sameBranch, List.mem_cons, List.not_mem_nil, or_false] at hf
    rcases hf with rfl | rfl
    · exact ⟨by decide, by simp [keysF, bkey, tv, isTType]⟩
    · exact ⟨by simp [keysF, bkey, tv], by simp [keysF, bkey, tv, isTType]⟩
  · intro f hf μ ρ θ
    simp only [sameBranch, List.mem_cons, List.not_mem_nil, or_false] at hf
    rcases hf with rfl | rfl
    · simp [truth, qAll, tv, isTType, twoM, tyValL, tyVal, TEnv.upd]
    · simp only [truth, qAll, tv, isTType, decide_true, if_true]
      intro h
      have := h false
      simp [tyValL, tyVal, TEnv.upd, twoM] at this
  · intro U D M h
    obtain ⟨d, -⟩ := M.ne (M.tvar "")
    let u := M.con (skoTyConst Maker.reset).1 []
    have h1 := h _ (by simp [sameBranch]; exact Or.inl rfl) (fun _ => d) (fun _ => d) ⟨fun _ => u, fun _ _ => u⟩
    have h2 := h (.neg (.pred 0 [.constr (skoTyConst Maker.reset).1 [], .constr (skoTyConst Maker.reset).1 []] [])) (by simp) (fun _ => d) (fun _ => d)
      ⟨fun _ => u, fun _ _ => u⟩
    simp only [truth, qAll, tv, isTType, decide_true, if_true, tyValL, tyVal, TEnv.upd, tmValL] at h1 h2
    exact h2 (h1 u)

theorem C22_statement_false : ¬ C22_statement := fun h => by
  obtain ⟨h1, h2, h3, h4⟩ := C22_violated_dependence Maker.reset
  obtain ⟨u, hu⟩ := h depBranch _ _ Maker.reset (by simp [depBranch]) h1 h2 Bool Unit twoM h3
  exact h4 _ _ _ hu

/-! Formulas without metavariables -/

mutual
/-- The type has no metavariables and no type variables but the given ones. -/
def TyIn (A : List String) : Ty → Prop
  | .var _ => True
  | .bound s => s ∈ A
  | .mv _ _ => False
  | .constr _ args => TyInL A args
  | .prod args => TyInL A args
  | .func a b => TyIn A a ∧ TyIn A b
  | .pi _ t => TyIn A t
def TyInL (A : List String) : List Ty → Prop
  | [] => True
  | a :: l => TyIn A a ∧ TyInL A l
end

mutual
/-- The same of a term, with the given variables. -/
def TmIn (A : List String) (X : List Nat) : Term → Prop
  | .var i => i ∈ X
  | .mv _ => False
  | .fn _ tys args => TyInL A tys ∧ TmInL A X args
def TmInL (A : List String) (X : List Nat) : List Term → Prop
  | [] => True
  | a :: l => TmIn A X a ∧ TmInL A X l
end

/-- The names of the type variables of a list of binders. -/
def bTys (vs : List TVar) : List String := (vs.filter fun v => isTType v.ty).map TVar.name

/-- The indices of the other variables. -/
def bVars (vs : List TVar) : List Nat := (vs.filter fun v => !isTType v.ty).map TVar.index

mutual
/-- The same of a formula. -/
def FmIn : List String → List Nat → Form → Prop
  | A, X, .pred _ tys args => TyInL A tys ∧ TmInL A X args
  | _, _, .top => True
  | _, _, .bot => True
  | A, X, .neg f => FmIn A X f
  | A, X, .and fs => FmInL A X fs
  | A, X, .or fs => FmInL A X fs
  | A, X, .imp f g => FmIn A X f ∧ FmIn A X g
  | A, X, .equ f g => FmIn A X f ∧ FmIn A X g
  | A, X, .all vs f => FmIn (bTys vs ++ A) (bVars vs ++ X) f
  | A, X, .ex vs f => FmIn (bTys vs ++ A) (bVars vs ++ X) f
def FmInL : List String → List Nat → List Form → Prop
  | _, _, [] => True
  | A, X, f :: fs => FmIn A X f ∧ FmInL A X fs
end

/-- The values agree on the given variables. -/
structure Agree (A : List String) (X : List Nat) (θ θ' : TEnv U) (ρ ρ' : Nat → D) : Prop where
  ty : ∀ s ∈ A, θ.bv s = θ'.bv s
  tm : ∀ i ∈ X, ρ i = ρ' i

theorem Agree.symm {A : List String} {X : List Nat} {θ θ' : TEnv U} {ρ ρ' : Nat → D} (h : Agree A X θ θ' ρ ρ') : Agree A X θ' θ ρ' ρ :=
  ⟨fun s hs => (h.ty s hs).symm, fun i hi => (h.tm i hi).symm⟩

theorem tyVal_in {A : List String} {θ θ' : TEnv U} (ha : ∀ s ∈ A, θ.bv s = θ'.bv s) (τ : Ty) (h : TyIn A τ) : tyVal M θ τ = tyVal M θ' τ := by
  have hL : ∀ l : List Ty, (∀ a ∈ l, TyIn A a → tyVal M θ a = tyVal M θ' a) → TyInL A l → tyValL M θ l = tyValL M θ' l := by
    intro l
    induction l with
    | nil => intros; rfl
    | cons a l ih =>
      intro h1 h2
      simp only [TyInL] at h2
      simp only [tyValL, h1 a (by simp) h2.1, ih (fun a ha => h1 a (by simp [ha])) h2.2]
  induction τ using Ty.ind with
  | var s => rfl
  | bound t => exact ha t h
  | mv s i => exact h.elim
  | constr c args ih => simp only [tyVal, hL args ih h]
  | prod args ih => simp only [tyVal, hL args ih h]
  | func a b iha ihb => simp only [tyVal, iha h.1, ihb h.2]
  | pi vs t ih => simp only [tyVal, ih h]

theorem tyValL_in {A : List String} {θ θ' : TEnv U} (ha : ∀ s ∈ A, θ.bv s = θ'.bv s) : ∀ (l : List Ty), TyInL A l → tyValL M θ l = tyValL M θ' l
  | [], _ => rfl
  | a :: l, h => by simp only [tyValL, tyVal_in ha a h.1, tyValL_in ha l h.2]

theorem tmVal_in {A : List String} {X : List Nat} {θ θ' : TEnv U} {ρ ρ' μ μ' : Nat → D} (ha : Agree A X θ θ' ρ ρ') (t : Term) (h : TmIn A X t) :
    tmVal M θ μ ρ t = tmVal M θ' μ' ρ' t := by
  have hL : ∀ l : List Term, (∀ a ∈ l, TmIn A X a → tmVal M θ μ ρ a = tmVal M θ' μ' ρ' a) → TmInL A X l → tmValL M θ μ ρ l = tmValL M θ' μ' ρ' l := by
    intro l
    induction l with
    | nil => intros; rfl
    | cons a l ih =>
      intro h1 h2
      simp only [TmInL] at h2
      simp only [tmValL, h1 a (by simp) h2.1, ih (fun a ha => h1 a (by simp [ha])) h2.2]
  induction t using Term.ind with
  | var i => exact ha.tm i h
  | mv i => exact h.elim
  | fn p tys args ih => simp only [tmVal, hL args ih h.2, tyValL_in ha.ty tys h.1]

theorem tmValL_in {A : List String} {X : List Nat} {θ θ' : TEnv U} {ρ ρ' μ μ' : Nat → D} (ha : Agree A X θ θ' ρ ρ') : ∀ (l : List Term), TmInL A X l →
    tmValL M θ μ ρ l = tmValL M θ' μ' ρ' l
  | [], _ => rfl
  | a :: l, h => by simp only [tmValL, tmVal_in (μ := μ) (μ' := μ') ha a h.1, tmValL_in (μ := μ) (μ' := μ') ha l h.2]

theorem FmInL_iff {A : List String} {X : List Nat} {fs : List Form} : FmInL A X fs ↔ ∀ f ∈ fs, FmIn A X f := by
  induction fs with
  | nil => simp [FmInL]
  | cons f fs ih => simp [FmInL, ih]

theorem qAll_in (hM : OneSorted M) {P P' : TEnv U → (Nat → D) → Prop} : ∀ (vs : List TVar) (A : List String) (X : List Nat),
    (∀ θ θ' ρ ρ', Agree (bTys vs ++ A) (bVars vs ++ X) θ θ' ρ ρ' → (P θ ρ ↔ P' θ' ρ')) →
    ∀ θ θ' ρ ρ', Agree A X θ θ' ρ ρ' → (qAll M P vs θ ρ ↔ qAll M P' vs θ' ρ')
  | [], _, _, h, θ, θ', ρ, ρ', ha => h θ θ' ρ ρ' ha
  | v :: vs, A, X, h, θ, θ', ρ, ρ', ha => by
    by_cases ht : isTType v.ty = true
    · simp only [qAll, ht, if_true]
      refine forall_congr' fun u => qAll_in hM vs (v.name :: A) X (fun θ θ' ρ ρ' hb => h θ θ' ρ ρ' ⟨fun s hs => hb.ty s ?_, fun i hi => hb.tm i ?_⟩) _ _ _ _
        ⟨fun s hs => ?_, ha.tm⟩
      · simp only [bTys, ht, List.filter_cons_of_pos, List.map_cons, List.cons_append, List.mem_cons, List.mem_append] at hs ⊢
        rcases hs with e | e | e <;> simp [e]
      · simpa [bVars, ht] using hi
      · simp only [TEnv.upd]
        split
        · rfl
        · rename_i hne
          exact ha.ty s ((List.mem_cons.1 hs).resolve_left hne)
    · simp only [qAll, ht, if_false]
      refine forall_congr' fun d => imp_congr ⟨fun _ => hM _ _, fun _ => hM _ _⟩ (qAll_in hM vs A (v.index :: X)
        (fun θ θ' ρ ρ' hb => h θ θ' ρ ρ' ⟨fun s hs => hb.ty s ?_, fun i hi => hb.tm i ?_⟩) _ _ _ _ ⟨ha.ty, fun i hi => ?_⟩)
      · simpa [bTys, ht] using hs
      · have ht : isTType v.ty = false := by simpa using ht
        simp only [bVars, ht, Bool.not_false, List.filter_cons_of_pos, List.map_cons, List.cons_append, List.mem_cons, List.mem_append] at hi ⊢
        rcases hi with e | e | e <;> simp [e]
      · simp only [upd]
        split
        · rfl
        · rename_i hne
          exact ha.tm i ((List.mem_cons.1 hi).resolve_left hne)

theorem qEx_not {P : TEnv U → (Nat → D) → Prop} : ∀ (vs : List TVar) (θ : TEnv U) (ρ : Nat → D), qEx M P vs θ ρ ↔ ¬ qAll M (fun θ ρ => ¬ P θ ρ) vs θ ρ
  | [], θ, ρ => by simp [qEx, qAll]
  | v :: vs, θ, ρ => by
    by_cases ht : isTType v.ty = true
    · simp only [qEx, qAll, ht, if_true, Classical.not_forall, qEx_not vs]
    · have ht : isTType v.ty = false := by simpa using ht
      simp [qEx, qAll, ht, qEx_not vs]

/-- The truth of a formula depends on its free variables only. -/
theorem truth_in (hM : OneSorted M) {μ μ' : Nat → D} (F : Form) : ∀ (A : List String) (X : List Nat), FmIn A X F → ∀ (θ θ' : TEnv U) (ρ ρ' : Nat → D),
    Agree A X θ θ' ρ ρ' → (truth M μ θ ρ F ↔ truth M μ' θ' ρ' F) := by
  induction F using Form.ind with
  | pred p tys args => intro A X h θ θ' ρ ρ' ha; simp only [truth, tyValL_in ha.ty tys h.1, tmValL_in (μ := μ) (μ' := μ') ha args h.2]
  | top => intros; simp [truth]
  | bot => intros; simp [truth]
  | neg f ih => intro A X h θ θ' ρ ρ' ha; simp only [truth, ih A X h θ θ' ρ ρ' ha]
  | and fs ih =>
    intro A X h θ θ' ρ ρ' ha
    simp only [truth, truthAll_iff]
    exact forall₂_congr fun f hf => ih f hf A X (FmInL_iff.1 h f hf) θ θ' ρ ρ' ha
  | or fs ih =>
    intro A X h θ θ' ρ ρ' ha
    simp only [truth, truthAny_iff]
    exact exists_congr fun f => and_congr_right fun hf => ih f hf A X (FmInL_iff.1 h f hf) θ θ' ρ ρ' ha
  | imp f g ihf ihg => intro A X h θ θ' ρ ρ' ha; simp only [truth, ihf A X h.1 θ θ' ρ ρ' ha, ihg A X h.2 θ θ' ρ ρ' ha]
  | equ f g ihf ihg => intro A X h θ θ' ρ ρ' ha; simp only [truth, ihf A X h.1 θ θ' ρ ρ' ha, ihg A X h.2 θ θ' ρ ρ' ha]
  | all vs f ih => intro A X h θ θ' ρ ρ' ha; exact qAll_in hM vs A X (fun θ θ' ρ ρ' hb => ih _ _ h θ θ' ρ ρ' hb) θ θ' ρ ρ' ha
  | ex vs f ih =>
    intro A X h θ θ' ρ ρ' ha
    simp only [truth, qEx_not]
    exact not_congr (qAll_in hM vs A X (fun θ θ' ρ ρ' hb => not_congr (ih _ _ h θ θ' ρ ρ' hb)) θ θ' ρ ρ' ha)

/-- **C22 for quantified type variables**, where the two violations are excluded: the constant is new, and the formula has no metavariables (and is closed); for
structures in which elements are not told apart by types. -/
theorem C22_types_partial (hM : OneSorted M) {c : String} {Γ : List Form} {F G : Form} (hc : c ≠ "$tType") (hnew : ∀ f ∈ Γ, c ∉ fmCons f) (hF : F ∈ Γ)
    (hcl : Clean F) (hin : FmIn [] [] F) (hG : skoType c F = some G) (hΓ : ∀ f ∈ Γ, ∀ (μ ρ : Nat → D) (θ : TEnv U), truth M μ θ ρ f) :
    ∃ u, ∀ f ∈ Γ ++ [G], ∀ (μ ρ : Nat → D) (θ : TEnv U), truth (setCon M c u) μ θ ρ f := by
  obtain ⟨d, -⟩ := M.ne (M.tvar "")
  let θ0 : TEnv U := ⟨fun _ => M.tvar "", fun _ _ => M.tvar ""⟩
  obtain ⟨u, hu⟩ := C77_delta_partial hM hc (b := Γ) hnew hF hcl hG (fun _ => d) (fun _ => d) θ0 fun f hf => hΓ f hf _ _ _
  refine ⟨u, fun f hf μ ρ θ => ?_⟩
  rcases List.mem_append.1 hf with hf | hf
  · exact (truth_setCon hM f (hnew f hf) θ ρ).2 (hΓ f hf _ _ _)
  · obtain rfl := List.mem_singleton.1 hf
    have hM' : OneSorted (setCon M c u) := fun a b => hM a b
    have h0 := hu f (by simp)
    unfold skoType at hG
    split at hG
    · rename_i v vs f'
      split at hG
      · rename_i hv
        simp only [Option.some.injEq] at hG
        subst hG
        have hk := hcl.1
        have hk' : Sum.inl v.name ∉ vs.map bkey ∧ Sum.inl v.name ∉ keysF f' := by
          have : bkey v ∉ vs.map bkey ++ keysF f' := (List.nodup_cons.1 hk).1
          have hb : bkey v = .inl v.name := by simp [bkey, hv]
          rw [hb, List.mem_append, not_or] at this
          exact this
        have key : ∀ (μ ρ : Nat → D) (θ : TEnv U), truth (setCon M c u) μ θ ρ (if vs.length > 0 then .all vs (f'.substBound v.name (.constr c [])) else
            f'.substBound v.name (.constr c [])) ↔ truth (setCon M c u) μ (θ.upd v.name u) ρ (.all vs f') := by
          intro μ ρ θ
          rw [truth_allOr]
          have h3 := qAll_sub (M := setCon M c u) (P := fun θ ρ => truth (setCon M c u) μ θ ρ f')
            (P' := fun θ ρ => truth (setCon M c u) μ θ ρ (f'.substBound v.name (.constr c []))) (n := v.name) (x := fun θ => tyVal (setCon M c u) θ (.constr c []))
            (g := id) (fun θ m u => rfl) (fun v => ⟨rfl, rfl, rfl⟩) (fun θ ρ => truth_sub (Or.inr ⟨c, hc, rfl⟩) μ f' hk'.2 θ ρ) vs hk'.1
            (fun v _ θ d => ⟨fun _ => hM' _ _, fun _ => hM' _ _⟩) θ ρ
          have h4 : tyVal (setCon M c u) θ (.constr c []) = u := by simp [tyVal, tyValL, setCon]
          simp only [List.map_id_fun, id_eq] at h3
          rw [h4] at h3
          exact h3
        simp only [truth] at h0 ⊢
        rw [key] at h0 ⊢
        intro h1
        have hin : FmIn (bTys (v :: vs) ++ []) (bVars (v :: vs) ++ []) f' := hin
        have e1 : bTys (v :: vs) = v.name :: bTys vs := by simp [bTys, hv]
        have e2 : bVars (v :: vs) = bVars vs := by simp [bVars, hv]
        rw [e1, e2, List.append_nil, List.append_nil] at hin
        refine h0 ((qAll_in hM' vs [v.name] [] (fun θ θ' ρ ρ' hb => truth_in hM' f' _ _ hin θ θ' ρ ρ' ⟨fun s hs => hb.ty s ?_, fun i hi => hb.tm i ?_⟩) _ _ _ _
          ⟨fun s hs => ?_, by simp⟩).1 h1)
        · rcases List.mem_cons.1 hs with e | e <;> simp [e]
        · simpa using hi
        · obtain rfl := List.mem_singleton.1 hs
          simp [TEnv.upd]
      · cases hG
    · cases hG

/-- The hypotheses of `C22_types_partial` are met by the two conjuncts of `twoTypes`. -/
example : (∀ f ∈ [Form.all [tv "A"] (.pred 0 [.bound "A", .bound "A"] []), .neg (.all [tv "A", tv "B"] (.pred 0 [.bound "A", .bound "B"] []))],
      "c" ∉ fmCons f) ∧ FmIn [] [] (.neg (.all [tv "A", tv "B"] (.pred 0 [.bound "A", .bound "B"] []))) ∧
    skoType "c" (.neg (.all [tv "A", tv "B"] (.pred 0 [.bound "A", .bound "B"] []))) = some (.neg (.all [tv "B"] (.pred 0 [.constr "c" [], .bound "B"] []))) := by
  refine ⟨?_, ?_, rfl⟩
  · simp [fmCons, tyConsL, tyCons, tmConsL, tv]
  · simp [FmIn, TyInL, TyIn, TmInL, bTys, tv, isTType]

end Verif.Sorted
