import Verif.Search.Rules
/-!
# C18–C20: kinds of rules, alpha and beta rules
-/
set_option linter.unusedSimpArgs false

namespace Verif.Search
open Verif.AST

/-! ### Lists without repetition -/

theorem mem_appendNew {l : List Form} {f g : Form} : g ∈ appendNew l f ↔ g ∈ l ∨ g = f := by
  unfold appendNew
  split
  · constructor
    · exact Or.inl
    · rintro (h | rfl) <;> assumption
  · simp

theorem mem_foldl_appendNew {h : Form → Form} {fs : List Form} {r : List Form} {g : Form} :
    g ∈ fs.foldl (fun r f => appendNew r (h f)) r ↔ g ∈ r ∨ ∃ f ∈ fs, g = h f := by
  induction fs generalizing r with
  | nil => simp
  | cons f fs ih => simp [ih, mem_appendNew, or_assoc]

theorem mem_foldl_appendNew_id {fs : List Form} {r : List Form} {g : Form} :
    g ∈ fs.foldl appendNew r ↔ g ∈ r ∨ g ∈ fs := by
  induction fs generalizing r with
  | nil => simp
  | cons f fs ih => simp [ih, mem_appendNew, or_assoc]

/-! ### C18 -/

/-- A literal: an atom or constant, possibly negated (specification). -/
def IsLiteral (f : Form) : Prop :=
  let atom : Form → Prop := fun g => (∃ p tys args, g = .pred p tys args) ∨ g = .top ∨ g = .bot
  atom f ∨ ∃ g, atom g ∧ f = .neg g

/-- Conjunctive formulas (specification). -/
def IsConjunctive (f : Form) : Prop :=
  (∃ fs, f = .and fs) ∨ (∃ g, f = .neg (.neg g)) ∨ (∃ fs, f = .neg (.or fs)) ∨ ∃ a b, f = .neg (.imp a b)

/-- Disjunctive formulas (specification). -/
def IsDisjunctive (f : Form) : Prop :=
  (∃ fs, f = .or fs) ∨ (∃ a b, f = .imp a b) ∨ (∃ a b, f = .equ a b) ∨ (∃ fs, f = .neg (.and fs)) ∨
    ∃ a b, f = .neg (.equ a b)

/-- Universal formulas (specification). -/
def IsUniversal (f : Form) : Prop := (∃ vs g, f = .all vs g) ∨ ∃ vs g, f = .neg (.ex vs g)

/-- Existential formulas (specification). -/
def IsExistential (f : Form) : Prop := (∃ vs g, f = .ex vs g) ∨ ∃ vs g, f = .neg (.all vs g)

theorem showKind_spec (f : Form) :
    (showKind f = .atomic ↔ IsLiteral f) ∧ (showKind f = .alpha ↔ IsConjunctive f) ∧
    (showKind f = .beta ↔ IsDisjunctive f) ∧ (showKind f = .gamma ↔ IsUniversal f) ∧
    (showKind f = .delta ↔ IsExistential f) := by
  cases f with
  | neg g => cases g <;> simp [showKind, IsLiteral, IsConjunctive, IsDisjunctive, IsUniversal, IsExistential]
  | _ => simp [showKind, IsLiteral, IsConjunctive, IsDisjunctive, IsUniversal, IsExistential]

/-- **C18 (kinds).** The kind of a formula is the one its shape calls for, and every formula falls in
exactly one of the five classes. -/
theorem C18_kind_exact (f : Form) :
    (showKind f = .atomic ↔ IsLiteral f) ∧ (showKind f = .alpha ↔ IsConjunctive f) ∧
    (showKind f = .beta ↔ IsDisjunctive f) ∧ (showKind f = .gamma ↔ IsUniversal f) ∧
    (showKind f = .delta ↔ IsExistential f) ∧
    (IsLiteral f ∨ IsConjunctive f ∨ IsDisjunctive f ∨ IsUniversal f ∨ IsExistential f) := by
  obtain ⟨a, b, c, d, e⟩ := showKind_spec f
  refine ⟨a, b, c, d, e, ?_⟩
  rw [← a, ← b, ← c, ← d, ← e]
  cases showKind f <;> simp

/-- **C18 (dispatch).** Dispatching a formula on a state loses no formula, invents none, and puts the
formula in the list of the rule that will expand it. -/
theorem C18_dispatch (st : Lists) (f : Form) :
    (∀ g, g ∈ (st.dispatch f).forms ↔ g ∈ st.forms ∨ g = f) ∧
    (IsLiteral f → f ∈ (st.dispatch f).atomic) ∧ (IsConjunctive f → f ∈ (st.dispatch f).alpha) ∧
    (IsDisjunctive f → f ∈ (st.dispatch f).beta) ∧ (IsUniversal f → f ∈ (st.dispatch f).gamma) ∧
    (IsExistential f → f ∈ (st.dispatch f).delta) := by
  obtain ⟨a, b, c, d, e⟩ := showKind_spec f
  rw [← a, ← b, ← c, ← d, ← e]
  refine ⟨?_, ?_, ?_, ?_, ?_, ?_⟩
  · intro g
    cases h : showKind f <;> simp [Lists.dispatch, h, Lists.forms, mem_appendNew] <;> grind
  all_goals intro h; simp [Lists.dispatch, h, mem_appendNew]

/-- **C18 (smaller).** Every formula produced by an alpha or beta expansion is strictly smaller than
the expanded formula. -/
theorem C18_smaller (f g : Form) :
    (g ∈ applyAlpha f → g.size < f.size) ∧ (∀ l ∈ applyBeta f, g ∈ l → g.size < f.size) := by
  constructor
  · intro h
    unfold applyAlpha at h
    split at h
    · simp [mem_appendNew] at h; subst h; simp [Form.size]; omega
    · rw [mem_foldl_appendNew] at h
      simp only [List.not_mem_nil, false_or] at h
      obtain ⟨x, hx, rfl⟩ := h
      have := Form.size_le_of_mem hx
      simp only [Form.size]; omega
    · rename_i a b
      have := Form.size_pos a; have := Form.size_pos b
      simp [mem_appendNew] at h
      rcases h with rfl | rfl <;> simp only [Form.size] <;> omega
    · rw [mem_foldl_appendNew_id] at h
      simp only [List.not_mem_nil, false_or] at h
      have := Form.size_le_of_mem h
      simp only [Form.size]; omega
    · cases h
  · intro l hl h
    unfold applyBeta at hl
    split at hl
    · obtain ⟨x, hx, rfl⟩ := List.mem_map.1 hl
      simp at h; subst h
      have := Form.size_le_of_mem hx
      simp only [Form.size]; omega
    · rename_i a b
      have := Form.size_pos a; have := Form.size_pos b
      simp at hl
      rcases hl with rfl | rfl <;> simp at h <;> rcases h with rfl | rfl <;> simp only [Form.size] <;> omega
    · obtain ⟨x, hx, rfl⟩ := List.mem_map.1 hl
      simp at h; subst h
      have := Form.size_le_of_mem hx
      simp only [Form.size]; omega
    · rename_i a b
      have := Form.size_pos a; have := Form.size_pos b
      simp at hl
      rcases hl with rfl | rfl <;> simp at h <;> subst h <;> simp only [Form.size] <;> omega
    · rename_i a b
      have := Form.size_pos a; have := Form.size_pos b
      simp at hl
      rcases hl with rfl | rfl <;> simp at h <;> rcases h with rfl | rfl <;> simp only [Form.size] <;> omega
    · cases hl

/-! Termination of propositional expansion -/

mutual
/-- Number of expansion steps a formula can cause on one branch, with its sign; a quantifier counts one
step for each variable it binds. -/
def weight : Bool → Form → Nat
  | _, .pred _ _ _ => 0
  | _, .top => 0
  | _, .bot => 0
  | b, .neg f => (if b then 0 else 1) + weight (!b) f
  | b, .and fs => 1 + weightL b fs
  | b, .or fs => 1 + weightL b fs
  | b, .imp f g => 1 + weight (!b) f + weight b g
  | b, .equ f g => 1 + weight b f + weight b g + weight (!b) f + weight (!b) g
  | b, .all vs f => vs.length + weight b f
  | b, .ex vs f => vs.length + weight b f
def weightL : Bool → List Form → Nat
  | _, [] => 0
  | b, f :: fs => weight b f + weightL b fs
end

/-- Weight of a branch. -/
def branchWeight (b : List Form) : Nat := weightL true b

theorem weightL_append {b : Bool} {l m : List Form} : weightL b (l ++ m) = weightL b l + weightL b m := by
  induction l with
  | nil => simp [weightL]
  | cons f l ih => simp [weightL, ih]; omega

theorem weightL_appendNew {l : List Form} {f : Form} :
    weightL true (appendNew l f) ≤ weightL true l + weight true f := by
  unfold appendNew
  split
  · omega
  · simp [weightL_append, weightL]

theorem weightL_foldl {fs : List Form} {r : List Form} :
    weightL true (fs.foldl appendNew r) ≤ weightL true r + weightL true fs := by
  induction fs generalizing r with
  | nil => simp [weightL]
  | cons f fs ih =>
    have := @ih (appendNew r f)
    have := @weightL_appendNew r f
    simp only [List.foldl_cons, weightL]; omega

theorem weightL_foldl_neg {fs : List Form} {r : List Form} :
    weightL true (fs.foldl (fun r f => appendNew r (.neg f)) r) ≤ weightL true r + weightL false fs := by
  induction fs generalizing r with
  | nil => simp [weightL]
  | cons f fs ih =>
    have := @ih (appendNew r (.neg f))
    have := @weightL_appendNew r (.neg f)
    simp only [List.foldl_cons, weightL, weight, Bool.not_true, if_true] at *; omega

theorem weight_le_of_mem {b : Bool} {l : List Form} {f : Form} (h : f ∈ l) : weight b f ≤ weightL b l := by
  induction l with
  | nil => cases h
  | cons g l ih =>
    simp only [weightL]
    rcases List.mem_cons.1 h with rfl | h
    · omega
    · have := ih h; omega

/-- One propositional expansion step on a branch: a conjunctive or disjunctive formula is taken out and
replaced by what its expansion puts on one of the resulting branches. -/
inductive PropStep : List Form → List Form → Prop where
  | alpha {l r f} : IsConjunctive f → PropStep (l ++ f :: r) (l ++ r ++ applyAlpha f)
  | beta {l r f b} : IsDisjunctive f → b ∈ applyBeta f → PropStep (l ++ f :: r) (l ++ r ++ b)

theorem PropStep.decreases {b b' : List Form} (h : PropStep b b') : branchWeight b' < branchWeight b := by
  unfold branchWeight
  cases h with
  | alpha hf =>
    simp only [weightL_append, weightL]
    rcases hf with ⟨fs, rfl⟩ | ⟨g, rfl⟩ | ⟨fs, rfl⟩ | ⟨a, b, rfl⟩
    · have := @weightL_foldl fs []
      simp only [applyAlpha, weight, weightL] at *; omega
    · simp [applyAlpha, appendNew, weight, weightL]; omega
    · have := @weightL_foldl_neg fs []
      simp only [applyAlpha, weight, weightL, if_true, Bool.not_true] at *; omega
    · have := @weightL_appendNew (appendNew [] a) (.neg b)
      have := @weightL_appendNew [] a
      simp only [applyAlpha, weight, weightL, if_true, Bool.not_true, Bool.not_false] at *; omega
  | beta hf hb =>
    simp only [weightL_append, weightL]
    rcases hf with ⟨fs, rfl⟩ | ⟨a, b, rfl⟩ | ⟨a, b, rfl⟩ | ⟨fs, rfl⟩ | ⟨a, b, rfl⟩
    · obtain ⟨x, hx, rfl⟩ := List.mem_map.1 hb
      have := weight_le_of_mem (b := true) hx
      simp [weight, weightL]; omega
    · simp only [applyBeta, List.mem_cons, List.not_mem_nil, or_false] at hb
      rcases hb with rfl | rfl <;> simp [weight, weightL] <;> omega
    · simp only [applyBeta, List.mem_cons, List.not_mem_nil, or_false] at hb
      rcases hb with rfl | rfl <;> simp [weight, weightL] <;> omega
    · obtain ⟨x, hx, rfl⟩ := List.mem_map.1 hb
      have := weight_le_of_mem (b := false) hx
      simp [weight, weightL]; omega
    · simp only [applyBeta, List.mem_cons, List.not_mem_nil, or_false] at hb
      rcases hb with rfl | rfl <;> simp [weight, weightL] <;> omega

/-- **C18 (termination).** Propositional expansion terminates: a branch has no infinite expansion, and
the number of alpha and beta steps on any branch is bounded by its initial weight. -/
theorem C18_terminates :
    WellFounded (fun b' b => PropStep b b') ∧
    ∀ (n : Nat) (bs : Nat → List Form), (∀ i < n, PropStep (bs i) (bs (i + 1))) →
      n ≤ branchWeight (bs 0) := by
  constructor
  · exact Subrelation.wf (fun h => PropStep.decreases h) (measure branchWeight).wf
  · intro n bs h
    have : ∀ i ≤ n, branchWeight (bs i) + i ≤ branchWeight (bs 0) := by
      intro i
      induction i with
      | zero => intro _; omega
      | succ i ih =>
        intro hi
        have := ih (by omega)
        have := (h i (by omega)).decreases
        omega
    have := this n (Nat.le_refl _)
    omega

/-- A branch with several expansion steps: ¬(p ⇒ (q ⇔ r)). -/
example : PropStep [.neg (.imp (.pred 1 [] []) (.equ (.pred 2 [] []) (.pred 3 [] [])))]
    [.pred 1 [] [], .neg (.equ (.pred 2 [] []) (.pred 3 [] []))] :=
  .alpha (l := []) (r := []) (Or.inr (Or.inr (Or.inr ⟨_, _, rfl⟩)))
example : PropStep [.pred 1 [] [], .neg (.equ (.pred 2 [] []) (.pred 3 [] []))]
    [.pred 1 [] [], .pred 2 [] [], .neg (.pred 3 [] [])] :=
  .beta (l := [.pred 1 [] []]) (r := []) (b := [.pred 2 [] [], .neg (.pred 3 [] [])])
    (Or.inr (Or.inr (Or.inr (Or.inr ⟨_, _, rfl⟩)))) (by simp [applyBeta])

/-! ### C19, C20 -/

section
variable {D : Type u} (I : Interp D) (μ ρ : Nat → D)

/-- **C19.** A conjunctive formula is true exactly when all formulas its expansion puts on the branch
are. -/
theorem C19_alpha (f : Form) (hf : IsConjunctive f) :
    Form.holds I μ ρ f ↔ ∀ g ∈ applyAlpha f, Form.holds I μ ρ g := by
  rcases hf with ⟨fs, rfl⟩ | ⟨g, rfl⟩ | ⟨fs, rfl⟩ | ⟨a, b, rfl⟩
  · simp [applyAlpha, mem_foldl_appendNew_id]
  · simp [applyAlpha, mem_appendNew]
  · simp [applyAlpha, mem_foldl_appendNew]
    constructor
    · rintro h _ x hx rfl; simpa using h x hx
    · intro h x hx; simpa using h _ x hx rfl
  · simp [applyAlpha, mem_appendNew]

/-- **C20.** A disjunctive formula is true exactly when, for one of the branches its expansion creates,
all the formulas put on it are. -/
theorem C20_beta (f : Form) (hf : IsDisjunctive f) :
    Form.holds I μ ρ f ↔ ∃ l ∈ applyBeta f, ∀ g ∈ l, Form.holds I μ ρ g := by
  rcases hf with ⟨fs, rfl⟩ | ⟨a, b, rfl⟩ | ⟨a, b, rfl⟩ | ⟨fs, rfl⟩ | ⟨a, b, rfl⟩
  · simp only [applyBeta, exists_mem_map']; simp
  · simp [applyBeta]; grind
  · simp [applyBeta]; grind
  · simp only [applyBeta, exists_mem_map']; simp
  · simp [applyBeta]; grind

end

/-- The shape hypotheses are met by, for example, ¬(p ∨ q) and ¬(p ⇔ q). -/
example : IsConjunctive (.neg (.or [.pred 1 [] [], .pred 2 [] []])) ∧
    applyAlpha (.neg (.or [.pred 1 [] [], .pred 2 [] []])) = [.neg (.pred 1 [] []), .neg (.pred 2 [] [])] :=
  ⟨Or.inr (Or.inr (Or.inl ⟨_, rfl⟩)), by decide⟩
example : IsDisjunctive (.neg (.equ (.pred 1 [] []) (.pred 2 [] []))) :=
  Or.inr (Or.inr (Or.inr (Or.inr ⟨_, _, rfl⟩)))

end Verif.Search
