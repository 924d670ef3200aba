import Verif.Search.RulesProps
import Verif.Search.Quant
import Mathlib.Logic.Basic
import Mathlib.Tactic.Tauto
/-!
# C49: the rules of the incremental search (`src/Search/incremental`)

A rule is a formula with its list of terms (`AnyRule`, src/Search/incremental/rules.go:36-43); the Go type of a rule is
determined by the shape of the formula (`makeCorrectRule`, rules.go:76-148), so that it is not stored here. Two rules
are equal when terms and formulas are (`AnyRule.Equals`, 57-62). The strings kept for printing are left out.
-/

namespace Verif.Search.Incr
open Verif.AST Verif.Search

/-- `AnyRule` (src/Search/incremental/rules.go:36-43). -/
structure Rule where
  form : Form
  terms : List Term
deriving DecidableEq

/-- `AppendIfNotContains` (src/Glob/utils.go:46-54). -/
def addNew (l : List Rule) (r : Rule) : List Rule := if r ∈ l then l else l ++ [r]

/-- What a rule puts on the new branches: the `apply` methods (src/Search/incremental/rules.go:164-374, 388-399,
429-440, 467-499). `m` is the index of the next metavariable, `sk` the Skolem symbol and `args` its arguments. The
type variables are not treated here: a quantifier over a term variable adds the new metavariable to the terms
(`Add` leaves out terms that are there already, which a fresh metavariable is not). `none`: quantifier
without variables. -/
def Rule.apply (m sk : Nat) (args : List Nat) (r : Rule) : Option (List (List Rule)) :=
  match r.form with
  | .and fs => some [fs.map fun f => ⟨f, r.terms⟩]
  | .neg (.neg f) => some [[⟨f, r.terms⟩]]
  | .neg (.or fs) => some [fs.map fun f => ⟨.neg f, r.terms⟩]
  | .neg (.imp f g) => some [[⟨f, r.terms⟩, ⟨.neg g, r.terms⟩]]
  | .neg (.and fs) => some (fs.map fun f => [⟨.neg f, r.terms⟩])
  | .neg (.equ f g) => some [[⟨.neg f, r.terms⟩, ⟨g, r.terms⟩], [⟨f, r.terms⟩, ⟨.neg g, r.terms⟩]]
  | .or fs => some (fs.map fun f => [⟨f, r.terms⟩])
  | .imp f g => some [[⟨.neg f, r.terms⟩], [⟨g, r.terms⟩]]
  | .equ f g => some [[⟨.neg f, r.terms⟩, ⟨.neg g, r.terms⟩], [⟨f, r.terms⟩, ⟨g, r.terms⟩]]
  | .all vs f => (instantiate m 42 (.all vs f)).map fun g => [[⟨g, r.terms ++ [.mv m]⟩]]
  | .neg (.ex vs f) => (instantiate m 42 (.neg (.ex vs f))).map fun g => [[⟨g, r.terms ++ [.mv m]⟩]]
  | .ex vs f => (skolemize sk args (.ex vs f)).map fun g => [[⟨g, r.terms⟩]]
  | .neg (.all vs f) => (skolemize sk args (.neg (.all vs f))).map fun g => [[⟨g, r.terms⟩]]
  | _ => some [[r]]

/-- `RulesManager` (src/Search/incremental/rulesManager.go:11-25), the lists of rules. -/
structure RM where
  atomic : List Rule := []
  atomicNot : List Rule := []
  alpha : List Rule := []
  beta : List Rule := []
  gamma : List Rule := []
  delta : List Rule := []
deriving DecidableEq

/-- All rules of a manager. -/
def RM.all (rm : RM) : List Rule := rm.atomic ++ rm.atomicNot ++ rm.alpha ++ rm.beta ++ rm.gamma ++ rm.delta

def isNeg : Form → Bool
  | .neg _ => true
  | _ => false

/-- One turn of the loop of `insertIntoCorrectSlice` (src/Search/incremental/rulesManager.go:42-64). -/
def RM.insert (rm : RM) (r : Rule) : RM :=
  match showKind r.form with
  | .atomic => if isNeg r.form then { rm with atomicNot := addNew rm.atomicNot r }
      else { rm with atomic := addNew rm.atomic r }
  | .alpha => { rm with alpha := addNew rm.alpha r }
  | .beta => { rm with beta := addNew rm.beta r }
  | .gamma => { rm with gamma := addNew rm.gamma r }
  | .delta => { rm with delta := addNew rm.delta r }

/-- `insertIntoCorrectSlice` (src/Search/incremental/rulesManager.go:42-64). -/
def RM.insertAll (rm : RM) (l : List Rule) : RM := l.foldl RM.insert rm

/-- `removeRule`, `RemoveIfContains` (src/Search/incremental/rulesManager.go:75-82, rules.go:525-533): the first equal
rule of each list. The lists are those of a copy made by `append` to a nil slice, so that the removal in place touches no other
manager. -/
def RM.remove (rm : RM) (r : Rule) : RM :=
  { atomic := rm.atomic.erase r, atomicNot := rm.atomicNot.erase r, alpha := rm.alpha.erase r, beta := rm.beta.erase r,
    gamma := rm.gamma.erase r, delta := rm.delta.erase r }

/-- `tryToApply` (src/Search/incremental/rulesManager.go:229-252, rules.go:513-523): the first rule of the category, one manager for
each branch. Outer `none`: no rule (`success` is false) or the crash of `apply`. -/
def RM.tryToApply (m sk : Nat) (args : Form → List Nat) (rm : RM) : List Rule → Option (Rule × List RM)
  | [] => none
  | r :: _ => (r.apply m sk (args r.form)).map fun bs => (r, bs.map fun b => (rm.remove r).insertAll b)

/-- `applyNonClosureRule` (src/Search/incremental/rulesManager.go:97-120). -/
def RM.nonClosure (m sk : Nat) (args : Form → List Nat) (rm : RM) : Option (Rule × List RM) :=
  rm.tryToApply m sk args (if rm.alpha ≠ [] then rm.alpha else if rm.delta ≠ [] then rm.delta
    else if rm.beta ≠ [] then rm.beta else rm.gamma)

/-- `newRootSearchNode`, `insertForm` (src/Search/incremental/searchNode.go:43-52, rulesManager.go:37-40). -/
def RM.root (f : Form) : RM := RM.insert {} ⟨f, []⟩

/-- Repeated expansion without closure rules (`allDoParallelAlgo`, `doSearch`, src/Search/incremental/searchNode.go:81-171): the managers of
the leaves. The first argument bounds the depth. -/
def RM.leaves (m sk : Nat) (args : Form → List Nat) : Nat → RM → Option (List RM)
  | 0, _ => none
  | n + 1, rm =>
    if rm.alpha = [] ∧ rm.delta = [] ∧ rm.beta = [] ∧ rm.gamma = [] then some [rm]
    else match rm.nonClosure m sk args with
      | none => none
      | some (_, rms) => (rms.mapM (RM.leaves m sk args n)).map List.flatten

/-! ### Specification -/

/-- All formulas of a manager are true. -/
def RM.holds {D : Type u} (I : Interp D) (μ ρ : Nat → D) (rm : RM) : Prop := ∀ r ∈ rm.all, Form.holds I μ ρ r.form

mutual
/-- A formula without quantifiers. -/
def propositional : Form → Bool
  | .pred _ _ _ => true
  | .top => true
  | .bot => true
  | .neg f => propositional f
  | .and fs => propositionalL fs
  | .or fs => propositionalL fs
  | .imp f g => propositional f && propositional g
  | .equ f g => propositional f && propositional g
  | .all _ _ => false
  | .ex _ _ => false
def propositionalL : List Form → Bool
  | [] => true
  | f :: fs => propositional f && propositionalL fs
end

theorem propositionalL_iff {l : List Form} : propositionalL l = true ↔ ∀ f ∈ l, propositional f = true := by
  induction l with
  | nil => simp [propositionalL]
  | cons f l ih => simp [propositionalL, ih]

/-! ### One rule -/

/-- The branches as formulas. -/
def formsOf (bs : List (List Rule)) : List (List Form) := bs.map fun b => b.map (·.form)

theorem apply_alpha (m sk : Nat) (args : List Nat) (r : Rule) (h : IsConjunctive r.form) :
    ∃ b, r.apply m sk args = some [b] ∧ ∀ g, (∃ x ∈ b, x.form = g) ↔ g ∈ applyAlpha r.form := by
  obtain ⟨f, ts⟩ := r
  rcases h with ⟨fs, rfl⟩ | ⟨g, rfl⟩ | ⟨fs, rfl⟩ | ⟨a, b, rfl⟩
  · exact ⟨_, rfl, fun g => by simp [applyAlpha, mem_foldl_appendNew_id]⟩
  · exact ⟨_, rfl, fun g => by simp [applyAlpha, mem_appendNew, eq_comm]⟩
  · refine ⟨_, rfl, fun g => ?_⟩
    simp only [applyAlpha, mem_foldl_appendNew, List.not_mem_nil, false_or, List.mem_map]
    constructor
    · rintro ⟨x, ⟨a, ha, rfl⟩, rfl⟩; exact ⟨a, ha, rfl⟩
    · rintro ⟨a, ha, rfl⟩; exact ⟨_, ⟨a, ha, rfl⟩, rfl⟩
  · exact ⟨_, rfl, fun g => by simp [applyAlpha, mem_appendNew, eq_comm]⟩

theorem apply_beta (m sk : Nat) (args : List Nat) (r : Rule) (h : IsDisjunctive r.form) :
    ∃ bs, r.apply m sk args = some bs ∧ formsOf bs = applyBeta r.form := by
  obtain ⟨f, ts⟩ := r
  rcases h with ⟨fs, rfl⟩ | ⟨a, b, rfl⟩ | ⟨a, b, rfl⟩ | ⟨fs, rfl⟩ | ⟨a, b, rfl⟩
  · exact ⟨_, rfl, by simp [formsOf, applyBeta]⟩
  · exact ⟨_, rfl, rfl⟩
  · exact ⟨_, rfl, rfl⟩
  · exact ⟨_, rfl, by simp [formsOf, applyBeta]⟩
  · exact ⟨_, rfl, rfl⟩

/-- **C49 (agreement).** For conjunctive and disjunctive formulas the incremental rules create the branches of the main
search: one branch with the same formulas in the first case, the same branches in the same order in the second. -/
theorem C49_agrees_with_main (m sk : Nat) (args : List Nat) (r : Rule) :
    (IsConjunctive r.form → ∃ b, r.apply m sk args = some [b] ∧ ∀ g, (∃ x ∈ b, x.form = g) ↔ g ∈ applyAlpha r.form) ∧
    (IsDisjunctive r.form → ∃ bs, r.apply m sk args = some bs ∧ bs.map (fun b => b.map (·.form)) = applyBeta r.form) :=
  ⟨apply_alpha m sk args r, apply_beta m sk args r⟩

/-- **C49 (one rule).** A formula that is not quantified is true exactly when, for one of the branches its rule creates,
all formulas put on it are. -/
theorem C49_rule_equivalent (m sk : Nat) (args : List Nat) (r : Rule) (h1 : ¬ IsUniversal r.form)
    (h2 : ¬ IsExistential r.form) :
    ∃ bs, r.apply m sk args = some bs ∧ ∀ (D : Type u) (I : Interp D) (μ ρ : Nat → D),
      Form.holds I μ ρ r.form ↔ ∃ b ∈ bs, ∀ x ∈ b, Form.holds I μ ρ x.form := by
  rcases (C18_kind_exact r.form).2.2.2.2.2 with h | h | h | h | h
  · refine ⟨[[r]], ?_, fun D I μ ρ => by simp⟩
    obtain ⟨f, ts⟩ := r
    rcases h with (⟨p, tys, as, rfl⟩ | rfl | rfl) | ⟨g, ⟨p, tys, as, rfl⟩ | rfl | rfl, rfl⟩ <;> rfl
  · obtain ⟨b, hb, hm⟩ := apply_alpha m sk args r h
    refine ⟨_, hb, fun D I μ ρ => ?_⟩
    rw [C19_alpha I μ ρ r.form h]
    simp only [List.mem_singleton, exists_eq_left]
    constructor
    · intro hg x hx
      exact hg _ ((hm _).1 ⟨x, hx, rfl⟩)
    · intro hx g hg
      obtain ⟨x, hx', rfl⟩ := (hm g).2 hg
      exact hx x hx'
  · obtain ⟨bs, hb, hm⟩ := apply_beta m sk args r h
    refine ⟨_, hb, fun D I μ ρ => ?_⟩
    rw [C20_beta I μ ρ r.form h, ← hm]
    simp [formsOf]
  · exact absurd h h1
  · exact absurd h h2

/-! ### Managers -/

theorem mem_addNew {l : List Rule} {r g : Rule} : g ∈ addNew l r ↔ g ∈ l ∨ g = r := by
  unfold addNew
  split
  · constructor
    · exact Or.inl
    · rintro (h | rfl) <;> assumption
  · simp

theorem mem_insert {rm : RM} {r g : Rule} : g ∈ (rm.insert r).all ↔ g ∈ rm.all ∨ g = r := by
  unfold RM.insert
  cases showKind r.form <;> simp only [RM.all]
  · split <;> simp [mem_addNew] <;> grind
  all_goals simp [mem_addNew]; try grind

theorem mem_insertAll {rm : RM} {l : List Rule} {g : Rule} : g ∈ (rm.insertAll l).all ↔ g ∈ rm.all ∨ g ∈ l := by
  unfold RM.insertAll
  induction l generalizing rm with
  | nil => simp
  | cons r l ih => simp [ih, mem_insert, or_assoc]

theorem mem_remove {rm : RM} {r g : Rule} : (g ∈ (rm.remove r).all → g ∈ rm.all) ∧
    (g ∈ rm.all → g ∈ (rm.remove r).all ∨ g = r) := by
  simp only [RM.all, RM.remove, List.mem_append]
  constructor
  · intro h
    have := fun (l : List Rule) (h : g ∈ l.erase r) => List.mem_of_mem_erase h
    grind
  · intro h
    by_cases e : g = r
    · exact Or.inr e
    · have := fun l : List Rule => @List.mem_erase_of_ne Rule _ _ g r l e
      simp only [this]
      exact Or.inl h

/-- The step of a manager by a rule whose branches are equivalent to its formula. -/
theorem step_equiv {D : Type u} (I : Interp D) (μ ρ : Nat → D) {rm : RM} {r : Rule} {bs : List (List Rule)} (hr : r ∈ rm.all)
    (h : Form.holds I μ ρ r.form ↔ ∃ b ∈ bs, ∀ x ∈ b, Form.holds I μ ρ x.form) :
    rm.holds I μ ρ ↔ ∃ rm' ∈ bs.map (fun b => (rm.remove r).insertAll b), rm'.holds I μ ρ := by
  simp only [List.mem_map, exists_exists_and_eq_and, RM.holds, mem_insertAll]
  constructor
  · intro hh
    obtain ⟨b, hb, hx⟩ := h.1 (hh r hr)
    refine ⟨b, hb, ?_⟩
    rintro g (hg | hg)
    · exact hh g (mem_remove.1 hg)
    · exact hx g hg
  · rintro ⟨b, hb, hx⟩ g hg
    rcases (mem_remove (r := r)).2 hg with hg | rfl
    · exact hx g (Or.inl hg)
    · exact h.2 ⟨b, hb, fun x hx' => hx x (Or.inr hx')⟩

/-- Every rule is in the list of its kind. -/
structure RM.Sorted (rm : RM) : Prop where
  atomic : ∀ r ∈ rm.atomic, IsLiteral r.form
  atomicNot : ∀ r ∈ rm.atomicNot, IsLiteral r.form
  alpha : ∀ r ∈ rm.alpha, IsConjunctive r.form
  beta : ∀ r ∈ rm.beta, IsDisjunctive r.form
  gamma : ∀ r ∈ rm.gamma, IsUniversal r.form
  delta : ∀ r ∈ rm.delta, IsExistential r.form

theorem RM.Sorted.insert {rm : RM} (h : rm.Sorted) (r : Rule) : (rm.insert r).Sorted := by
  obtain ⟨a, b, c, d, e, -⟩ := C18_kind_exact r.form
  unfold RM.insert
  cases hk : showKind r.form <;> simp only
  · have hl := a.1 hk
    split
    · refine ⟨h.1, fun x hx => ?_, h.3, h.4, h.5, h.6⟩
      rcases mem_addNew.1 hx with hx | rfl
      · exact h.2 x hx
      · exact hl
    · refine ⟨fun x hx => ?_, h.2, h.3, h.4, h.5, h.6⟩
      rcases mem_addNew.1 hx with hx | rfl
      · exact h.1 x hx
      · exact hl
  · refine ⟨h.1, h.2, fun x hx => ?_, h.4, h.5, h.6⟩
    rcases mem_addNew.1 hx with hx | rfl
    · exact h.3 x hx
    · exact b.1 hk
  · refine ⟨h.1, h.2, h.3, fun x hx => ?_, h.5, h.6⟩
    rcases mem_addNew.1 hx with hx | rfl
    · exact h.4 x hx
    · exact c.1 hk
  · refine ⟨h.1, h.2, h.3, h.4, h.5, fun x hx => ?_⟩
    rcases mem_addNew.1 hx with hx | rfl
    · exact h.6 x hx
    · exact e.1 hk
  · refine ⟨h.1, h.2, h.3, h.4, fun x hx => ?_, h.6⟩
    rcases mem_addNew.1 hx with hx | rfl
    · exact h.5 x hx
    · exact d.1 hk

theorem RM.Sorted.insertAll {rm : RM} (h : rm.Sorted) (l : List Rule) : (rm.insertAll l).Sorted := by
  unfold RM.insertAll
  induction l generalizing rm with
  | nil => exact h
  | cons r l ih => exact ih (h.insert r)

theorem RM.Sorted.remove {rm : RM} (h : rm.Sorted) (r : Rule) : (rm.remove r).Sorted :=
  ⟨fun x hx => h.1 x (List.mem_of_mem_erase hx), fun x hx => h.2 x (List.mem_of_mem_erase hx),
    fun x hx => h.3 x (List.mem_of_mem_erase hx), fun x hx => h.4 x (List.mem_of_mem_erase hx),
    fun x hx => h.5 x (List.mem_of_mem_erase hx), fun x hx => h.6 x (List.mem_of_mem_erase hx)⟩

theorem RM.Sorted.empty : RM.Sorted {} := by constructor <;> simp

/-! ### Weights -/

/-- The weight of a list of rules. -/
def wt (l : List Rule) : Nat := weightL true (l.map (·.form))

/-- Only conjunctive and disjunctive formulas count. -/
def RM.wt (rm : RM) : Nat := Incr.wt rm.alpha + Incr.wt rm.beta

theorem wt_addNew {l : List Rule} {r : Rule} : wt (addNew l r) ≤ wt l + weight true r.form := by
  unfold addNew
  split
  · omega
  · simp [wt, weightL_append, weightL]

theorem RM.wt_insert {rm : RM} {r : Rule} : (rm.insert r).wt ≤ rm.wt + weight true r.form := by
  unfold RM.insert
  cases showKind r.form <;> simp only [RM.wt]
  · split <;> simp
  · have := @wt_addNew rm.alpha r; omega
  · have := @wt_addNew rm.beta r; omega
  · omega
  · omega

theorem RM.wt_insertAll {rm : RM} {l : List Rule} : (rm.insertAll l).wt ≤ rm.wt + Incr.wt l := by
  unfold RM.insertAll
  induction l generalizing rm with
  | nil => simp [Incr.wt, weightL]
  | cons r l ih =>
    have h1 := @ih (rm.insert r)
    have h2 := @RM.wt_insert rm r
    simp only [List.foldl_cons]
    have : Incr.wt (r :: l) = weight true r.form + Incr.wt l := by simp [Incr.wt, weightL]
    omega

theorem wt_erase {l : List Rule} {r : Rule} (h : r ∈ l) : wt (l.erase r) + weight true r.form = wt l := by
  induction l with
  | nil => cases h
  | cons x l ih =>
    by_cases e : x = r
    · subst e; simp [wt, weightL]; omega
    · rw [List.erase_cons_tail (by simpa using e)]
      have := ih (by simpa [Ne.symm e] using h)
      simp only [wt, List.map_cons, weightL] at *; omega

theorem wt_erase_le {l : List Rule} {r : Rule} : wt (l.erase r) ≤ wt l := by
  by_cases h : r ∈ l
  · have := wt_erase h; omega
  · rw [List.erase_of_not_mem h]; omega

theorem RM.wt_remove {rm : RM} {r : Rule} (h : r ∈ rm.alpha ∨ r ∈ rm.beta) :
    (rm.remove r).wt + weight true r.form ≤ rm.wt := by
  simp only [RM.wt, RM.remove]
  have h1 := @wt_erase_le rm.alpha r
  have h2 := @wt_erase_le rm.beta r
  rcases h with h | h <;> have := wt_erase h <;> omega

theorem branch_lt (m sk : Nat) (args : List Nat) {r : Rule} {bs : List (List Rule)}
    (hk : IsConjunctive r.form ∨ IsDisjunctive r.form) (h : r.apply m sk args = some bs) {b : List Rule} (hb : b ∈ bs) :
    wt b < weight true r.form := by
  obtain ⟨f, ts⟩ := r
  have hpos : ∀ fs : List Form, wt (fs.map fun f => (⟨f, ts⟩ : Rule)) = weightL true fs := by
    intro fs; simp [wt, Function.comp_def]
  have hneg : ∀ fs : List Form, wt (fs.map fun f => (⟨.neg f, ts⟩ : Rule)) = weightL false fs := by
    intro fs
    induction fs with
    | nil => simp [wt, weightL]
    | cons f fs ih =>
      simp only [wt, List.map_cons, weightL, weight, if_true, Bool.not_true] at *; omega
  rcases hk with (⟨fs, rfl⟩ | ⟨g, rfl⟩ | ⟨fs, rfl⟩ | ⟨a, c, rfl⟩) |
    (⟨fs, rfl⟩ | ⟨a, c, rfl⟩ | ⟨a, c, rfl⟩ | ⟨fs, rfl⟩ | ⟨a, c, rfl⟩)
  · obtain rfl := Option.some.inj h
    simp only [List.mem_singleton] at hb; subst hb
    rw [hpos]; simp [weight]
  · obtain rfl := Option.some.inj h
    simp only [List.mem_singleton] at hb; subst hb
    simp [wt, weight, weightL]
  · obtain rfl := Option.some.inj h
    simp only [List.mem_singleton] at hb; subst hb
    rw [hneg]; simp [weight]
  · obtain rfl := Option.some.inj h
    simp only [List.mem_singleton] at hb; subst hb
    simp [wt, weight, weightL] <;> omega
  · obtain rfl := Option.some.inj h
    obtain ⟨x, hx, rfl⟩ := List.mem_map.1 hb
    have := weight_le_of_mem (b := true) hx
    simp [wt, weight, weightL] <;> omega
  · obtain rfl := Option.some.inj h
    simp only [List.mem_cons, List.not_mem_nil, or_false] at hb
    rcases hb with rfl | rfl <;> simp [wt, weight, weightL] <;> omega
  · obtain rfl := Option.some.inj h
    simp only [List.mem_cons, List.not_mem_nil, or_false] at hb
    rcases hb with rfl | rfl <;> simp [wt, weight, weightL] <;> omega
  · obtain rfl := Option.some.inj h
    obtain ⟨x, hx, rfl⟩ := List.mem_map.1 hb
    have := weight_le_of_mem (b := false) hx
    simp [wt, weight, weightL] <;> omega
  · obtain rfl := Option.some.inj h
    simp only [List.mem_cons, List.not_mem_nil, or_false] at hb
    rcases hb with rfl | rfl <;> simp [wt, weight, weightL] <;> omega

/-! ### Whole decomposition -/

/-- Rules made from formulas without quantifiers stay so. -/
theorem apply_propositional (m sk : Nat) (args : List Nat) {r : Rule} {bs : List (List Rule)}
    (hp : propositional r.form = true) (h : r.apply m sk args = some bs) {b : List Rule} (hb : b ∈ bs) {x : Rule} (hx : x ∈ b) :
    propositional x.form = true := by
  obtain ⟨f, ts⟩ := r
  dsimp only at hp
  unfold Rule.apply at h
  dsimp only at h
  split at h <;> (try simp only [propositional, Bool.and_eq_true, propositionalL_iff, Bool.false_eq_true] at hp) <;>
    (obtain rfl := Option.some.inj h) <;> simp only [List.mem_cons, List.mem_map, List.not_mem_nil, or_false] at hb <;>
    grind [propositional]

theorem propositional_not_quantified {f : Form} (h : propositional f = true) : ¬ IsUniversal f ∧ ¬ IsExistential f := by
  constructor
  · rintro (⟨vs, g, rfl⟩ | ⟨vs, g, rfl⟩) <;> simp [propositional] at h
  · rintro (⟨vs, g, rfl⟩ | ⟨vs, g, rfl⟩) <;> simp [propositional] at h

theorem leaves_spec (m sk : Nat) (args : Form → List Nat) (n : Nat) (rm : RM) (hn : rm.wt < n) (hs : rm.Sorted)
    (hp : ∀ r ∈ rm.all, propositional r.form = true) :
    ∃ ls, rm.leaves m sk args n = some ls ∧ (∀ l ∈ ls, ∀ r ∈ l.all, IsLiteral r.form) ∧
      ∀ (D : Type u) (I : Interp D) (μ ρ : Nat → D), rm.holds I μ ρ ↔ ∃ l ∈ ls, l.holds I μ ρ := by
  induction n generalizing rm with
  | zero => omega
  | succ n ih =>
    have hg : rm.gamma = [] := by
      rw [List.eq_nil_iff_forall_not_mem]
      intro r hr
      exact (propositional_not_quantified (hp r (by simp [RM.all, hr]))).1 (hs.5 r hr)
    have hd : rm.delta = [] := by
      rw [List.eq_nil_iff_forall_not_mem]
      intro r hr
      exact (propositional_not_quantified (hp r (by simp [RM.all, hr]))).2 (hs.6 r hr)
    unfold RM.leaves
    by_cases he : rm.alpha = [] ∧ rm.beta = []
    · rw [if_pos ⟨he.1, hd, he.2, hg⟩]
      refine ⟨_, rfl, ?_, fun D I μ ρ => by simp⟩
      intro l hl r hr
      simp only [List.mem_singleton] at hl; subst hl
      simp only [RM.all, he.1, he.2, hd, hg, List.append_nil, List.mem_append] at hr
      rcases hr with hr | hr
      · exact hs.1 r hr
      · exact hs.2 r hr
    · rw [if_neg (by tauto)]
      -- the rule that is applied
      have hcat : ∃ r rest, (if rm.alpha ≠ [] then rm.alpha else if rm.delta ≠ [] then rm.delta
          else if rm.beta ≠ [] then rm.beta else rm.gamma) = r :: rest ∧ (r ∈ rm.alpha ∨ r ∈ rm.beta) := by
        cases ha : rm.alpha with
        | cons r rest => exact ⟨r, rest, by simp, by simp⟩
        | nil =>
          cases hb : rm.beta with
          | cons r rest => exact ⟨r, rest, by simp [hd], by simp⟩
          | nil => exact absurd ⟨ha, hb⟩ he
      obtain ⟨r, rest, hcat, hr⟩ := hcat
      have hrall : r ∈ rm.all := by
        simp only [RM.all, List.mem_append]; tauto
      have hk : IsConjunctive r.form ∨ IsDisjunctive r.form := hr.elim (fun h => Or.inl (hs.3 r h)) fun h => Or.inr (hs.4 r h)
      obtain ⟨hq1, hq2⟩ := propositional_not_quantified (hp r hrall)
      obtain ⟨bs, hbs, heq⟩ := C49_rule_equivalent.{u} m sk (args r.form) r hq1 hq2
      have hnc : rm.nonClosure m sk args = some (r, bs.map fun b => (rm.remove r).insertAll b) := by
        unfold RM.nonClosure
        rw [hcat]
        simp [RM.tryToApply, hbs]
      rw [hnc]
      -- the branches
      have hall : ∀ l : List (List Rule), (∀ b ∈ l, b ∈ bs) → ∃ ls,
          ((l.map fun b => (rm.remove r).insertAll b).mapM (RM.leaves m sk args n)).map List.flatten = some ls ∧
          (∀ x ∈ ls, ∀ r ∈ x.all, IsLiteral r.form) ∧
          ∀ (D : Type u) (I : Interp D) (μ ρ : Nat → D),
            (∃ rm' ∈ l.map (fun b => (rm.remove r).insertAll b), rm'.holds I μ ρ) ↔ ∃ l ∈ ls, l.holds I μ ρ := by
        intro l
        induction l with
        | nil => intro _; exact ⟨[], by simp, by simp, fun D I μ ρ => by simp⟩
        | cons b l ih2 =>
          intro hl
          have hb := hl b (by simp)
          obtain ⟨ls2, e2, l2, q2⟩ := ih2 fun b hb => hl b (by simp [hb])
          have hw : ((rm.remove r).insertAll b).wt < n := by
            have h1 := @RM.wt_insertAll (rm.remove r) b
            have h2 := RM.wt_remove hr
            have h3 := branch_lt m sk (args r.form) hk hbs hb
            omega
          obtain ⟨ls1, e1, l1, q1⟩ := ih _ hw ((hs.remove r).insertAll b) (fun x hx => by
            rcases mem_insertAll.1 hx with hx | hx
            · exact hp x (mem_remove.1 hx)
            · exact apply_propositional m sk (args r.form) (hp r hrall) hbs hb hx)
          obtain ⟨outs, eo, rfl⟩ := Option.map_eq_some_iff.1 e2
          refine ⟨ls1 ++ outs.flatten, by simp [e1, eo], ?_, fun D I μ ρ => ?_⟩
          · intro x hx
            rcases List.mem_append.1 hx with hx | hx
            · exact l1 x hx
            · exact l2 x hx
          · have a1 := q1 D I μ ρ
            have a2 := q2 D I μ ρ
            rw [List.map_cons]
            simp only [List.mem_cons, List.mem_append, or_and_right, exists_or, exists_eq_left]
            rw [a1, a2]
      obtain ⟨ls, e, l1, q⟩ := hall bs fun b hb => hb
      refine ⟨ls, e, l1, fun D I μ ρ => ?_⟩
      rw [← q D I μ ρ]
      exact step_equiv I μ ρ hrall (heq D I μ ρ)

/-- **C49.** The incremental search decomposes every formula without quantifiers, in finitely many steps, into branches of
literals whose disjunction is equivalent to the formula. -/
theorem C49_decomposition (m sk : Nat) (args : Form → List Nat) (f : Form) (hf : propositional f = true) :
    ∃ n ls, (RM.root f).leaves m sk args n = some ls ∧ (∀ l ∈ ls, ∀ r ∈ l.all, IsLiteral r.form) ∧
      ∀ (D : Type u) (I : Interp D) (μ ρ : Nat → D),
        Form.holds I μ ρ f ↔ ∃ l ∈ ls, ∀ r ∈ l.all, Form.holds I μ ρ r.form := by
  have hmem : ∀ r, r ∈ (RM.root f).all ↔ r = ⟨f, []⟩ := by
    intro r; rw [RM.root, mem_insert]; simp [RM.all]
  obtain ⟨ls, h1, h2, h3⟩ := leaves_spec.{u} m sk args ((RM.root f).wt + 1) (RM.root f) (by omega)
    (RM.Sorted.empty.insert _) (fun r hr => by rw [(hmem r).1 hr]; exact hf)
  refine ⟨_, ls, h1, h2, fun D I μ ρ => ?_⟩
  have := h3 D I μ ρ
  unfold RM.holds at this
  rw [← this]
  constructor
  · intro h r hr; rw [(hmem r).1 hr]; exact h
  · intro h; exact h ⟨f, []⟩ ((hmem _).2 rfl)

/-- A case: `(p ⇔ q) ∧ ¬(p ⇒ ⊥)` has the branches `{p, ¬⊥, ¬p, ¬q}` and `{p, ¬⊥, q}` (`p` is there already). -/
example : ((RM.root (.and [.equ (.pred 1 [] []) (.pred 2 [] []), .neg (.imp (.pred 1 [] []) .bot)])).leaves 0 9 (fun _ => []) 9).map
    (fun ls => ls.map fun l => l.all.map (·.form)) =
    some [[.pred 1 [] [], .neg .bot, .neg (.pred 1 [] []), .neg (.pred 2 [] [])], [.pred 1 [] [], .pred 2 [] [], .neg .bot]] := by
  decide +kernel

/-- **C49 (quantifiers).** The incremental search treats quantified formulas by the functions of the main search, so that what
is proved of those (C21, C22) applies. -/
theorem C49_quantifiers (m sk : Nat) (args : List Nat) (r : Rule) :
    (IsUniversal r.form → (r.apply m sk args).map formsOf = (instantiate m 42 r.form).map fun g => [[g]]) ∧
    (IsExistential r.form → (r.apply m sk args).map formsOf = (skolemize sk args r.form).map fun g => [[g]]) := by
  obtain ⟨f, ts⟩ := r
  constructor
  · rintro (⟨vs, g, rfl⟩ | ⟨vs, g, rfl⟩) <;> simp [Rule.apply, formsOf, Function.comp_def]
  · rintro (⟨vs, g, rfl⟩ | ⟨vs, g, rfl⟩) <;> simp [Rule.apply, formsOf, Function.comp_def]

end Verif.Search.Incr
