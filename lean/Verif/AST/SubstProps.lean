import Verif.AST.ReplaceLemmas
/-!
# C13, C14, C15: substitution of metavariables, stacked negations
-/
set_option linter.unusedSimpArgs false

namespace Verif.AST

/-! ### C13 -/

theorem applySubst_metas {m : Nat} {u t : Term} {i : Nat} :
    i ∈ (Term.applySubst m u t).metas ↔ (i ∈ t.metas ∧ i ≠ m) ∨ (m ∈ t.metas ∧ i ∈ u.metas) := by
  induction t using Term.ind with
  | var j => simp [Term.applySubst, Term.metas]
  | mv j =>
    by_cases h : j = m
    · subst h; simp [Term.applySubst, Term.metas]
    · simp only [Term.applySubst, h, if_false, Term.metas, List.mem_singleton, Ne.symm h, false_and, or_false]
      constructor
      · rintro rfl; exact ⟨rfl, h⟩
      · exact And.left
  | fn p tys args ih =>
    simp only [Term.applySubst, Term.metas, Term.applySubstL_eq, Term.mem_metasL, exists_mem_map']
    constructor
    · rintro ⟨a, ha, h⟩
      rcases (ih a ha).1 h with ⟨h, hn⟩ | ⟨h, hn⟩
      · exact Or.inl ⟨⟨a, ha, h⟩, hn⟩
      · exact Or.inr ⟨⟨a, ha, h⟩, hn⟩
    · rintro (⟨⟨a, ha, h⟩, hn⟩ | ⟨⟨a, ha, h⟩, hn⟩)
      · exact ⟨a, ha, (ih a ha).2 (Or.inl ⟨h, hn⟩)⟩
      · exact ⟨a, ha, (ih a ha).2 (Or.inr ⟨h, hn⟩)⟩

theorem applySubst_eval {D : Type u} (I : Interp D) (ρ μ : Nat → D) (m : Nat) (u t : Term) :
    Term.eval I ρ μ (Term.applySubst m u t) = Term.eval I ρ (upd μ m (Term.eval I ρ μ u)) t := by
  induction t using Term.ind with
  | var j => simp [Term.applySubst, Term.eval]
  | mv j =>
    by_cases h : j = m
    · subst h; simp [Term.applySubst, Term.eval, upd]
    · simp [Term.applySubst, Term.eval, upd, h]
  | fn p tys args ih =>
    simp only [Term.applySubst, Term.eval, Term.applySubstL_eq, Term.evalL_eq_map, List.map_map]
    congr 1
    exact List.map_congr_left ih

/-- **C13.** Applying `{X ↦ u}` to `t`: the metavariables of the result are those of `t` other
than `X`, plus those of `u` when `X` occurs in `t`; in every interpretation the result denotes
what `t` denotes when `X` is given the value of `u`. -/
theorem C13_apply_replaces_all (m : Nat) (u t : Term) :
    (∀ i, i ∈ (Term.applySubst m u t).metas ↔
      (i ∈ t.metas ∧ i ≠ m) ∨ (m ∈ t.metas ∧ i ∈ u.metas)) ∧
    (m ∉ u.metas → m ∉ (Term.applySubst m u t).metas) ∧
    (∀ (D : Type) (I : Interp D) (ρ μ : Nat → D),
      Term.eval I ρ μ (Term.applySubst m u t) = Term.eval I ρ (upd μ m (Term.eval I ρ μ u)) t) :=
  ⟨fun _ => applySubst_metas, fun h => by simp [applySubst_metas, h],
    fun _ I ρ μ => applySubst_eval I ρ μ m u t⟩

/-- f(X, g(X), Y){X ↦ h(Y)}. -/
example : Term.applySubst 1 (.fn 9 [] [.mv 2]) (.fn 7 [] [.mv 1, .fn 8 [] [.mv 1], .mv 2]) =
    .fn 7 [] [.fn 9 [] [.mv 2], .fn 8 [] [.fn 9 [] [.mv 2]], .mv 2] := by decide

/-! ### C14 -/

/-- Full statement of C14. -/
def C14_statement : Prop :=
  ∀ (m : Nat) (u : Term) (f : Form), u.vars = [] →
    (m ∉ u.metas → m ∉ (Form.replaceMetaByTerm m u f).metas) ∧
    (∀ (D : Type) (I : Interp D) (ρ μ : Nat → D),
      Form.holds I μ ρ (Form.replaceMetaByTerm m u f) ↔
        Form.holds I (upd μ m (Term.eval I ρ μ u)) ρ f)

/-- **C14 is false of the code**: in `P(f(X,X))` only the first `X` is replaced
(`replaceFirstOccurrenceTermList`, src/AST/term-list.go:60). -/
theorem C14_violated_syntactic :
    Form.replaceMetaByTerm 1 (.fn 9 [] []) (.pred 3 [] [.fn 7 [] [.mv 1, .mv 1]]) =
      .pred 3 [] [.fn 7 [] [.fn 9 [] [], .mv 1]] := by decide

/-- **C14 is false of the code**, semantically: the "instance" obtained from `P(f(X,X))`, true for
every `X` in some interpretation, can be made false by a later choice of `X`. Replacing `X` twice
(first by `a`, then by `b`) yields `P(f(a,b))`. -/
theorem C14_violated_unsound :
    Form.replaceMetaByTerm 1 (.fn 10 [] [])
      (Form.replaceMetaByTerm 1 (.fn 9 [] []) (.pred 3 [] [.fn 7 [] [.mv 1, .mv 1]])) =
        .pred 3 [] [.fn 7 [] [.fn 9 [] [], .fn 10 [] []]] ∧
    ∃ I : Interp (Nat × Nat), (∀ ρ μ, Form.holds I μ ρ (.pred 3 [] [.fn 7 [] [.mv 1, .mv 1]])) ∧
      ∀ ρ μ, ¬ Form.holds I μ ρ (.pred 3 [] [.fn 7 [] [.fn 9 [] [], .fn 10 [] []]]) := by
  refine ⟨by decide, ⟨fun p _ ds => if p = 7 then
    match ds with
    | [x, y] => (x.1, y.1)
    | _ => (0, 0)
    else (p, p), fun _ _ ds =>
    match ds with
    | [x] => x.1 = x.2
    | _ => False⟩, ?_, ?_⟩
  · intro ρ μ; simp [Term.eval, Term.evalL]
  · intro ρ μ; simp [Term.eval, Term.evalL]

theorem C14_statement_false : ¬ C14_statement := by
  intro h
  have := (h 1 (.fn 9 [] []) (.pred 3 [] [.fn 7 [] [.mv 1, .mv 1]]) rfl).1 (by decide)
  revert this; decide

section
variable {D : Type u} {I : Interp D}

theorem replaceSubTermBy_eval {m : Nat} {u t : Term} {ρ μ : Nat → D} (h : μ m = Term.eval I ρ μ u) :
    Term.eval I ρ μ (Term.replaceSubTermBy (.mv m) u t) = Term.eval I ρ μ t := by
  induction t using Term.ind with
  | var j => simp [Term.replaceSubTermBy, Term.eval]
  | mv j =>
    by_cases e : j = m
    · subst e; simp [Term.replaceSubTermBy, Term.eval, h]
    · simp [Term.replaceSubTermBy, Term.eval, e]
  | fn p tys args ih =>
    simp only [Term.replaceSubTermBy, reduceCtorEq, if_false, Term.eval]
    congr 1
    induction args with
    | nil => rfl
    | cons a l ihl =>
      simp only [Term.replaceFirst]
      split
      · simp only [Term.evalL]
        rw [ihl (fun a ha => ih a (by simp [ha]))]
      · simp only [Term.evalL]
        rw [ih a (by simp)]

/-- The number of occurrences of a metavariable in a term. -/
def Term.occ (m : Nat) (t : Term) : Nat := t.metas.count m

/-- A metavariable that does not occur is not replaced. -/
theorem replaceSubTermBy_of_not_mem {m : Nat} {u t : Term} (h : m ∉ t.metas) :
    Term.replaceSubTermBy (.mv m) u t = t := by
  induction t using Term.ind with
  | var j => simp [Term.replaceSubTermBy]
  | mv j =>
    simp only [Term.metas, List.mem_singleton] at h
    simp [Term.replaceSubTermBy, Ne.symm h]
  | fn p tys args ih =>
    simp only [Term.replaceSubTermBy, reduceCtorEq, if_false]
    congr 1
    simp only [Term.metas, Term.mem_metasL, not_exists, not_and] at h
    induction args with
    | nil => rfl
    | cons a l ihl =>
      simp only [Term.replaceFirst]
      rw [ih a (by simp) (h a (by simp))]
      simp only [if_true]
      rw [ihl (fun a ha => ih a (by simp [ha])) (fun a ha => h a (by simp [ha]))]

/-- With at most one occurrence, `ReplaceSubTermBy` is the substitution of C13. -/
theorem replaceSubTermBy_eq_applySubst {m : Nat} {u t : Term} (h : Term.occ m t ≤ 1) :
    Term.replaceSubTermBy (.mv m) u t = Term.applySubst m u t := by
  have hid : ∀ t : Term, m ∉ t.metas → Term.applySubst m u t = t := by
    intro t
    induction t using Term.ind with
    | var j => simp [Term.applySubst]
    | mv j => intro h; simp only [Term.metas, List.mem_singleton] at h; simp [Term.applySubst, Ne.symm h]
    | fn p tys args ih =>
      intro h
      simp only [Term.metas, Term.mem_metasL, not_exists, not_and] at h
      simp only [Term.applySubst, Term.applySubstL_eq]
      congr 1
      conv => rhs; rw [← List.map_id args]
      exact List.map_congr_left (fun a ha => ih a ha (h a ha))
  induction t using Term.ind with
  | var j => simp [Term.replaceSubTermBy, Term.applySubst]
  | mv j => simp [Term.replaceSubTermBy, Term.applySubst]
  | fn p tys args ih =>
    simp only [Term.replaceSubTermBy, reduceCtorEq, if_false, Term.applySubst]
    congr 1
    simp only [Term.occ, Term.metas] at h ih
    induction args with
    | nil => rfl
    | cons a l ihl =>
      simp only [Term.metasL, List.count_append] at h
      simp only [Term.replaceFirst, Term.applySubstL]
      rw [ih a (by simp) (by omega)]
      split
      · rename_i e
        rw [← e, ihl (fun a ha => ih a (by simp [ha])) (by omega)]
      · rename_i e
        have ha : m ∈ a.metas := by
          apply Classical.byContradiction
          intro hn; exact e (hid a hn).symm
        have : 0 < List.count m a.metas := List.count_pos_iff.2 ha
        have hl : m ∉ Term.metasL l := by
          rw [← List.count_eq_zero]; omega
        congr 1
        rw [Term.applySubstL_eq]
        conv => lhs; rw [← List.map_id l]
        apply List.map_congr_left
        intro b hb
        refine (hid b ?_).symm
        intro hmb; exact hl (Term.mem_metasL.2 ⟨b, hb, hmb⟩)

mutual
/-- Every argument of every atom contains `m` at most once. -/
def Form.linearIn (m : Nat) : Form → Prop
  | .pred _ _ args => ∀ a ∈ args, Term.occ m a ≤ 1
  | .top => True
  | .bot => True
  | .neg f => Form.linearIn m f
  | .and fs => Form.linearInL m fs
  | .or fs => Form.linearInL m fs
  | .imp f g => Form.linearIn m f ∧ Form.linearIn m g
  | .equ f g => Form.linearIn m f ∧ Form.linearIn m g
  | .all _ f => Form.linearIn m f
  | .ex _ f => Form.linearIn m f
def Form.linearInL (m : Nat) : List Form → Prop
  | [] => True
  | f :: fs => Form.linearIn m f ∧ Form.linearInL m fs
end

theorem Form.linearInL_iff {m : Nat} {fs : List Form} :
    Form.linearInL m fs ↔ ∀ f ∈ fs, Form.linearIn m f := by
  induction fs with
  | nil => simp [Form.linearInL]
  | cons f fs ih => simp [Form.linearInL, ih]

theorem replaceMetaByTerm_holds_of_eq {m : Nat} {u : Term} {f : Form} {ρ μ : Nat → D}
    (h : ∀ ρ, μ m = Term.eval I ρ μ u) :
    Form.holds I μ ρ (Form.replaceMetaByTerm m u f) ↔ Form.holds I μ ρ f := by
  induction f using Form.ind generalizing ρ with
  | pred p tys args =>
    simp only [Form.replaceMetaByTerm, Form.holds_pred, List.map_map]
    have : List.map (Term.eval I ρ μ ∘ Term.replaceSubTermBy (.mv m) u) args =
        List.map (Term.eval I ρ μ) args :=
      List.map_congr_left (fun a _ => replaceSubTermBy_eval (h ρ))
    rw [this]
  | top => simp [Form.replaceMetaByTerm]
  | bot => simp [Form.replaceMetaByTerm]
  | neg f ih => simp [Form.replaceMetaByTerm, ih]
  | and fs ih =>
    simp only [Form.replaceMetaByTerm, Form.holds_and, Form.replaceMetaByTermL_eq, List.forall_mem_map]
    exact forall_congr' fun f => forall_congr' fun hf => ih f hf
  | or fs ih =>
    simp only [Form.replaceMetaByTerm, Form.holds_or, Form.replaceMetaByTermL_eq, exists_mem_map']
    exact exists_congr fun f => and_congr_right fun hf => ih f hf
  | imp f g ihf ihg => simp [Form.replaceMetaByTerm, ihf, ihg]
  | equ f g ihf ihg => simp [Form.replaceMetaByTerm, ihf, ihg]
  | all vs f ih =>
    simp only [Form.replaceMetaByTerm, Form.holds_all]
    exact forallVars_congr fun ρ => ih
  | ex vs f ih =>
    simp only [Form.replaceMetaByTerm, Form.holds_ex]
    exact existsVars_congr fun ρ => ih

theorem eval_of_no_vars {u : Term} {ρ ρ' μ : Nat → D} (hu : u.vars = []) :
    Term.eval I ρ μ u = Term.eval I ρ' μ u :=
  Term.eval_congr (by simp [hu]) (fun _ _ => rfl) (fun _ _ => rfl)

theorem replaceMetaByTerm_linear {m : Nat} {u : Term} {f : Form} (hl : f.linearIn m)
    (hu : u.vars = []) {ρ μ : Nat → D} :
      (Form.holds I μ ρ (Form.replaceMetaByTerm m u f) ↔
        Form.holds I (upd μ m (Term.eval I ρ μ u)) ρ f) := by
  induction f using Form.ind generalizing ρ with
  | pred p tys args =>
    simp only [Form.replaceMetaByTerm, Form.holds_pred, List.map_map]
    have : List.map (Term.eval I ρ μ ∘ Term.replaceSubTermBy (.mv m) u) args =
        List.map (Term.eval I ρ (upd μ m (Term.eval I ρ μ u))) args :=
      List.map_congr_left (fun a ha => by
        simp only [Form.linearIn] at hl
        simp only [Function.comp]
        rw [replaceSubTermBy_eq_applySubst (hl a ha), applySubst_eval])
    rw [this]
  | top => simp [Form.replaceMetaByTerm]
  | bot => simp [Form.replaceMetaByTerm]
  | neg f ih => simp only [Form.linearIn] at hl; simp [Form.replaceMetaByTerm, ih hl]
  | and fs ih =>
    simp only [Form.linearIn, Form.linearInL_iff] at hl
    simp only [Form.replaceMetaByTerm, Form.holds_and, Form.replaceMetaByTermL_eq, List.forall_mem_map]
    exact forall_congr' fun f => forall_congr' fun hf => ih f hf (hl f hf)
  | or fs ih =>
    simp only [Form.linearIn, Form.linearInL_iff] at hl
    simp only [Form.replaceMetaByTerm, Form.holds_or, Form.replaceMetaByTermL_eq, exists_mem_map']
    exact exists_congr fun f => and_congr_right fun hf => ih f hf (hl f hf)
  | imp f g ihf ihg =>
    simp only [Form.linearIn] at hl
    simp [Form.replaceMetaByTerm, ihf hl.1, ihg hl.2]
  | equ f g ihf ihg =>
    simp only [Form.linearIn] at hl
    simp [Form.replaceMetaByTerm, ihf hl.1, ihg hl.2]
  | all vs f ih =>
    simp only [Form.linearIn] at hl
    simp only [Form.replaceMetaByTerm, Form.holds_all]
    apply forallVars_congr; intro ρ'
    rw [ih hl, eval_of_no_vars (ρ' := ρ) hu]
  | ex vs f ih =>
    simp only [Form.linearIn] at hl
    simp only [Form.replaceMetaByTerm, Form.holds_ex]
    apply existsVars_congr; intro ρ'
    rw [ih hl, eval_of_no_vars (ρ' := ρ) hu]

end

theorem replaceMetaByTerm_linear_metas {m : Nat} {u : Term} {f : Form} (hl : f.linearIn m)
    (hm : m ∉ u.metas) : m ∉ (Form.replaceMetaByTerm m u f).metas := by
  induction f using Form.ind with
  | pred p tys args =>
    simp only [Form.linearIn] at hl
    simp only [Form.replaceMetaByTerm, Form.metas, Term.mem_metasL, exists_mem_map', not_exists, not_and]
    intro a ha
    rw [replaceSubTermBy_eq_applySubst (hl a ha), applySubst_metas]
    simp [hm]
  | top => simp [Form.replaceMetaByTerm, Form.metas]
  | bot => simp [Form.replaceMetaByTerm, Form.metas]
  | neg f ih => simp only [Form.linearIn] at hl; simpa [Form.replaceMetaByTerm, Form.metas] using ih hl
  | and fs ih =>
    simp only [Form.linearIn, Form.linearInL_iff] at hl
    simp only [Form.replaceMetaByTerm, Form.metas, Form.replaceMetaByTermL_eq, Form.mem_metasL,
      exists_mem_map', not_exists, not_and]
    exact fun f hf => ih f hf (hl f hf)
  | or fs ih =>
    simp only [Form.linearIn, Form.linearInL_iff] at hl
    simp only [Form.replaceMetaByTerm, Form.metas, Form.replaceMetaByTermL_eq, Form.mem_metasL,
      exists_mem_map', not_exists, not_and]
    exact fun f hf => ih f hf (hl f hf)
  | imp f g ihf ihg =>
    simp only [Form.linearIn] at hl
    simp [Form.replaceMetaByTerm, Form.metas, ihf hl.1, ihg hl.2]
  | equ f g ihf ihg =>
    simp only [Form.linearIn] at hl
    simp [Form.replaceMetaByTerm, Form.metas, ihf hl.1, ihg hl.2]
  | all vs f ih => simp only [Form.linearIn] at hl; simpa [Form.replaceMetaByTerm, Form.metas] using ih hl
  | ex vs f ih => simp only [Form.linearIn] at hl; simpa [Form.replaceMetaByTerm, Form.metas] using ih hl

/-- **C14 (partial).** The full claim holds for formulas in which no argument of an atom contains
the metavariable twice. Missing: formulas with repeated occurrences in one argument, for which
the claim is false. -/
theorem C14_replace_meta_partial (m : Nat) (u : Term) (f : Form) (hu : u.vars = [])
    (hl : f.linearIn m) :
    (m ∉ u.metas → m ∉ (Form.replaceMetaByTerm m u f).metas) ∧
    (∀ (D : Type) (I : Interp D) (ρ μ : Nat → D),
      Form.holds I μ ρ (Form.replaceMetaByTerm m u f) ↔
        Form.holds I (upd μ m (Term.eval I ρ μ u)) ρ f) :=
  ⟨replaceMetaByTerm_linear_metas hl, fun _ _ _ _ => replaceMetaByTerm_linear hl hu⟩

/-- **C14 (partial), all formulas.** Replacing `X` by `u` never changes the truth value under
assignments that already give `X` the value of `u` (so one replacement alone is harmless as long
as `X` is never instantiated in another way afterwards). -/
theorem C14_replace_meta_consistent_partial (m : Nat) (u : Term) (f : Form) (hu : u.vars = [])
    (D : Type) (I : Interp D) (ρ μ : Nat → D) (h : μ m = Term.eval I ρ μ u) :
    Form.holds I μ ρ (Form.replaceMetaByTerm m u f) ↔ Form.holds I μ ρ f :=
  replaceMetaByTerm_holds_of_eq (fun ρ' => by rw [h, eval_of_no_vars hu])

/-- A formula meeting the hypotheses: ∀x. p(f(X), g(X,x)) ⇒ q(X). -/
example : (Form.all [⟨"x", 20, .constr "$i" []⟩] (.imp (.pred 3 [] [.fn 7 [] [.mv 1], .fn 8 [] [.mv 1, .var 20]])
    (.pred 4 [] [.mv 1]))).linearIn 1 := by
  simp [Form.linearIn, Term.occ, Term.metas, Term.metasL]

/-! ### C15 -/

/-- Number of stacked negations at the head (specification). -/
def Form.headNegs : Form → Nat
  | .neg f => Form.headNegs f + 1
  | _ => 0

theorem deepWithoutNot_spec {D : Type u} {I : Interp D} {ρ μ : Nat → D} (f : Form) (b : Bool) :
    (Form.deepWithoutNot f b).1.headNegs = 0 ∧
    ((Form.holds I μ ρ (Form.deepWithoutNot f b).1 ↔ (Form.deepWithoutNot f b).2 = true) ↔
      (Form.holds I μ ρ f ↔ b = true)) := by
  induction f using Form.ind generalizing b with
  | neg f ih =>
    obtain ⟨h1, h2⟩ := ih (!b)
    simp only [Form.deepWithoutNot]
    refine ⟨h1, h2.trans ?_⟩
    simp only [Form.holds_neg]
    cases b <;> simp
  | _ => simp [Form.deepWithoutNot, Form.headNegs]

/-- **C15.** Simplifying stacked negations keeps the truth value in every interpretation and
leaves at most one leading negation. -/
theorem C15_simplify_negations (f : Form) :
    (∀ (D : Type) (I : Interp D) (ρ μ : Nat → D),
      Form.holds I μ ρ f.simplifyNegations ↔ Form.holds I μ ρ f) ∧
    f.simplifyNegations.headNegs ≤ 1 := by
  constructor
  · intro D I ρ μ
    obtain ⟨_, h⟩ := deepWithoutNot_spec (I := I) (ρ := ρ) (μ := μ) f true
    simp only [Form.simplifyNegations]
    cases e : (Form.deepWithoutNot f true).2 with
    | true => simpa [e] using h
    | false =>
      rw [e] at h
      simp only [Bool.false_eq_true, if_false, Form.holds_neg]
      simpa using h
  · obtain ⟨h, _⟩ := deepWithoutNot_spec (I := (⟨fun _ _ _ => 0, fun _ _ _ => True⟩ : Interp Nat))
      (ρ := fun _ => 0) (μ := fun _ => 0) f true
    simp only [Form.simplifyNegations]
    split
    · omega
    · simp [Form.headNegs, h]

/-- ¬¬¬p becomes ¬p. -/
example : Form.simplifyNegations (.neg (.neg (.neg (.pred 3 [] [])))) = .neg (.pred 3 [] []) := by decide

end Verif.AST
