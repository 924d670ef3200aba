import Verif.Whole.DeltaProps
import Verif.Search.TableauEq
/-!
# C23 from the text on: a closed tableau of the formula searched shows that the conjecture follows

The formula searched for an untyped problem meets the hypotheses of the soundness theorems (`C43_searched_partial`), and it means what the
problem says (`C43_meaning_partial`).
-/

namespace Verif.Whole
open Verif.AST Verif.Engine Verif.Parser Verif.Search

variable {fs : Files} {V F : String → Prop}

/-- The conjecture follows from the axioms, `=` being equality: no structure in which it is makes all axioms true and the conjecture false. -/
def FollowsEq (P : List PStmt) : Prop :=
  ∀ (E : Type) (S : Str E), Nonempty E → (∀ a b, S.pr "=" [a, b] ↔ a = b) → ¬ ProblemMeans S P

theorem follows_eq_of (L : Lex V F) (hV : ∀ s, V s → UserName s) (hF : ∀ s, F s → UserName s) {fl : Bool} {typeOk : Form → Bool} {P : List PStmt}
    (hg : ∀ st ∈ P, PStmt.Fof V F st) {f : Form} {c : Bool} {m : Maker} (h : presearch fl (fun _ => false) typeOk initMaker P = .search f c m)
    (hn : ∀ (D : Type) (I : Interp D), (∀ tys a b, I.pr eqId tys [a, b] ↔ a = b) → ∀ μ ρ, ¬ Form.holds I μ ρ f) : FollowsEq P := by
  intro E S ⟨x⟩ hS hP
  obtain ⟨-, -, h3, h4, -⟩ := presearch_in classAll fl typeOk L hV hF initMaker Inv_init P (fun s hs => (hg s hs).in_all) f c m h
  have hq : m.ids "=" = some eqId := h3.ids _ _ (id_ok MOK_reset "=").2.2
  obtain ⟨I, hI⟩ := reads_exists h4.ok S
  refine hn E I (fun tys a b => ((hI _ _ hq tys [a, b]).2).trans (hS a b)) (fun _ => x) (fun _ => x) ?_
  exact ((C43_meaning_partial.{0} fl typeOk L hV hF initMaker Inv_init P hg f c m h).1 E S I _ _ hI.one).2 hP

/-- **C23 for problems**: if a tableau of the formula searched for an untyped problem closes (with equality reasoning, also that of the
equality module), then the conjecture follows from the axioms. -/
theorem C23_problem_partial (s : Strategy) (L : Lex V F) (hV : ∀ s, V s → UserName s) (hF : ∀ s, F s → UserName s) {fl : Bool}
    {typeOk : Form → Bool} {P : List PStmt} (hg : ∀ st ∈ P, PStmt.Fof V F st) {f : Form} {c : Bool} {m : Maker}
    (h : presearch fl (fun _ => false) typeOk initMaker P = .search f c m) (ty : Ty → Verif.Unif.UT) (T : Tab) (hs : Steps s (initTab f m.cpt) T)
    (σ : Nat → Term) (hσ : Respects σ T.cons) (hc : ∀ b ∈ T.branches, b.closedConv eqId σ ∨ b.closedMod eqId ty σ) : FollowsEq P := by
  obtain ⟨hw, hm⟩ := C43_searched_partial fl typeOk L hV hF initMaker Inv_init P hg f c m h
  exact follows_eq_of L hV hF hg h fun D I hI μ ρ => C23_closed_tableau_module_partial s f m.cpt eqId ty hw hm T hs σ hσ hc D I hI μ ρ

/-- **C23 for texts**: the same for what the text of an untyped problem is read as. Missing: types, rewriting, variables whose names end
with a digit. -/
theorem C23_text_partial (s : Strategy) {d : fs.Dir} {t : List Char} {n : Nat} {P P' : List PStmt} {lim b : Int64} {q : Nat} {eq : Bool}
    (ht : Says fs d t n P) (hg : ∀ st ∈ P, PStmt.Fof VarName SymName st) (hr : Reads fs d lim 0 false t P' b q eq) {fl : Bool}
    {typeOk : Form → Bool} {f : Form} {c : Bool} {m : Maker} (h : presearch fl (fun _ => false) typeOk initMaker P' = .search f c m)
    (ty : Ty → Verif.Unif.UT) (T : Tab) (hs : Steps s (initTab f m.cpt) T) (σ : Nat → Term) (hσ : Respects σ T.cons)
    (hc : ∀ b ∈ T.branches, b.closedConv eqId σ ∨ b.closedMod eqId ty σ) : FollowsEq P := by
  obtain ⟨b', e', r1, -⟩ := ht.reads (fun st h => in_whole (hg st h).in_all) lim 0 false
  obtain ⟨rfl, -, -, -⟩ := hr.unique r1
  exact C23_problem_partial s lexNames (fun _ h => var_user h) (fun _ h => sym_user h) hg h ty T hs σ hσ hc

/-! ### The hypotheses are met -/

/-- Axioms `! [X]: f(X) = X` and `p(a)`, conjecture `p(f(a))`. -/
def eqProblem : List PStmt :=
  [.form "h" .ax (.all [("X", .fn "$i" [])] (.eq (.fn "f" [.var "X"] none) (.var "X"))), .form "h2" .ax (.atom "p" [.fn "a" [] none]),
   .form "g" .conj (.atom "p" [.fn "f" [.fn "a" [] none] none])]

/-- The formula searched for it. -/
def eqForm : Form := .and [.all [⟨"X5", 6, .constr "$i" []⟩] (.pred 0 [.constr "$i" []] [.fn 2 [] [.var 6], .var 6]),
  .pred 4 [] [.fn 3 [] []], .neg (.pred 4 [] [.fn 2 [] [.fn 3 [] []]])]

theorem eq_fof : ∀ st ∈ eqProblem, PStmt.Fof VarName SymName st := by
  have hX : VarName "X" := by
    refine ⟨⟨'X', by decide +kernel, by decide⟩, ?_⟩
    intro c h
    have : c = 'X' := by simpa using h.symm
    subst this; decide
  have sym : ∀ s, s.toList.head?.all (fun c => !c.isUpper) = true → UserName s → SymName s := by
    rintro s h1 h2
    refine ⟨?_, h2⟩
    rintro ⟨c, h3, h4⟩
    rw [h3] at h1
    simp [h4] at h1
  have ha : PTm.Fof VarName SymName (.fn "a" [] none) := .fn (sym _ (by decide) (by unfold UserName; decide)) (by simp)
  have hf : ∀ t, PTm.Fof VarName SymName t → PTm.Fof VarName SymName (.fn "f" [t] none) := fun t ht =>
    .fn (sym _ (by decide) (by unfold UserName; decide)) (by simpa using ht)
  intro st hs
  simp only [eqProblem, List.mem_cons, List.not_mem_nil, or_false] at hs
  rcases hs with rfl | rfl | rfl
  · refine .form (.inl rfl) (.all ?_ (.eq (hf _ (.var hX)) (.var hX))) ?_ ?_
    · intro e he
      cases List.mem_singleton.1 he
      exact ⟨hX, "$i", by decide, rfl⟩
    · simp [WForm.AllI]
    · simp [WForm.fv, PTm.fvL, PTm.fv]
  · exact .form (.inl rfl) (.atom (by decide) (by simpa using ha)) (by simp [WForm.AllI]) (by simp [WForm.fv, PTm.fvL, PTm.fv])
  · exact .form (.inr (.inl rfl)) (.atom (by decide) (by simpa using hf _ ha)) (by simp [WForm.AllI]) (by simp [WForm.fv, PTm.fvL, PTm.fv])

/-- Its tableau closes, and the conjecture follows. -/
example : FollowsEq eqProblem := by
  obtain ⟨m, hm⟩ := Outcome.sent_some (f := eqForm) (c := false)
    (o := presearch true (fun _ => false) (fun _ => true) initMaker eqProblem) (by decide +kernel)
  refine C23_problem_partial .outer lexNames (fun _ h => var_user h) (fun _ h => sym_user h) eq_fof hm (fun _ => .fn 8 []) _
    (.tail _ _ _ (.tail _ _ _ (.refl _) (.alpha _ [] [] _ _ rfl (List.mem_singleton.2 rfl) rfl))
      (.gamma _ [] [] _ (.all [⟨"X5", 6, .constr "$i" []⟩] (.pred 0 [.constr "$i" []] [.fn 2 [] [.var 6], .var 6])) _ 0 rfl ?_ rfl rfl))
    (fun _ => .fn 3 [] []) ?_ ?_
  · exact List.mem_append_left _ (by decide)
  · intro p hp
    cases hp
  · intro b hb
    simp only [List.nil_append, List.mem_singleton] at hb
    subst hb
    refine .inl (Or.inr (Or.inr ⟨4, [], [.fn 3 [] []], [.fn 2 [] [.fn 3 [] []]], ?_, ?_, ?_⟩))
    · exact List.mem_cons_of_mem _ (List.mem_append_left _ (by decide))
    · exact List.mem_cons_of_mem _ (List.mem_append_left _ (by decide))
    · refine .cons (.symm (.base ⟨[.constr "$i" []], .fn 2 [] [.mv m.cpt], .mv m.cpt, ?_, ?_, ?_⟩)) .nil
      · exact List.mem_cons_self
      · rfl
      · rfl

end Verif.Whole
