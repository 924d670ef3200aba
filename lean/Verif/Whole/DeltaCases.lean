import Verif.Whole.DeltaProps
import Verif.Whole.Cases
/-!
# C88: concrete texts with quantifiers
-/

namespace Verif.Whole
open Verif.AST Verif.Engine Verif.Parser
open Verif.Search.Verdict

/-- `fof(g,conjecture,! [X]:(p(X)=>p(X))).` -/
def selfPieces : List Piece :=
  [sy ['f', 'o', 'f'] .kFof, sy ['('] .lpar, lo ['g'], sy [','] .comma, lo ['c', 'o', 'n', 'j', 'e', 'c', 't', 'u', 'r', 'e'], sy [','] .comma,
   sy ['!'] .all, sp ['['] .lbrk, up ['X'], sy [']'] .rbrk, sy [':'] .colon, sy ['('] .lpar,
   lo ['p'], sy ['('] .lpar, up ['X'], sy [')'] .rpar, sy ['=', '>'] .imply, lo ['p'], sy ['('] .lpar, up ['X'], sy [')'] .rpar,
   sy [')'] .rpar, sy [')'] .rpar, sy ['.'] .dot]

/-- `fof(g,conjecture,! [X]:p(X)).` -/
def allPieces : List Piece :=
  [sy ['f', 'o', 'f'] .kFof, sy ['('] .lpar, lo ['g'], sy [','] .comma, lo ['c', 'o', 'n', 'j', 'e', 'c', 't', 'u', 'r', 'e'], sy [','] .comma,
   sy ['!'] .all, sp ['['] .lbrk, up ['X'], sy [']'] .rbrk, sy [':'] .colon,
   lo ['p'], sy ['('] .lpar, up ['X'], sy [')'] .rpar, sy [')'] .rpar, sy ['.'] .dot]

example : textOf selfPieces = "fof(g,conjecture,! [X]:(p(X)=>p(X))).\n".toList := by decide
example : textOf allPieces = "fof(g,conjecture,! [X]:p(X)).\n".toList := by decide

def px : WForm := .atom "p" [.var "X"]
def selfProblem : List PStmt := [.form "g" .conj (.all [("X", .fn "$i" [])] (.imp px px))]
def allProblem : List PStmt := [.form "g" .conj (.all [("X", .fn "$i" [])] px)]

theorem d_px : D .unitary [.lower ['p'], .lpar, .upper ['X'], .rpar] (.pred "p" [.var "X"]) :=
  D.atom (t := .lower ['p']) (w := [.upper ['X']]) rfl (.one .var)

theorem says_self : Says inclFiles () (textOf selfPieces) 1 selfProblem := by
  have h : SFile (selfPieces.map (·.tok)) [.form "g" "conjecture" (.all [("X", .fn "$i" [])] (.bin .imp (.pred "p" [.var "X"]) (.pred "p" [.var "X"])))] :=
    .cons (.fof (t := .lower ['g']) (r := ['c', 'o', 'n', 'j', 'e', 'c', 't', 'u', 'r', 'e']) rfl
      (.logicUnitary (D.all (vs := [.upper ['X']]) .one (.unit1 (.paren (D.nonassoc (t := .imply) (.unit1 d_px) rfl (.unit1 d_px))))))) .nil
  exact .mk (n := 0) (piecesOk_spec (by decide +kernel)) (by simp [selfPieces, sy, sp, lo, up]) h (.form .conjecture .nil)

theorem says_all : Says inclFiles () (textOf allPieces) 1 allProblem := by
  have h : SFile (allPieces.map (·.tok)) [.form "g" "conjecture" (.all [("X", .fn "$i" [])] (.pred "p" [.var "X"]))] :=
    .cons (.fof (t := .lower ['g']) (r := ['c', 'o', 'n', 'j', 'e', 'c', 't', 'u', 'r', 'e']) rfl
      (.logicUnitary (D.all (vs := [.upper ['X']]) .one (.unit1 d_px)))) .nil
  exact .mk (n := 0) (piecesOk_spec (by decide +kernel)) (by simp [allPieces, sy, sp, lo, up]) h (.form .conjecture .nil)

theorem varX : VarName "X" := by
  refine ⟨⟨'X', by decide +kernel, by decide⟩, ?_⟩
  intro c h
  have : c = 'X' := by simpa using h.symm
  subst this; decide

theorem px_ok : px.Fof VarName SymName ∧ px.AllI ∧ ∀ p, px.Exi inclAr p := by
  have hp : UserName "p" := by unfold UserName; decide
  refine ⟨.atom (by decide) ?_, trivial, fun p => ⟨hp, by decide, trivial, trivial⟩⟩
  intro a ha
  cases List.mem_singleton.1 ha
  exact .var varX

theorem one_var : ∀ e ∈ [("X", PTy.fn "$i" [])], VarName e.1 ∧ ∃ s, s ≠ "$tType" ∧ e.2 = .fn s [] := by
  intro e he
  cases List.mem_singleton.1 he
  exact ⟨varX, "$i", by decide, rfl⟩

theorem delta_self : ∀ st ∈ selfProblem, Delta inclAr st := by
  obtain ⟨h1, h2, h3⟩ := px_ok
  intro st hs
  cases List.mem_singleton.1 hs
  refine .form (.inr (.inl rfl)) (.all one_var (.imp h1 h1)) ?_ ?_ ⟨rfl, h3 _, h3 _⟩
  · simp [WForm.AllI, h2]
  · simp [WForm.fv, px, PTm.fvL, PTm.fv]

theorem delta_all : ∀ st ∈ allProblem, Delta inclAr st := by
  obtain ⟨h1, h2, h3⟩ := px_ok
  intro st hs
  cases List.mem_singleton.1 hs
  refine .form (.inr (.inl rfl)) (.all one_var h1) ?_ ?_ ⟨rfl, h3 _⟩
  · simp [WForm.AllI, h2]
  · simp [WForm.fv, px, PTm.fvL, PTm.fv]

theorem self_follows : Follows selfProblem := by
  intro E S _ h
  simp only [selfProblem, ProblemMeans, PStmt.meansL, PStmt.means, PRole.means, px, WForm.sat, PTm.valL, PTm.val, List.map_cons, List.map_nil,
    Engine.allNames, updN] at h
  obtain ⟨x⟩ := ‹Nonempty E›
  simp at h

theorem all_follows_not : ¬ Follows allProblem := by
  intro h
  refine h Unit ⟨fun _ _ => (), fun _ _ => False⟩ ⟨()⟩ ?_
  simp [allProblem, ProblemMeans, PStmt.meansL, PStmt.means, PRole.means, px, WForm.sat, PTm.valL, PTm.val, Engine.allNames]

/-- The hypotheses are met: the program prints that `! [X]:(p(X)=>p(X))` is a theorem, and nothing else. -/
example : Prints inclFiles env ⟨-1, true, fun _ => true, ⟨false, false⟩⟩ () (textOf selfPieces) ⟨true, .theorem⟩ ∧
    ∀ l, Prints inclFiles env ⟨-1, true, fun _ => true, ⟨false, false⟩⟩ () (textOf selfPieces) l → l = ⟨true, .theorem⟩ := by
  have hv : verdict selfProblem = ⟨true, .theorem⟩ := by
    simp only [verdict, self_follows, decide_true]; decide
  have h1 : ∀ l, Prints inclFiles env ⟨-1, true, fun _ => true, ⟨false, false⟩⟩ () (textOf selfPieces) l → l = ⟨true, .theorem⟩ :=
    fun l h => (C88_delta_partial env_ok says_self delta_self h).trans hv
  obtain ⟨l, hl⟩ := C88_delta_answers (cfg := ⟨-1, true, fun _ => true, ⟨false, false⟩⟩) env_ok (fun _ => Verif.Search.Incr.anyU_answers) says_self delta_self
    (.mk (by decide) (by simp [selfProblem, incls])) (by decide) (.inr self_follows)
  exact ⟨h1 l hl ▸ hl, h1⟩

/-- `! [X]:p(X)` does not follow; nothing is ever printed … -/
example (l : Line) : ¬ Prints inclFiles env ⟨-1, true, fun _ => true, ⟨false, false⟩⟩ () (textOf allPieces) l :=
  C88_delta_never env_ok says_all delta_all rfl (by decide) rfl all_follows_not l

/-- … but with `-one_step` it is. -/
example : Prints inclFiles env ⟨-1, true, fun _ => true, ⟨false, true⟩⟩ () (textOf allPieces) ⟨false, .counterSatisfiable⟩ := by
  obtain ⟨l, hl⟩ := C88_delta_answers (cfg := ⟨-1, true, fun _ => true, ⟨false, true⟩⟩) env_ok (fun _ => Verif.Search.Incr.anyU_answers) says_all delta_all
    (.mk (by decide) (by simp [allProblem, incls])) (by decide) (.inl rfl)
  have := C88_delta_partial env_ok says_all delta_all hl
  have hv : verdict allProblem = ⟨false, .counterSatisfiable⟩ := by
    simp only [verdict, all_follows_not, decide_false]; decide
  exact (this.trans hv) ▸ hl

end Verif.Whole
