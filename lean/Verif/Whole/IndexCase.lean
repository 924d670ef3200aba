import Verif.Whole.DeltaCases
/-!
# C88: a text for which the index makes the program print a wrong verdict
-/

namespace Verif.Whole
open Verif.AST Verif.Engine Verif.Parser
open Verif.Search.Verdict
open Verif.Search.Main (Env Start Verdict NoPred Deep Choice Sys)

/-- `fof(g,conjecture,? [X,Z]:(p(X,g(Z),Z)=>p(g(a),X,f(X,X)))).` -/
def idxPieces : List Piece :=
  [sy ['f', 'o', 'f'] .kFof, sy ['('] .lpar, lo ['g'], sy [','] .comma, lo ['c', 'o', 'n', 'j', 'e', 'c', 't', 'u', 'r', 'e'], sy [','] .comma,
   sy ['?'] .ex, sp ['['] .lbrk, up ['X'], sy [','] .comma, up ['Z'], sy [']'] .rbrk, sy [':'] .colon, sy ['('] .lpar,
   lo ['p'], sy ['('] .lpar, up ['X'], sy [','] .comma, lo ['g'], sy ['('] .lpar, up ['Z'], sy [')'] .rpar, sy [','] .comma, up ['Z'], sy [')'] .rpar,
   sy ['=', '>'] .imply,
   lo ['p'], sy ['('] .lpar, lo ['g'], sy ['('] .lpar, lo ['a'], sy [')'] .rpar, sy [','] .comma, up ['X'], sy [','] .comma,
   lo ['f'], sy ['('] .lpar, up ['X'], sy [','] .comma, up ['X'], sy [')'] .rpar, sy [')'] .rpar,
   sy [')'] .rpar, sy [')'] .rpar, sy ['.'] .dot]

example : textOf idxPieces = "fof(g,conjecture,? [X,Z]:(p(X,g(Z),Z)=>p(g(a),X,f(X,X)))).\n".toList := by decide

def idxL : List PTm := [.var "X", .fn "g" [.var "Z"] none, .var "Z"]
def idxR : List PTm := [.fn "g" [.fn "a" [] none] none, .var "X", .fn "f" [.var "X", .var "X"] none]
def idxProblem : List PStmt := [.form "g" .conj (.ex [("X", .fn "$i" []), ("Z", .fn "$i" [])] (.imp (.atom "p" idxL) (.atom "p" idxR)))]

theorem d_idxL : D .unitary [.lower ['p'], .lpar, .upper ['X'], .comma, .lower ['g'], .lpar, .upper ['Z'], .rpar, .comma, .upper ['Z'], .rpar]
    (.pred "p" idxL) :=
  D.atom (t := .lower ['p']) (w := [.upper ['X'], .comma, .lower ['g'], .lpar, .upper ['Z'], .rpar, .comma, .upper ['Z']]) rfl
    (.cons (w := [.upper ['X']]) .var (.cons (w := [.lower ['g'], .lpar, .upper ['Z'], .rpar])
      (.app (t := .lower ['g']) (w := [.upper ['Z']]) rfl (.one .var)) (.one .var)))

theorem d_idxR : D .unitary [.lower ['p'], .lpar, .lower ['g'], .lpar, .lower ['a'], .rpar, .comma, .upper ['X'], .comma, .lower ['f'], .lpar,
    .upper ['X'], .comma, .upper ['X'], .rpar, .rpar] (.pred "p" idxR) :=
  D.atom (t := .lower ['p']) (w := [.lower ['g'], .lpar, .lower ['a'], .rpar, .comma, .upper ['X'], .comma, .lower ['f'], .lpar, .upper ['X'], .comma,
    .upper ['X'], .rpar]) rfl
    (.cons (w := [.lower ['g'], .lpar, .lower ['a'], .rpar]) (.app (t := .lower ['g']) (w := [.lower ['a']]) rfl (.one (.const (t := .lower ['a']) rfl)))
      (.cons (w := [.upper ['X']]) .var (.one (.app (t := .lower ['f']) (w := [.upper ['X'], .comma, .upper ['X']]) rfl
        (.cons (w := [.upper ['X']]) .var (.one .var))))))

theorem says_idx : Says inclFiles () (textOf idxPieces) 1 idxProblem := by
  have h : SFile (idxPieces.map (·.tok)) [.form "g" "conjecture" (.ex [("X", .fn "$i" []), ("Z", .fn "$i" [])] (.bin .imp (.pred "p" idxL) (.pred "p" idxR)))] :=
    .cons (.fof (t := .lower ['g']) (r := ['c', 'o', 'n', 'j', 'e', 'c', 't', 'u', 'r', 'e']) rfl
      (.logicUnitary (D.ex (vs := [.upper ['X'], .comma, .upper ['Z']]) (.cons .one) (.unit1 (.paren (D.nonassoc (t := .imply) (.unit1 d_idxL) rfl (.unit1 d_idxR))))))) .nil
  exact .mk (n := 0) (piecesOk_spec (by decide +kernel)) (by simp [idxPieces, sy, sp, lo, up]) h (.form .conjecture .nil)

/-- What is searched. -/
def idxForm : Form := .neg (.ex [⟨"X7", 8, .constr "$i" []⟩, ⟨"Z9", 10, .constr "$i" []⟩]
  (.imp (.pred 4 [] [.var 8, .fn 3 [] [.var 10], .var 10]) (.pred 4 [] [.fn 3 [] [.fn 5 [] []], .var 8, .fn 6 [] [.var 8, .var 8]])))

/-- `p` is equality of the last two arguments, `g` the identity, and `f` is the successor. -/
theorem idx_follows_not : ¬ Follows idxProblem := by
  intro h
  refine h Nat ⟨fun s l => if s = "f" then l.headD 0 + 1 else l.headD 0, fun _ l => l.getD 1 0 = l.getD 2 0⟩ ⟨0⟩ ?_
  simp [idxProblem, idxL, idxR, ProblemMeans, PStmt.meansL, PStmt.means, PRole.means, WForm.sat, PTm.valL, PTm.val, Engine.exNames, updN]

/-- **C88 is violated by the index** (C30): for this text of one line, with no options, the program prints that the conjecture is a theorem,
though it is not. There is one branch, no equality and no renaming of variables that matters. -/
theorem C88_violated_index : Prints inclFiles env20 ⟨-1, false, fun _ => true, ⟨false, false⟩⟩ () (textOf idxPieces) ⟨true, .theorem⟩ ∧
    ¬ Follows idxProblem := by
  refine ⟨?_, idx_follows_not⟩
  have hw : ∀ st ∈ idxProblem, Whole st := by
    intro st hs
    cases List.mem_singleton.1 hs
    exact .form
  obtain ⟨b, e', r1, r2⟩ := says_idx.reads hw (-1) 0 false
  have hb : b = 1 := r2 rfl
  subst hb
  obtain ⟨m, hm⟩ := Outcome.sent_some (c := false) (f := idxForm)
    (o := presearch false (fun _ => false) (fun _ => true) initMaker idxProblem) (by decide +kernel)
  have hc : m.cpt ≤ 100 := by
    have : cptOf (presearch false (fun _ => false) (fun _ => true) initMaker idxProblem) ≤ 100 := by decide +kernel
    rw [hm] at this
    exact this
  have hq : NoPred eqId idxForm := by
    have : eqId = 0 := by decide
    simp [idxForm, NoPred, this]
  refine ⟨idxProblem, 1, _, e', idxForm, false, m, fun _ => true, true, _, r1, hm, hq, ⟨1, rfl, by decide⟩, ?_, ?_⟩
  · intro k hk
    have h1 : (after ⟨false, false⟩ (decide (0 < PStmt.conjsL idxProblem)) 1 (fun _ => true) 1).round = 1 := by decide
    have : k = 0 := by
      have : k < 1 := h1 ▸ hk
      omega
    subst this
    refine ⟨⟨0, 100⟩, hc, ?_⟩
    have : ((Verif.Search.Main.start 1 idxForm).run env20 ⟨0, 100⟩
        [.proc [] (.own 0), .proc [] (.own 0), .proc [] (.own 0), .proc [] (.own 0), .result]).map (·.result) = some (some true) := by
      decide +kernel
    obtain ⟨s, hs, e⟩ := Option.map_eq_some_iff.1 this
    exact ⟨s, ⟨_, hs⟩, e⟩
  · decide

end Verif.Whole
