import Verif.Whole.Props
import Verif.Whole.Text
import Verif.Search.MainUnsound
/-!
# C88, C89: concrete texts
-/

namespace Verif.Whole
open Verif.AST Verif.Engine Verif.Parser
open Verif.Search.Verdict
open Verif.Search.Main (Env Start Verdict NoPred Deep Choice Sys)

/-! ### Pieces of texts -/

def sy (w : List Char) (t : Tok) : Piece := ⟨[], w, t⟩
def sp (w : List Char) (t : Tok) : Piece := ⟨[' '], w, t⟩
def nl (w : List Char) (t : Tok) : Piece := ⟨['\n'], w, t⟩
def lo (w : List Char) : Piece := ⟨[], w, .lower w⟩
def up (w : List Char) : Piece := ⟨[], w, .upper w⟩

/-! ### A problem with an include -/

/-- `fof(a,axiom,p(c)).` -/
def axPieces : List Piece :=
  [sy ['f', 'o', 'f'] .kFof, sy ['('] .lpar, lo ['a'], sy [','] .comma, lo ['a', 'x', 'i', 'o', 'm'], sy [','] .comma,
   lo ['p'], sy ['('] .lpar, lo ['c'], sy [')'] .rpar, sy [')'] .rpar, sy ['.'] .dot]

/-- `include('a.ax').` and `fof(g,conjecture,p(c)).` -/
def mainPieces : List Piece :=
  [sy ['i', 'n', 'c', 'l', 'u', 'd', 'e'] .kInclude, sy ['('] .lpar, sy ['\'', 'a', '.', 'a', 'x', '\''] (.squoted ['a', '.', 'a', 'x']),
   sy [')'] .rpar, sy ['.'] .dot,
   nl ['f', 'o', 'f'] .kFof, sy ['('] .lpar, lo ['g'], sy [','] .comma, lo ['c', 'o', 'n', 'j', 'e', 'c', 't', 'u', 'r', 'e'], sy [','] .comma,
   lo ['p'], sy ['('] .lpar, lo ['c'], sy [')'] .rpar, sy [')'] .rpar, sy ['.'] .dot]

example : textOf mainPieces = "include('a.ax').\nfof(g,conjecture,p(c)).\n".toList := by decide

def inclFiles : Files where
  Dir := Unit
  get _ n := if n = "a.ax" then some ((), textOf axPieces) else none

def pc : WForm := .atom "p" [.fn "c" [] none]

def inclProblem : List PStmt := [.incl none [.form "a" .ax pc], .form "g" .conj pc]

theorem d_pc : D .logic [.lower ['p'], .lpar, .lower ['c'], .rpar] (.pred "p" [.fn "c" [] none]) :=
  .logicUnitary (D.atom (t := .lower ['p']) (w := [.lower ['c']]) rfl (.one (.const (t := .lower ['c']) rfl)))

theorem says_ax : Says inclFiles () (textOf axPieces) 0 [.form "a" .ax pc] := by
  have h : SFile (axPieces.map (·.tok)) [.form "a" "axiom" (.pred "p" [.fn "c" [] none])] :=
    .cons (.fof (t := .lower ['a']) (r := ['a', 'x', 'i', 'o', 'm']) rfl d_pc) .nil
  exact .mk (piecesOk_spec (by decide +kernel)) (by simp [axPieces, sy, lo]) h (.form .axiom .nil)

theorem says_incl : Says inclFiles () (textOf mainPieces) 0 inclProblem := by
  have h : SFile (mainPieces.map (·.tok)) [.incl none "a.ax", .form "g" "conjecture" (.pred "p" [.fn "c" [] none])] :=
    .cons (.incl (w := ['a', '.', 'a', 'x'])) (.cons (.fof (t := .lower ['g']) (r := ['c', 'o', 'n', 'j', 'e', 'c', 't', 'u', 'r', 'e']) rfl d_pc) .nil)
  exact .mk (piecesOk_spec (by decide +kernel)) (by simp [mainPieces, sy, lo, nl]) h (.incl rfl says_ax (.form .conjecture .nil))

def inclAr : String → Nat := fun s => if s = "p" then 1 else 0

theorem ground_incl : ∀ st ∈ inclProblem, PStmt.Ground inclAr st := by
  have hp : UserName "p" := by unfold UserName; decide
  have hc : UserName "c" := by unfold UserName; decide
  have h : WForm.Ground inclAr pc := ⟨hp, by decide, ⟨hc, rfl, by decide, trivial⟩, trivial⟩
  intro st hs
  simp only [inclProblem, List.mem_cons, List.not_mem_nil, or_false] at hs
  rcases hs with rfl | rfl
  · exact .incl (by intro s hs; cases List.mem_singleton.1 hs; exact .form (.inl rfl) h)
  · exact .form (.inr (.inl rfl)) h

noncomputable def env : Env := ⟨Verif.Search.Incr.anyU, 1, eqId, fun l _ => l⟩

theorem env_ok : EnvOk env := ⟨Verif.Search.Incr.anyU_deep, by decide, rfl, fun _ _ => rfl⟩

theorem incl_follows : Follows inclProblem := by
  intro E S _ h
  simp only [inclProblem, ProblemMeans, PStmt.meansL, PStmt.means, PRole.means, pc, WForm.sat, PTm.valL, PTm.val] at h
  obtain ⟨x⟩ := ‹Nonempty E›
  simp at h

/-- The hypotheses of C88 are met: the program prints that this conjecture is a theorem, and nothing else. -/
example : Prints inclFiles env ⟨-1, true, fun _ => true, ⟨false, false⟩⟩ () (textOf mainPieces) ⟨true, .theorem⟩ ∧
    ∀ l, Prints inclFiles env ⟨-1, true, fun _ => true, ⟨false, false⟩⟩ () (textOf mainPieces) l → l = ⟨true, .theorem⟩ := by
  have hv : verdict inclProblem = ⟨true, .theorem⟩ := by
    simp only [verdict, incl_follows, decide_true]; decide
  have h1 : ∀ l, Prints inclFiles env ⟨-1, true, fun _ => true, ⟨false, false⟩⟩ () (textOf mainPieces) l → l = ⟨true, .theorem⟩ :=
    fun l h => (C88_partial env_ok says_incl ground_incl h).trans hv
  obtain ⟨l, hl⟩ := C88_answers (cfg := ⟨-1, true, fun _ => true, ⟨false, false⟩⟩) env_ok (fun _ => Verif.Search.Incr.anyU_answers) says_incl ground_incl
    (.mk (by decide) (by
      intro f hf
      simp only [inclProblem, incls, List.mem_cons, List.not_mem_nil, or_false] at hf
      subst hf
      exact .mk (by decide) (by simp [incls]))) (by decide) (.inl rfl)
  exact ⟨h1 l hl ▸ hl, h1⟩

/-- **C89 is violated by includes**: the text is run with `-l 5`; the first round has the bound 0, the number of quantifiers of the included
file. -/
theorem C89_violated_include : ∃ q e, Reads inclFiles () 5 0 false (textOf mainPieces) inclProblem 0 q e := by
  obtain ⟨b, e, h, -⟩ := says_incl.reads (fun st hs => ground_whole (ground_incl st hs)) 5 0 false
  have hb : b = 0 := C89_ignored says_incl (fun st hs => ground_whole (ground_incl st hs)) ⟨none, _, List.mem_cons_self .., by decide⟩ h
  exact ⟨_, e, hb ▸ h⟩

theorem C89_statement_false : ¬ C89_statement := by
  intro h
  obtain ⟨q, e, hr⟩ := C89_violated_include
  have := h _ _ _ _ _ _ _ _ _ says_incl (fun st hs => ground_whole (ground_incl st hs)) hr
  exact absurd this (by decide)

/-! ### A problem that is renamed wrongly -/

/-- `fof(refl,axiom,! [X]:q(X,X)).` and `fof(goal,conjecture,! [X6]:! [X]:q(X,X6)).` -/
def capPieces : List Piece :=
  [sy ['f', 'o', 'f'] .kFof, sy ['('] .lpar, lo ['r', 'e', 'f', 'l'], sy [','] .comma, lo ['a', 'x', 'i', 'o', 'm'], sy [','] .comma,
   sy ['!'] .all, sp ['['] .lbrk, up ['X'], sy [']'] .rbrk, sy [':'] .colon,
   lo ['q'], sy ['('] .lpar, up ['X'], sy [','] .comma, up ['X'], sy [')'] .rpar, sy [')'] .rpar, sy ['.'] .dot,
   nl ['f', 'o', 'f'] .kFof, sy ['('] .lpar, lo ['g', 'o', 'a', 'l'], sy [','] .comma, lo ['c', 'o', 'n', 'j', 'e', 'c', 't', 'u', 'r', 'e'], sy [','] .comma,
   sy ['!'] .all, sp ['['] .lbrk, up ['X', '6'], sy [']'] .rbrk, sy [':'] .colon,
   sy ['!'] .all, sp ['['] .lbrk, up ['X'], sy [']'] .rbrk, sy [':'] .colon,
   lo ['q'], sy ['('] .lpar, up ['X'], sy [','] .comma, up ['X', '6'], sy [')'] .rpar, sy [')'] .rpar, sy ['.'] .dot]

example : textOf capPieces = "fof(refl,axiom,! [X]:q(X,X)).\nfof(goal,conjecture,! [X6]:! [X]:q(X,X6)).\n".toList := by decide

theorem says_cap : Says inclFiles () (textOf capPieces) 3 captureFile := by
  have h : SFile (capPieces.map (·.tok))
      [.form "refl" "axiom" (.all [("X", .fn "$i" [])] (.pred "q" [.var "X", .var "X"])),
       .form "goal" "conjecture" (.all [("X6", .fn "$i" [])] (.all [("X", .fn "$i" [])] (.pred "q" [.var "X", .var "X6"])))] :=
    .cons (.fof (t := .lower ['r', 'e', 'f', 'l']) (r := ['a', 'x', 'i', 'o', 'm']) rfl
      (.logicUnitary (D.all (vs := [.upper ['X']]) .one (.unit1 (D.atom (t := .lower ['q']) (w := [.upper ['X'], .comma, .upper ['X']]) rfl
        (.cons (w := [.upper ['X']]) .var (.one .var)))))))
    (.cons (.fof (t := .lower ['g', 'o', 'a', 'l']) (r := ['c', 'o', 'n', 'j', 'e', 'c', 't', 'u', 'r', 'e']) rfl
      (.logicUnitary (D.all (vs := [.upper ['X', '6']]) .one (.unit1 (D.all (vs := [.upper ['X']]) .one
        (.unit1 (D.atom (t := .lower ['q']) (w := [.upper ['X'], .comma, .upper ['X', '6']]) rfl
        (.cons (w := [.upper ['X']]) .var (.one .var))))))))) .nil)
  exact .mk (n := 0) (piecesOk_spec (by decide +kernel)) (by simp [capPieces, sy, sp, lo, nl, up]) h (.form .axiom (.form .conjecture .nil))

def env20 : Env := ⟨Verif.Search.Incr.realU 20, 20, eqId, fun l _ => l⟩

theorem env20_ok : EnvOk env20 := ⟨Verif.Search.Main.realU_deep 18, by decide, rfl, fun _ _ => rfl⟩

/-- What is searched: the conjecture has become `! [X6]: q(X6,X6)`. -/
def capForm : Form := .and [.all [⟨"X4", 5, .constr "$i" []⟩] (.pred 2 [] [.var 5, .var 5]),
  .neg (.all [⟨"X67", 8, .constr "$i" []⟩] (.all [⟨"X6", 3, .constr "$i" []⟩] (.pred 2 [] [.var 8, .var 8])))]

/-- The number of symbols and variables after the problem has been read. -/
def cptOf : Outcome → Nat
  | .search _ _ m => m.cpt
  | _ => 0

/-- **C88 is violated by the renaming of variables** (C43): for this text of two lines, with no options, the program prints that the conjecture is
a theorem, though it does not follow. -/
theorem C88_violated_capture : Prints inclFiles env20 ⟨-1, false, fun _ => true, ⟨false, false⟩⟩ () (textOf capPieces) ⟨true, .theorem⟩ ∧
    ¬ Follows captureFile := by
  constructor
  · have hw : ∀ st ∈ captureFile, Whole st := by
      intro st hs
      simp only [captureFile, List.mem_cons, List.not_mem_nil, or_false] at hs
      rcases hs with rfl | rfl <;> exact .form
    obtain ⟨b, e', r1, r2⟩ := says_cap.reads hw (-1) 0 false
    have hb : b = 3 := r2 rfl
    subst hb
    obtain ⟨m, hm⟩ := Outcome.sent_some (c := false) (f := capForm)
      (o := presearch false (fun _ => false) (fun _ => true) initMaker captureFile) (by decide +kernel)
    have hc : m.cpt ≤ 100 := by
      have : cptOf (presearch false (fun _ => false) (fun _ => true) initMaker captureFile) ≤ 100 := by decide +kernel
      rw [hm] at this
      exact this
    have hq : NoPred eqId capForm := by
      have : eqId = 0 := by decide
      simp [capForm, NoPred, Verif.Search.Main.NoPredL, this]
    refine ⟨captureFile, 3, _, e', capForm, false, m, fun _ => true, true, _, r1, hm, hq, ⟨1, rfl, by decide⟩, ?_, ?_⟩
    · intro k hk
      have h1 : (after ⟨false, false⟩ (decide (0 < PStmt.conjsL captureFile)) 3 (fun _ => true) 1).round = 1 := by decide
      have : k = 0 := by
        have : k < 1 := h1 ▸ hk
        omega
      subst this
      refine ⟨⟨0, 100⟩, hc, ?_⟩
      have : ((Verif.Search.Main.start 3 capForm).run env20 ⟨0, 100⟩
          [.proc [] (.own 0), .proc [] (.own 0), .proc [] (.own 0), .proc [] (.own 0), .proc [] (.own 0), .result]).map (·.result) = some (some true) := by
        decide +kernel
      obtain ⟨s, hs, e⟩ := Option.map_eq_some_iff.1 this
      exact ⟨s, ⟨_, hs⟩, e⟩
    · decide
  · intro hF
    obtain ⟨S, hS⟩ := C43_violated_capture.1
    exact hF Bool S ⟨true⟩ hS

theorem C88_statement_false : ¬ C88_statement := by
  intro h
  have := h _ _ _ _ _ _ _ _ env20_ok says_cap C88_violated_capture.1
  rw [verdict] at this
  simp only [C88_violated_capture.2, decide_false] at this
  exact absurd this (by decide)

end Verif.Whole
