import Verif.Whole.Incr
import Verif.Whole.Cases
/-!
# C101: concrete texts
-/

namespace Verif.Whole
open Verif.AST Verif.Engine Verif.Parser
open Verif.Search.Incr (Note St realU realU_faithful)
open Verif.Gs3 (PS)
open Verif.Search.Output (Format End JPS basic toText toTextL incrSearch)

/-! ### Outputs that write something -/

/-- The default output of proofs (`ProofStructListToText`, src/Search/proof.go:380-383), whatever the steps are shown as. -/
theorem basic_speaks (j : PS → JPS) : Speaks fun pr => basic (pr.map j) := by
  intro pr
  refine ⟨_, rfl, ?_⟩
  cases pr with
  | nil => simp [toTextL]
  | cons a l =>
    simp only [List.map_cons, toTextL, reduceCtorEq, iff_false]
    intro h
    obtain ⟨h, -⟩ := List.append_eq_nil_iff.1 h
    cases hj : j a
    rw [hj] at h
    simp [toText] at h

/-! ### Texts of formulas -/

def lowSym (s : String) : Tok := .lower s.toList

theorem lowSym_ok (s : String) : tokSym (lowSym s) = some s := by simp [lowSym, tokSym, strOf]

/-- How the tokens of the texts below are written. -/
def wordOf : Tok → List Char
  | .lower w | .upper w => w
  | .kFof => ['f', 'o', 'f']
  | .lpar => ['(']
  | .rpar => [')']
  | .comma => [',']
  | .dot => ['.']
  | .lbrk => ['[']
  | .rbrk => [']']
  | .colon => [':']
  | .all => ['!']
  | .ex => ['?']
  | .not => ['~']
  | .eq => ['=']
  | .vline => ['|']
  | .and => ['&']
  | .imply => ['=', '>']
  | .equiv => ['<', '=', '>']
  | _ => []

def sepOf : Tok → List Char
  | .kFof => ['\n']
  | .lbrk => [' ']
  | _ => []

def pieceOf (t : Tok) : Piece := ⟨sepOf t, wordOf t, t⟩

/-- `fof(n,r,w).` -/
def lineOf (n r : List Char) (w : WForm) : List Tok :=
  .kFof :: .lpar :: .lower n :: .comma :: .lower r :: .comma :: (toks lowSym w ++ [.rpar, .dot])

theorem sd_line (n r : List Char) {w : WForm} (h : fofOk w = true) : SD (lineOf n r w) (.form (strOf n) (strOf r) w.parse) :=
  .fof rfl (unit_logic (form_written lowSym_ok w h))

def lineText (l : List (List Char × List Char × WForm)) : List Piece := (l.map fun x => lineOf x.1 x.2.1 x.2.2).flatten.map pieceOf

theorem lines_file : ∀ l : List (List Char × List Char × WForm), (∀ x ∈ l, fofOk x.2.2 = true) →
    SFile ((lineText l).map (·.tok)) (l.map fun x => .form (strOf x.1) (strOf x.2.1) x.2.2.parse)
  | [], _ => .nil
  | x :: l, h => by
    have : (lineText (x :: l)).map (·.tok) = lineOf x.1 x.2.1 x.2.2 ++ (lineText l).map (·.tok) := by
      simp [lineText, pieceOf, Function.comp_def]
    rw [this]
    exact .cons (sd_line _ _ (h x List.mem_cons_self)) (lines_file l fun y hy => h y (List.mem_cons_of_mem _ hy))

def axRole : List Char := ['a', 'x', 'i', 'o', 'm']
def conjRole : List Char := ['c', 'o', 'n', 'j', 'e', 'c', 't', 'u', 'r', 'e']

/-! ### Runs -/

def cfg0 : Cfg := ⟨-1, false, fun _ => true, ⟨false, false⟩⟩

/-- The search is run for `k` rounds, each time with the first child: whether nothing is left to do, whether the tree is closed, and whether a proof
can be made. -/
def incrOf (rw : Option Verif.Mods.Dmt.Opts) (P : List PStmt) (k : Nat) : Option (Bool × Bool × Bool) :=
  match presearch false (consumes rw) (fun _ => true) initMaker P with
  | .search f _ m => if m.cpt ≤ 100 then
      ((St.init f 0 100).runN (realU 9) (List.replicate k 0) (fun _ => {})).map fun p =>
        (p.1.agenda.isEmpty, p.1.treeClosed (p.1.nodes.length + 1) 0, (p.1.proof p.2).isSome)
    else none
  | _ => none

theorem runs_of {rw : Option Verif.Mods.Dmt.Opts} {P : List PStmt} {s : List Char} {n k : Nat} {b : Bool} (hs : Says inclFiles () s n P)
    (hw : ∀ st ∈ P, Whole st) (h : incrOf rw P k = some (true, b, true)) (one : Bool) {φ : Format PS} (hφ : Speaks φ) :
    ∃ e, RunsIncr inclFiles (realU 9) rw cfg0 ⟨true, one, [φ]⟩ () s e ∧ (Shown e ↔ b = true) := by
  obtain ⟨b0, e', r1, -⟩ := hs.reads hw (-1) 0 false
  unfold incrOf at h
  split at h
  · rename_i f c m hm
    split at h
    · rename_i hc
      obtain ⟨⟨st, notes⟩, h1, h2⟩ := Option.map_eq_some_iff.1 h
      simp only [Prod.mk.injEq, List.isEmpty_iff, Option.isSome_iff_exists] at h2
      obtain ⟨h2, h3, pr, h4⟩ := h2
      refine ⟨_, ⟨P, b0, _, e', f, c, m, r1, hm, 0, 100, _, st, notes, pr, hc, h1, h2, h4, rfl⟩, ?_⟩
      rw [shown_iff hφ, h3]
      cases b with
      | false => simp
      | true =>
        unfold St.proof at h4
        rw [h3] at h4
        simp only [if_true] at h4
        simp [proofOf_ne h4]
    · cases h
  · cases h

/-! ### `-dmt` -/

def wp : WForm := .atom "p" []
def wq : WForm := .atom "q" []

def dmtLines : List (List Char × List Char × WForm) := [(['a'], axRole, .iff wp (.or wq (.not wq))), (['g'], conjRole, wp)]
def dmtProblem : List PStmt := [.form "a" .ax (.iff wp (.or wq (.not wq))), .form "g" .conj wp]

example : textOf (lineText dmtLines) = "\nfof(a,axiom,(p<=>(q|~q))).\nfof(g,conjecture,p).\n".toList := by decide

theorem says_dmt : Says inclFiles () (textOf (lineText dmtLines)) 0 dmtProblem :=
  .mk (n := 0) (piecesOk_spec (by decide +kernel)) (by simp [lineText, dmtLines, lineOf, toks, pieceOf, wp, wq, lowSym]) (lines_file _ (by decide))
    (.form .axiom (.form .conjecture .nil))

theorem forms_whole {P : List PStmt} (h : P.all (fun st => match st with | .form .. => true | _ => false) = true) : ∀ st ∈ P, Whole st := by
  intro st hs
  have := List.all_eq_true.1 h st hs
  cases st <;> simp_all
  exact .form

/-- **C101 is violated by `-dmt`** (C62): the axiom is taken out of the formula and the incremental search does not rewrite, so no proof is shown
though the conjecture follows. -/
theorem C101_violated_dmt (one : Bool) {φ : Format PS} (hφ : Speaks φ) : FollowsEq dmtProblem ∧
    ∃ e, RunsIncr inclFiles (realU 9) (some ⟨false, false, eqId⟩) cfg0 ⟨true, one, [φ]⟩ () (textOf (lineText dmtLines)) e ∧ ¬ Shown e := by
  refine ⟨?_, ?_⟩
  · intro E S ⟨x⟩ _ h
    simp [dmtProblem, wp, wq, ProblemMeans, PStmt.meansL, PStmt.means, PRole.means, WForm.sat, PTm.valL] at h
    have := h.1 fun _ => x
    grind
  · obtain ⟨e, h, hb⟩ := runs_of (rw := some ⟨false, false, eqId⟩) (k := 1) (b := false) says_dmt (forms_whole rfl) (by decide +kernel) one hφ
    exact ⟨e, h, by simp [hb]⟩

/-! ### Equality -/

def wa : PTm := .fn "a" [] none

def reflLines : List (List Char × List Char × WForm) := [(['g'], conjRole, .eq wa wa)]
def reflProblem : List PStmt := [.form "g" .conj (.atom "=" [wa, wa])]

example : textOf (lineText reflLines) = "\nfof(g,conjecture,a=a).\n".toList := by decide

theorem says_refl : Says inclFiles () (textOf (lineText reflLines)) 0 reflProblem :=
  .mk (n := 0) (piecesOk_spec (by decide +kernel)) (by simp [lineText, reflLines, lineOf, toks, tmToks, pieceOf, wa, lowSym]) (lines_file _ (by decide))
    (.form .conjecture .nil)

/-- **C101 is violated by equality**: the incremental search does not reason about it, so no proof of `a=a` is shown. -/
theorem C101_violated_equality (one : Bool) {φ : Format PS} (hφ : Speaks φ) : FollowsEq reflProblem ∧
    ∃ e, RunsIncr inclFiles (realU 9) none cfg0 ⟨true, one, [φ]⟩ () (textOf (lineText reflLines)) e ∧ ¬ Shown e := by
  refine ⟨?_, ?_⟩
  · intro E S ⟨x⟩ he h
    simp [reflProblem, wa, ProblemMeans, PStmt.meansL, PStmt.means, PRole.means, WForm.sat, PTm.valL, PTm.val, he] at h
  · obtain ⟨e, h, hb⟩ := runs_of (rw := none) (k := 1) (b := false) says_refl (forms_whole rfl) (by decide +kernel) one hφ
    exact ⟨e, h, by simp [hb]⟩

/-! ### A formula needed twice -/

def ind (s : String) : String × PTy := (s, .fn "$i" [])
def wf (t : PTm) : PTm := .fn "f" [t] none
def wpp (t : PTm) : WForm := .atom "p" [t]

def chainStep : WForm := .all [ind "X"] (.imp (wpp (.var "X")) (wpp (wf (.var "X"))))
def chainLines : List (List Char × List Char × WForm) :=
  [(['a'], axRole, wpp wa), (['b'], axRole, chainStep), (['g'], conjRole, wpp (wf (wf wa)))]
def chainProblem : List PStmt := [.form "a" .ax (wpp wa), .form "b" .ax chainStep, .form "g" .conj (wpp (wf (wf wa)))]

example : textOf (lineText chainLines) =
    "\nfof(a,axiom,p(a)).\nfof(b,axiom,! [X]:(p(X)=>p(f(X)))).\nfof(g,conjecture,p(f(f(a)))).\n".toList := by decide

theorem says_chain : Says inclFiles () (textOf (lineText chainLines)) 1 chainProblem :=
  .mk (n := 0) (piecesOk_spec (by decide +kernel))
    (by simp [lineText, chainLines, lineOf, toks, tmToks, tmsToks, varToks, pieceOf, wa, wf, wpp, chainStep, ind, lowSym])
    (lines_file _ (by decide)) (.form .axiom (.form .axiom (.form .conjecture .nil)))

/-- **C101 is violated by formulas that are needed twice** (C64): a universal formula is instantiated once, so no proof is shown though the conjecture
follows. -/
theorem C101_violated_instances (one : Bool) {φ : Format PS} (hφ : Speaks φ) : FollowsEq chainProblem ∧
    ∃ e, RunsIncr inclFiles (realU 9) none cfg0 ⟨true, one, [φ]⟩ () (textOf (lineText chainLines)) e ∧ ¬ Shown e := by
  refine ⟨?_, ?_⟩
  · intro E S ⟨x⟩ _ h
    simp [chainProblem, chainStep, wa, wf, wpp, ind, ProblemMeans, PStmt.meansL, PStmt.means, PRole.means, WForm.sat, PTm.valL, PTm.val,
      Engine.allNames, updN] at h
    obtain ⟨h1, h2, h3⟩ := h
    exact h3.2 (h2 (fun _ => x) _ (h2 (fun _ => x) _ (h1 fun _ => x)))
  · obtain ⟨e, h, hb⟩ := runs_of (rw := none) (k := 7) (b := false) says_chain (forms_whole rfl) (by decide +kernel) one hφ
    exact ⟨e, h, by simp [hb]⟩

/-! ### Branches closed one by one -/

def w2 (s : String) (t u : PTm) : WForm := .atom s [t, u]

def cycForm : WForm := .ex [ind "X", ind "Y", ind "Z", ind "W"]
  (.imp (.or (w2 "p" (.var "X") (wf (.var "Y"))) (w2 "q" (.var "Y") (wf (.var "X")))) (.or (w2 "p" (.var "Z") (.var "Z")) (w2 "q" (.var "W") (.var "W"))))
def cycLines : List (List Char × List Char × WForm) := [(['g'], conjRole, cycForm)]
def cycProblem : List PStmt := [.form "g" .conj cycForm]

example : textOf (lineText cycLines) =
    "\nfof(g,conjecture,? [X,Y,Z,W]:((p(X,f(Y))|q(Y,f(X)))=>(p(Z,Z)|q(W,W)))).\n".toList := by decide

theorem says_cyc : Says inclFiles () (textOf (lineText cycLines)) 1 cycProblem :=
  .mk (n := 0) (piecesOk_spec (by decide +kernel))
    (by simp [lineText, cycLines, lineOf, toks, tmToks, tmsToks, varToks, pieceOf, wf, w2, cycForm, ind, lowSym])
    (lines_file _ (by decide)) (.form .conjecture .nil)

/-- `f` is the successor, `p` says that its arguments differ, and so does `q`. -/
theorem cyc_not : ¬ FollowsEq cycProblem := by
  intro h
  refine h Nat ⟨fun _ l => l.headD 0 + 1, fun s l => if s = "=" then l.getD 0 0 = l.getD 1 0 else l.getD 0 0 ≠ l.getD 1 0⟩ ⟨0⟩ ?_ ?_
  · simp
  · simp [cycProblem, cycForm, w2, wf, ind, ProblemMeans, PStmt.meansL, PStmt.means, PRole.means, WForm.sat, PTm.valL, PTm.val, Engine.exNames, updN]
    omega

/-- **C101 is violated by branches that are closed one by one** (C64): the branches are closed by substitutions that do not agree (`X` is `f(Y)` and `Y`
is `f(X)`), and a proof is shown of a conjecture that is not a theorem. -/
theorem C101_violated_cycle (one : Bool) {φ : Format PS} (hφ : Speaks φ) : ¬ FollowsEq cycProblem ∧
    ∃ e, RunsIncr inclFiles (realU 9) none cfg0 ⟨true, one, [φ]⟩ () (textOf (lineText cycLines)) e ∧ Shown e := by
  refine ⟨cyc_not, ?_⟩
  obtain ⟨e, h, hb⟩ := runs_of (rw := none) (k := 9) (b := true) says_cyc (forms_whole rfl) (by decide +kernel) one hφ
  exact ⟨e, h, by simp [hb]⟩

theorem C101_statement_false : ¬ C101_statement := by
  intro h
  have hφ := basic_speaks fun _ => ⟨0, [], [], [], []⟩
  obtain ⟨h1, e, h2, h3⟩ := C101_violated_cycle true hφ
  exact h1 ((h _ _ _ _ _ _ _ _ _ _ _ (realU_faithful 9) hφ says_cyc h2).1 h3)

/-- The hypotheses of `C101_partial` are met: a proof is shown for this text with an include, and the conjecture follows. -/
example {φ : Format PS} (hφ : Speaks φ) : ∃ e, RunsIncr inclFiles (realU 9) none cfg0 ⟨true, true, [φ]⟩ () (textOf mainPieces) e ∧ Shown e ∧
    FollowsEq inclProblem := by
  obtain ⟨e, h, hb⟩ := runs_of (rw := none) (k := 2) (b := true) says_incl (fun st hs => ground_whole (ground_incl st hs)) (by decide +kernel) true hφ
  exact ⟨e, h, by simp [hb], (C101_partial (realU_faithful 9) hφ says_incl ground_incl h).1 (by simp [hb])⟩

end Verif.Whole
