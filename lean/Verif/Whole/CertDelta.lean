import Verif.Whole.Certificates
import Verif.Whole.DeltaCases
import Verif.Search.MainProofDelta
/-!
# C102: problems whose quantifiers all assert the existence of something

The proof the main search hands on for the text of such a problem is a closed tableau; the GS3 module makes a refutation from it if each quantified
variable occurs in its formula. A text where one does not.
-/

namespace Verif.Whole
open Verif.AST Verif.Engine Verif.Parser
open Verif.Search.Main (Env Start Choice Sys start finalProof Used UsedL Tableau)
open Verif.Gs3 (PS)

variable {fs : Files} {ar : String → Nat}

theorem states_delta {fl : Bool} {typeOk : Form → Bool} {P : List PStmt} (hg : ∀ st ∈ P, Delta ar st) {f : Form} {c : Bool}
    {m : Maker} (h : presearch fl (fun _ => false) typeOk initMaker P = .search f c m) : States P f :=
  fun E => (C43_meaning_partial.{0} fl typeOk lexNames (fun _ h => var_user h) (fun _ h => sym_user h) initMaker Inv_init P
    (fun s hs => (hg s hs).fof) f c m h).2 E

/-- **C102 for the main search (partial)**, problems without equality whose quantifiers all assert the existence of something: whatever the options and
the schedule, the proof is a closed tableau for a formula that states the problem; if each quantified variable occurs in its formula, the GS3 module
makes a refutation from it. Missing: other quantifiers, equality, and variables that do not occur (`C102_violated_idle`). -/
theorem C102_delta_partial {e : Env} {cfg : Cfg} {d : fs.Dir} {s : List Char} {n : Nat} {P : List PStmt} {f : Form} {pr : List PS} (he : EnvOk e)
    (hs : Says fs d s n P) (hg : ∀ st ∈ P, Delta ar st) (h : HandsMain fs e cfg d s f pr) :
    States P f ∧ Tableau true [f] pr ∧ (Used f → Checked f pr) := by
  obtain ⟨P', b, q, eq, c, m, h1, h2, st, limit, cnt, cs, sys, hc, h3, h4, rfl⟩ := h
  obtain ⟨b', e', r1, -⟩ := hs.reads (fun st h => in_whole (hg st h)) cfg.limit 0 false
  obtain ⟨rfl, rfl, -, -⟩ := h1.unique r1
  obtain ⟨a1, a2, a3, a4⟩ := delta_search he hg h2 st hc
  exact ⟨states_delta hg h2, Verif.Search.Main.C93_delta_partial he.index he.fuel st a1 limit cnt a2 a3 a4 cs sys h3 h4,
    fun hu g => Verif.Search.Main.C93_delta_gs3 he.index he.fuel st a1 limit cnt a2 a3 hu a4 cs sys h3 h4 g⟩

/-- **C102, a proof is found** for every such problem that follows, if it has at least one formula and at most one conjecture in a file and the index
answers for ground atoms (`C30_ground_answers`). -/
theorem C102_delta_exists {e : Env} {cfg : Cfg} {d : fs.Dir} {s : List Char} {n : Nat} {P : List PStmt} (he : EnvOk e)
    (hans : ∀ ar, Verif.Search.Incr.Answers ar e.U) (hs : Says fs d s n P) (hg : ∀ st ∈ P, Delta ar st) (hok : FileOk P)
    (hn : PStmt.formsL P ≠ 0) (hF : Follows P) :
    ∃ f pr, HandsMain fs e cfg d s f pr ∧ States P f ∧ Tableau true [f] pr ∧ (Used f → Checked f pr) := by
  obtain ⟨l, hl⟩ := C88_delta_answers he hans (cfg := cfg) hs hg hok hn (.inr hF)
  have hv := C88_delta_partial he hs hg hl
  simp only [verdict, hF, decide_true] at hv
  subst hv
  obtain ⟨f, pr, h⟩ := C102_printed hl
  exact ⟨f, pr, h, C102_delta_partial he hs hg h⟩

/-- The formula searched for `! [X]:(p(X)=>p(X))`. -/
def selfForm : Form := .neg (.all [⟨"X3", 4, .constr "$i" []⟩] (.imp (.pred 2 [] [.var 4]) (.pred 2 [] [.var 4])))

/-- A proof that can be checked is found for this text. -/
example : ∃ pr, HandsMain inclFiles env cfg0 () (textOf selfPieces) selfForm pr ∧ States selfProblem selfForm ∧ Checked selfForm pr := by
  obtain ⟨f, pr, h, h1, -, h2⟩ := C102_delta_exists (cfg := cfg0) env_ok (fun _ => Verif.Search.Incr.anyU_answers) says_self delta_self
    (.mk (by decide) (by simp [selfProblem, incls])) (by decide) self_follows
  have hf : f = selfForm := by
    obtain ⟨P, b, q, eq, c, m, k1, k2, -⟩ := h
    obtain ⟨b', e', r1, -⟩ := says_self.reads (fun st h => in_whole (delta_self st h)) cfg0.limit 0 false
    obtain ⟨rfl, rfl, -, -⟩ := k1.unique r1
    obtain ⟨m', hm⟩ := Outcome.sent_some (c := false) (f := selfForm)
      (o := presearch false (fun _ => false) (fun _ => true) initMaker selfProblem) (by decide +kernel)
    cases k2.symm.trans hm
    rfl
  subst hf
  exact ⟨pr, h, h1, h2 (by simp [selfForm, Used, Verif.Gs3.allVars, Term.varsL, Term.vars])⟩

/-! ### A quantifier without its variable -/

def idleLines : List (List Char × List Char × WForm) := [(['h'], axRole, .ex [ind "X"] (wpp wa)), (['g'], conjRole, wpp wa)]
def idleProblem : List PStmt := [.form "h" .ax (.ex [ind "X"] (wpp wa)), .form "g" .conj (wpp wa)]

def idleForm : Form := .and [.ex [⟨"X4", 5, .constr "$i" []⟩] (.pred 3 [] [.fn 2 [] []]), .neg (.pred 3 [] [.fn 2 [] []])]
def idleSchedule : List Choice := [.proc [] (.own 0), .proc [] (.own 0), .proc [] (.own 0), .result]

example : textOf (lineText idleLines) = "\nfof(h,axiom,? [X]:p(a)).\nfof(g,conjecture,p(a)).\n".toList := by decide

theorem says_idle : Says inclFiles () (textOf (lineText idleLines)) 1 idleProblem :=
  .mk (n := 0) (piecesOk_spec (by decide +kernel))
    (by simp [lineText, idleLines, lineOf, toks, tmToks, tmsToks, varToks, pieceOf, wa, wpp, ind, lowSym])
    (lines_file _ (by decide)) (.form .axiom (.form .conjecture .nil))

theorem idle_follows : Follows idleProblem := by
  intro E S _ h
  simp [idleProblem, ProblemMeans, PStmt.meansL, PStmt.means, PRole.means, wpp, wa, ind, WForm.sat, PTm.valL, PTm.val, Engine.exNames] at h

/-- **C102 is violated by a quantifier whose variable does not occur** (C67): the conjecture of this text of two lines follows and the main search
finds it, but the GS3 module makes no refutation from the proof. -/
theorem C102_violated_idle : Follows idleProblem ∧ ¬ Used idleForm ∧
    ∃ pr, HandsMain inclFiles env20 cfg0 () (textOf (lineText idleLines)) idleForm pr ∧ ¬ Checked idleForm pr := by
  refine ⟨idle_follows, by simp [idleForm, Used, UsedL, Verif.Gs3.allVars, Term.varsL, Term.vars],
    finalProof env20 ⟨0, 100⟩ 3 0 idleForm idleSchedule, ?_, ?_⟩
  · obtain ⟨b', e', r1, -⟩ := says_idle.reads (forms_whole rfl) cfg0.limit 0 false
    obtain ⟨m, hm⟩ := Outcome.sent_some (c := false) (f := idleForm)
      (o := presearch false (fun _ => false) (fun _ => true) initMaker idleProblem) (by decide +kernel)
    have hc : m.cpt ≤ 100 := by
      have : cptOf (presearch false (fun _ => false) (fun _ => true) initMaker idleProblem) ≤ 100 := by decide +kernel
      rw [hm] at this
      exact this
    have : ((start 3 idleForm).run env20 ⟨0, 100⟩ idleSchedule).map (·.result) = some (some true) := by decide +kernel
    obtain ⟨sys, hs, hr⟩ := Option.map_eq_some_iff.1 this
    exact ⟨idleProblem, _, _, e', false, m, r1, hm, ⟨0, 100⟩, 3, 0, idleSchedule, sys, hc, hs, hr, rfl⟩
  · intro h
    exact Verif.Gs3.wrong_refutes (m := 3) (by decide +kernel) (h ⟨fun p => decide (100 ≤ p), false, 0⟩)

end Verif.Whole
