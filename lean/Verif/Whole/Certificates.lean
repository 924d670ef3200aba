import Verif.Whole.IncrAnswers
import Verif.Search.MainProofGround
/-!
# C102: the proof found for the text of a problem can be checked

From the text of a problem to the sequent proof that the outputs write: reading, search (both of them) and translation by the GS3 module together.
-/

namespace Verif.Whole
open Verif.AST Verif.Engine Verif.Parser
open Verif.Search.Incr (Oracle Faithful Note)
open Verif.Search.Main (Env Start Choice Sys start finalProof)
open Verif.Gs3 (PS)

variable {fs : Files} {ar : String → Nat}

/-! ### Model -/

/-- The main search run on a text without `-dmt` finds the formula `f` of the problem closed and hands on the proof `pr` (`main`, src/main.go:74-126;
`manageResult`, src/Search/destructive.go:1412-1427). The Skolem symbols are not those of the problem. -/
def HandsMain (fs : Files) (e : Env) (cfg : Cfg) (d : fs.Dir) (s : List Char) (f : Form) (pr : List PS) : Prop :=
  ∃ P b q eq c m, Reads fs d cfg.limit 0 false s P b q eq ∧ presearch cfg.flatten (fun _ => false) cfg.typeOk initMaker P = .search f c m ∧
    ∃ (st : Start) (limit cnt : Nat) (cs : List Choice) (sys : Sys), m.cpt ≤ st.sk ∧ (start limit f).run e st cs = some sys ∧
      sys.result = some true ∧ pr = finalProof e st limit cnt f cs

/-- The same for the incremental search (`Search` and `handleSearchResults`, src/Search/incremental/search.go:24-38). -/
def HandsIncr (fs : Files) (U : Oracle) (cfg : Cfg) (d : fs.Dir) (s : List Char) (f : Form) (pr : List PS) : Prop :=
  ∃ P b q eq c m, Reads fs d cfg.limit 0 false s P b q eq ∧ presearch cfg.flatten (fun _ => false) cfg.typeOk initMaker P = .search f c m ∧
    ∃ mv sk sched st notes, m.cpt ≤ sk ∧ (Verif.Search.Incr.St.init f mv sk).runN U sched (fun _ => {}) = some (st, notes) ∧ st.agenda = [] ∧
      st.treeClosed (st.nodes.length + 1) 0 = true ∧ st.proof notes = some pr

/-! ### Specification -/

/-- The GS3 module makes a refutation of `f` from the proof `pr`, whatever its options are. -/
def Checked (f : Form) (pr : List PS) : Prop :=
  ∀ g : Verif.Gs3.Cfg, ∃ N, ∀ n, N ≤ n → ∃ a h T, Verif.Gs3.makeGS3 g n pr = .ok (a, h) ∧ Verif.Gs3.Repr 0 h a T ∧ Verif.Gs3.valid [f] T = true

/-- The formula `f` states that the axioms of the problem are true and its conjecture is not: it can be made true with the elements of `E` exactly if
some structure with these elements does so to the problem. -/
def States (P : List PStmt) (f : Form) : Prop :=
  ∀ E : Type, (∃ (I : Interp E) (μ ρ : Nat → E), Form.holds I μ ρ f) ↔ ∃ S : Str E, Nonempty E ∧ ProblemMeans S P

/-- **C102**: what a search hands on for the text of a problem is made into a refutation of the problem. -/
def C102_statement : Prop :=
  (∀ (fs : Files) (e : Env) (cfg : Cfg) (d : fs.Dir) (s : List Char) (n : Nat) (P : List PStmt) (f : Form) (pr : List PS), EnvOk e →
    Says fs d s n P → HandsMain fs e cfg d s f pr → States P f ∧ Checked f pr) ∧
  (∀ (fs : Files) (U : Oracle) (cfg : Cfg) (d : fs.Dir) (s : List Char) (n : Nat) (P : List PStmt) (f : Form) (pr : List PS), Faithful U →
    Says fs d s n P → HandsIncr fs U cfg d s f pr → States P f ∧ Checked f pr)

/-! ### Problems without quantifiers -/

theorem states_ground {fl : Bool} {typeOk : Form → Bool} {P : List PStmt} (hg : ∀ st ∈ P, PStmt.Ground ar st) {f : Form} {c : Bool}
    {m : Maker} (h : presearch fl (fun _ => false) typeOk initMaker P = .search f c m) : States P f := by
  have key := (C43_meaning_partial.{0} fl typeOk lexNone (by intro s h; exact h.elim) (fun _ h => h) initMaker Inv_init P
    (fun s hs => PStmt.ground_fof (hg s hs)) f c m h).2
  exact fun E => key E

/-- **C102 for the main search (partial)**, problems without quantifiers and equality, spread over files included as a whole, each symbol having one
arity: whatever the options and the schedule, the proof is made into a refutation of the problem. Missing: quantifiers and equality. -/
theorem C102_main_partial {e : Env} {cfg : Cfg} {d : fs.Dir} {s : List Char} {n : Nat} {P : List PStmt} {f : Form} {pr : List PS} (he : EnvOk e)
    (hs : Says fs d s n P) (hg : ∀ st ∈ P, PStmt.Ground ar st) (h : HandsMain fs e cfg d s f pr) : States P f ∧ Checked f pr := by
  obtain ⟨P', b, q, eq, c, m, h1, h2, st, limit, cnt, cs, sys, -, h3, h4, rfl⟩ := h
  obtain ⟨b', e', r1, -⟩ := hs.reads (fun st h => ground_whole (hg st h)) cfg.limit 0 false
  obtain ⟨rfl, rfl, -, -⟩ := h1.unique r1
  obtain ⟨hp, hq⟩ := presearch_ground cfg.flatten cfg.typeOk P' hg f c m h2
  exact ⟨states_ground hg h2, fun g => Verif.Search.Main.C93_ground_gs3 he.index he.fuel st limit cnt hp (by rw [he.eq]; exact hq) cs sys h3 h4 g⟩

/-- **C102 for the incremental search (partial)**, on the same problems. -/
theorem C102_incr_partial {U : Oracle} {cfg : Cfg} {d : fs.Dir} {s : List Char} {n : Nat} {P : List PStmt} {f : Form} {pr : List PS} (hU : Faithful U)
    (hs : Says fs d s n P) (hg : ∀ st ∈ P, PStmt.Ground ar st) (h : HandsIncr fs U cfg d s f pr) : States P f ∧ Checked f pr := by
  obtain ⟨P', b, q, eq, c, m, h1, h2, mv, sk, sched, st, notes, -, h3, -, h4, h5⟩ := h
  obtain ⟨b', e', r1, -⟩ := hs.reads (fun st h => ground_whole (hg st h)) cfg.limit 0 false
  obtain ⟨rfl, rfl, -, -⟩ := h1.unique r1
  obtain ⟨hp, -⟩ := presearch_ground cfg.flatten cfg.typeOk P' hg f c m h2
  obtain ⟨pr', h6, ht⟩ := Verif.Search.Incr.C95_ground_partial hU hp (presearch_wide _ _ _ _ _ h2) mv sk sched st notes h3 h4
  obtain rfl : pr = pr' := Option.some.inj (h5.symm.trans h6)
  exact ⟨states_ground hg h2, fun g => Verif.Gs3.C67_ordered_partial g f _ (ht.closed (by simpa using hp)) ht.head⟩

/-- A refutation of what states the problem shows that the conjecture follows. -/
theorem C102_means {P : List PStmt} {f : Form} {pr : List PS} (hf : States P f) (hc : Checked f pr) : Follows P := by
  obtain ⟨N, hN⟩ := hc ⟨fun _ => false, false, 0⟩
  obtain ⟨a, h, T, -, -, hT⟩ := hN N (Nat.le_refl _)
  intro E S hn hS
  obtain ⟨I, μ, ρ, hh⟩ := (hf E).2 ⟨S, hn, hS⟩
  exact Verif.Gs3.C67_valid_sound T hT E I μ ρ (by simpa using hh)

/-- **C102, every positive verdict has its proof**: when the program says that a conjecture is a theorem, or that a problem without conjecture is
unsatisfiable, a round of the search has handed on a proof. This holds for every text. -/
theorem C102_printed {e : Env} {cfg : Cfg} {d : fs.Dir} {s : List Char} {conj : Bool}
    (h : Prints fs e cfg d s (Verif.Search.Verdict.deserved conj true)) : ∃ f pr, HandsMain fs e cfg d s f pr := by
  obtain ⟨P, b, q, eq, f, c, m, outcome, res, t, h1, h2, -, h4, h5, h6⟩ := h
  obtain ⟨k, rfl, hf⟩ := h4
  obtain ⟨i, i1, i2, i3, i4, i5, i6⟩ := (Verif.Search.Verdict.inv_after cfg.opts _ b outcome k).done res hf
  rw [i4, List.mem_singleton, printResult_deserved] at h6
  have hr : res = true := by
    cases res with
    | true => rfl
    | false => revert h6; cases conj <;> cases decide (0 < PStmt.conjsL P) <;> intro h6 <;> exact absurd h6 (by decide)
  obtain ⟨st, hst, sys, ⟨cs, hcs⟩, hv⟩ := h5 i (by omega)
  rw [i2, hr] at hv
  exact ⟨f, _, P, b, q, eq, c, m, h1, h2, st, _, 0, cs, sys, hst, hcs, hv, rfl⟩

/-- **C102, a proof that can be checked is found** by the main search for every such problem that follows, if it has at least one formula and at most
one conjecture in a file and the index answers for ground atoms (`C30_ground_answers`). -/
theorem C102_main_exists {e : Env} {cfg : Cfg} {d : fs.Dir} {s : List Char} {n : Nat} {P : List PStmt} (he : EnvOk e)
    (hans : ∀ ar, Verif.Search.Incr.Answers ar e.U) (hs : Says fs d s n P) (hg : ∀ st ∈ P, PStmt.Ground ar st) (hok : FileOk P)
    (hn : PStmt.formsL P ≠ 0) (hF : Follows P) : ∃ f pr, HandsMain fs e cfg d s f pr ∧ States P f ∧ Checked f pr := by
  obtain ⟨l, hl⟩ := C88_answers he hans (cfg := cfg) hs hg hok hn (.inr (.inr hF))
  have hv := C88_partial he hs hg hl
  simp only [verdict, hF, decide_true] at hv
  subst hv
  obtain ⟨f, pr, h⟩ := C102_printed hl
  exact ⟨f, pr, h, C102_main_partial he hs hg h⟩

/-- What is shown with `-incr` and `-proof` is a proof that the search hands on. This holds for every text. -/
theorem C102_shown {U : Oracle} {cfg : Cfg} {one : Bool} {φ : Verif.Search.Output.Format PS} (hφ : Speaks φ) {d : fs.Dir} {s : List Char}
    {e : Verif.Search.Output.End} (h : RunsIncr fs U none cfg ⟨true, one, [φ]⟩ d s e) (hsh : Shown e) : ∃ f pr, HandsIncr fs U cfg d s f pr := by
  obtain ⟨P, b, q, eq, f, c, m, h1, h2, mv, sk, sched, st, notes, pr, h0, h3, h4, h5, rfl⟩ := h
  rw [shown_iff hφ] at hsh
  cases hc : st.treeClosed (st.nodes.length + 1) 0 with
  | false => simp [hc] at hsh
  | true => exact ⟨f, pr, P, b, q, eq, c, m, h1, h2, mv, sk, sched, st, notes, h0, h3, h4, hc, h5⟩

/-- The same with the incremental search. -/
theorem C102_incr_exists {U : Oracle} {cfg : Cfg} {d : fs.Dir} {s : List Char} {n : Nat} {P : List PStmt} (hU : Faithful U)
    (hans : ∀ ar, Verif.Search.Incr.Answers ar U) (hs : Says fs d s n P) (hg : ∀ st ∈ P, PStmt.Ground ar st) (hok : FileOk P)
    (hn : PStmt.formsL P ≠ 0) (hF : Follows P) : ∃ f pr, HandsIncr fs U cfg d s f pr ∧ States P f ∧ Checked f pr := by
  have hφ := basic_speaks fun _ => ⟨0, [], [], [], []⟩
  obtain ⟨e, h1, h2⟩ := C101_answers (cfg := cfg) (one := true) hU hans hφ hs hg hok hn
  obtain ⟨f, pr, h⟩ := C102_shown hφ h1 (h2.2 ((followsEq_iff hg).2 hF))
  exact ⟨f, pr, h, C102_incr_partial hU hs hg h⟩

/-! ### Texts for which it fails -/

/-- **C102 is violated by branches that are closed one by one** (C64): for this text of one line the incremental search hands on a proof; the formula
states the problem, which does not follow, so no refutation can be made. -/
theorem C102_violated_cycle : ∃ f pr, HandsIncr inclFiles (Verif.Search.Incr.realU 9) cfg0 () (textOf (lineText cycLines)) f pr ∧
    ¬ (States cycProblem f ∧ Checked f pr) := by
  have hφ := basic_speaks fun _ => ⟨0, [], [], [], []⟩
  obtain ⟨h1, e, h2, h3⟩ := C101_violated_cycle true hφ
  obtain ⟨f, pr, h⟩ := C102_shown hφ h2 h3
  exact ⟨f, pr, h, fun ⟨k1, k2⟩ => h1 fun E S hn _ hS => C102_means k1 k2 E S hn hS⟩

/-- **C102 is violated by the renaming of variables** (C43): for this text of two lines the main search hands on a proof of another problem. -/
theorem C102_violated_capture : ∃ f pr, HandsMain inclFiles env20 ⟨-1, false, fun _ => true, ⟨false, false⟩⟩ () (textOf capPieces) f pr ∧
    ¬ (States captureFile f ∧ Checked f pr) := by
  obtain ⟨f, pr, h⟩ := C102_printed (conj := true) C88_violated_capture.1
  exact ⟨f, pr, h, fun ⟨k1, k2⟩ => C88_violated_capture.2 (C102_means k1 k2)⟩

theorem C102_statement_false : ¬ C102_statement := by
  intro h
  obtain ⟨f, pr, h1, h2⟩ := C102_violated_capture
  exact h2 (h.1 _ _ _ _ _ _ _ _ _ env20_ok says_cap h1)

/-- Nor does it hold for the incremental search alone. -/
theorem C102_statement_false_incr : ¬ ∀ (fs : Files) (U : Oracle) (cfg : Cfg) (d : fs.Dir) (s : List Char) (n : Nat) (P : List PStmt) (f : Form)
    (pr : List PS), Faithful U → Says fs d s n P → HandsIncr fs U cfg d s f pr → States P f ∧ Checked f pr := by
  intro h
  obtain ⟨f, pr, h1, h2⟩ := C102_violated_cycle
  exact h2 (h _ _ _ _ _ _ _ _ _ (Verif.Search.Incr.realU_faithful 9) says_cyc h1)

/-! ### A case -/

theorem fileOk_incl : FileOk inclProblem :=
  .mk (by decide) (by
    intro f hf
    simp only [inclProblem, incls, List.mem_cons, List.not_mem_nil, or_false] at hf
    subst hf
    exact .mk (by decide) (by simp [incls]))

/-- Both searches find a proof that can be checked for the text with an include. -/
example : ∃ f pr, HandsIncr inclFiles Verif.Search.Incr.anyU cfg0 () (textOf mainPieces) f pr ∧ States inclProblem f ∧ Checked f pr :=
  C102_incr_exists (fun t a b l h => let ⟨n, x⟩ := Verif.Search.Incr.anyU_deep t a b l h; ⟨n + 2, x⟩) (fun _ => Verif.Search.Incr.anyU_answers) says_incl
    ground_incl fileOk_incl (by decide) incl_follows

example : ∃ f pr, HandsMain inclFiles ⟨Verif.Search.Incr.anyU, 1, eqId, fun l _ => l⟩ cfg0 () (textOf mainPieces) f pr ∧ States inclProblem f ∧ Checked f pr :=
  C102_main_exists ⟨Verif.Search.Incr.anyU_deep, by decide, rfl, fun _ _ => rfl⟩ (fun _ => Verif.Search.Incr.anyU_answers) says_incl ground_incl
    fileOk_incl (by decide) incl_follows

end Verif.Whole
