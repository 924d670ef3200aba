import Verif.Whole.Program
/-!
# C88, C89: the verdict for a text, and the bound of the first round
-/

namespace Verif.Whole
open Verif.AST Verif.Engine Verif.Parser
open Verif.Search.Verdict
open Verif.Search.Main (Env Start Verdict NoPred Deep Choice Sys)

variable {fs : Files} {ar : String → Nat}

/-! ### C89: the bound of the first round -/

/-- **C89**: the bound of the first round is the one given with `-l`; if none is given (−1), it is the number of
quantifiers written in the files. -/
def C89_statement : Prop := ∀ (fs : Files) (d : fs.Dir) (lim : Int64) (s : List Char) (n : Nat) (P : List PStmt) (b : Int64) (q : Nat) (e : Bool),
  Says fs d s n P → (∀ st ∈ P, Whole st) → Reads fs d lim 0 false s P b q e → b = if lim = -1 then Int64.ofNat n else lim

/-- **C89, without `-l`**. -/
theorem C89_default {d : fs.Dir} {s : List Char} {n : Nat} {P : List PStmt} {b : Int64} {q : Nat} {e : Bool} (h : Says fs d s n P)
    (hw : ∀ st ∈ P, Whole st) (hr : Reads fs d (-1) 0 false s P b q e) : b = Int64.ofNat n := by
  obtain ⟨b', e', h1, h2⟩ := h.reads hw (-1) 0 false
  obtain ⟨-, rfl, -, -⟩ := hr.unique h1
  rw [h2 rfl, Nat.zero_add]

theorem readsL_given {d : fs.Dir} : ∀ {b q e ss P b' q' e'}, ReadsL fs d b q e ss P b' q' e' →
    (∀ sel f, .incl sel f ∈ P → PStmt.formsL f = 0) → b' = b
  | _, _, _, _, _, _, _, _, .nil, _ => rfl
  | _, _, _, _, _, _, _, _, .form h, hP => readsL_given h fun sel f hf => hP sel f (List.mem_cons_of_mem _ hf)
  | _, _, _, _, _, _, _, _, .incl _ _ h2, hP => by
    rw [readsL_given h2 fun sel f hf => hP sel f (List.mem_cons_of_mem _ hf), if_pos (hP _ _ (List.mem_cons_self ..))]
  | _, _, _, _, _, _, _, _, .missing _ h, hP => readsL_given h fun sel f hf => hP sel f (List.mem_cons_of_mem _ hf)

/-- **C89, with `-l`**, when no included file has a formula. -/
theorem C89_partial {d : fs.Dir} {lim : Int64} {s : List Char} {P : List PStmt} {b : Int64} {q : Nat} {e : Bool}
    (hi : ∀ sel f, .incl sel f ∈ P → PStmt.formsL f = 0) (hl : lim ≠ -1) (hr : Reads fs d lim 0 false s P b q e) : b = lim := by
  cases hr with
  | mk h1 h2 h3 => rw [readsL_given h3 hi, if_neg hl]

theorem readsL_any {d : fs.Dir} : ∀ {b q e ss P b' q' e'}, ReadsL fs d b q e ss P b' q' e' →
    (∃ sel f, .incl sel f ∈ P ∧ PStmt.formsL f ≠ 0) → ∀ b2, ReadsL fs d b2 q e ss P b' q' e'
  | _, _, _, _, _, _, _, _, .nil, ⟨_, _, h, _⟩, _ => by cases h
  | _, _, _, _, _, _, _, _, .form h, ⟨sel, f, hm, hf⟩, b2 => by
    rcases List.mem_cons.1 hm with hm | hm
    · cases hm
    · exact .form (readsL_any h ⟨sel, f, hm, hf⟩ b2)
  | _, _, _, _, _, _, _, _, .incl (P1 := P1) h0 h1 h2, ⟨sel, f, hm, hf⟩, b2 => by
    rcases List.mem_cons.1 hm with hm | hm
    · cases hm
      rw [if_neg hf] at h2
      exact .incl h0 h1 (by rw [if_neg hf]; exact h2)
    · exact .incl h0 h1 (readsL_any h2 ⟨sel, f, hm, hf⟩ _)
  | _, _, _, _, _, _, _, _, .missing h0 h, ⟨sel, f, hm, hf⟩, b2 => by
    rcases List.mem_cons.1 hm with hm | hm
    · cases hm
    · exact .missing h0 (readsL_any h ⟨sel, f, hm, hf⟩ b2)

/-- **C89 is violated by includes**: as soon as the main file includes a file with a formula, the bound given with `-l` is not used: the bound of the
first round is the number of quantifiers, as without `-l`. -/
theorem C89_ignored {d : fs.Dir} {lim : Int64} {s : List Char} {n : Nat} {P : List PStmt} {b : Int64} {q : Nat} {e : Bool} (h : Says fs d s n P)
    (hw : ∀ st ∈ P, Whole st) (hi : ∃ sel f, .incl sel f ∈ P ∧ PStmt.formsL f ≠ 0) (hr : Reads fs d lim 0 false s P b q e) :
    b = Int64.ofNat n := by
  cases hr with
  | mk h1 h2 h3 => exact C89_default h hw (.mk h1 h2 (readsL_any h3 hi _))

/-! ### C88: the verdict -/

/-- The model of the parts the search depends on is that of the code: the index, the symbol of equality, outer Skolemization. -/
structure EnvOk (e : Env) : Prop where
  index : Deep e.U
  fuel : 0 < e.fuel
  eq : e.eq = eqId
  sko : ∀ l g, e.sko l g = l

open Classical in
/-- The verdict a problem deserves: that its conjecture is a theorem or not; if it has no conjecture, that it is
unsatisfiable or not. (A negated conjecture is taken for a conjecture, see C35.) -/
noncomputable def verdict (P : List PStmt) : Line := deserved (decide (0 < PStmt.conjsL P)) (decide (Follows P))

/-- **C88**: whatever the program prints for the text of a problem is the verdict it deserves. -/
def C88_statement : Prop := ∀ (fs : Files) (e : Env) (cfg : Cfg) (d : fs.Dir) (s : List Char) (n : Nat) (P : List PStmt) (l : Line),
  EnvOk e → Says fs d s n P → Prints fs e cfg d s l → l = verdict P

theorem follows_closed {fl : Bool} {typeOk : Form → Bool} {P : List PStmt} (hg : ∀ st ∈ P, PStmt.Ground ar st) {f : Form} {c : Bool}
    {m : Maker} (h : presearch fl (fun _ => false) typeOk initMaker P = .search f c m) :
    Follows P ↔ ∀ (D : Type) (I : Interp D) (μ ρ : Nat → D), ¬ Form.holds I μ ρ f := by
  have key := (C43_meaning_partial.{0} fl typeOk lexNone (by intro s h; exact h.elim) (fun _ h => h) initMaker Inv_init P
    (fun s hs => PStmt.ground_fof (hg s hs)) f c m h).2
  constructor
  · intro hF D I μ ρ hh
    obtain ⟨S, hn, hS⟩ := (key D).1 ⟨I, μ, ρ, hh⟩
    exact hF D S hn hS
  · intro hF E S hn hS
    obtain ⟨I, μ, ρ, hh⟩ := (key E).2 ⟨S, hn, hS⟩
    exact hF E I μ ρ hh

theorem printResult_deserved (conj res : Bool) : printResult conj res = deserved conj res := by
  cases conj <;> cases res <;> rfl

/-- **C88 for problems without quantifiers and equality**, spread over files included as a whole, each symbol having one
arity: whatever the options and the schedules, what is printed is the verdict the problem deserves. Missing: quantifiers and
equality. -/
theorem C88_partial {e : Env} {cfg : Cfg} {d : fs.Dir} {s : List Char} {n : Nat} {P : List PStmt} {l : Line} (he : EnvOk e)
    (hs : Says fs d s n P) (hg : ∀ st ∈ P, PStmt.Ground ar st) (h : Prints fs e cfg d s l) : l = verdict P := by
  obtain ⟨P', b, q, eq, f, c, m, outcome, res, t, h1, h2, -, h4, h5, h6⟩ := h
  obtain ⟨b', e', r1, -⟩ := hs.reads (fun st h => ground_whole (hg st h)) cfg.limit 0 false
  obtain ⟨rfl, rfl, -, -⟩ := h1.unique r1
  obtain ⟨hp, hq⟩ := presearch_ground cfg.flatten cfg.typeOk P' hg f c m h2
  obtain ⟨k, rfl, hf⟩ := h4
  obtain ⟨i, i1, i2, i3, i4, i5, i6⟩ := (inv_after cfg.opts _ b outcome k).done res hf
  rw [i4, List.mem_singleton] at h6
  obtain ⟨st, -, hv⟩ := h5 i (by omega)
  have hex := Verif.Search.Main.C65_ground_exact he.index he.fuel st _ hp (by rw [he.eq]; exact hq) _ hv
  rw [i2, ← follows_closed hg h2] at hex
  rw [h6, printResult_deserved, verdict]
  congr 1
  cases res <;> simp at hex <;> simp [hex]

/-- **C88, the program answers**: the text of a problem without quantifiers and equality, with at least one formula and at most one
conjecture in a file, gets a verdict if `-l` is not used, or if only one round is run, or if the conjecture follows. The index must answer for
ground atoms (`C30_ground_answers`). -/
theorem C88_answers {e : Env} {cfg : Cfg} {d : fs.Dir} {s : List Char} {n : Nat} {P : List PStmt} (he : EnvOk e)
    (hans : ∀ ar, Verif.Search.Incr.Answers ar e.U) (hs : Says fs d s n P) (hg : ∀ st ∈ P, PStmt.Ground ar st)
    (hok : FileOk P) (hn : PStmt.formsL P ≠ 0) (ho : cfg.limit = -1 ∨ cfg.opts.oneStep = true ∨ Follows P) :
    ∃ l, Prints fs e cfg d s l := by
  obtain ⟨b, e', r1, r2⟩ := hs.reads (fun st h => ground_whole (hg st h)) cfg.limit 0 false
  obtain ⟨f, m, h2⟩ := (C43_outcome_partial cfg.flatten cfg.typeOk lexNone (by intro s h; exact h.elim) (fun _ h => h) initMaker Inv_init P
    (fun s hs => PStmt.ground_fof (hg s hs)) hok).2 hn
  obtain ⟨hp, hq⟩ := presearch_ground cfg.flatten cfg.typeOk P hg f _ m h2
  have hv : ∃ closed, Verdict e ⟨0, m.cpt⟩ (limitAt b 0).toNatClampNeg f closed ∧ (closed = true ↔ Follows P) := by
    obtain ⟨cs', s', closed, k1, k2, k3⟩ := Verif.Search.Main.C65_ground_decides he.index he.fuel (hans _) ⟨0, m.cpt⟩ (limitAt b 0).toNatClampNeg hp
      (by rw [he.eq]; exact hq) [] _ rfl
    exact ⟨closed, ⟨s', ⟨_, k1⟩, k2⟩, k3.trans (follows_closed hg h2).symm⟩
  obtain ⟨closed, hv, hc⟩ := hv
  have hfin : closed = true ∨ ¬ 0 < b ∨ cfg.opts.oneStep = true := by
    rcases ho with h | h | h
    · right; left
      rw [r2 h, hs.none hg]
      decide
    · exact .inr (.inr h)
    · exact .inl (hc.2 h)
  have hone : (after cfg.opts (decide (0 < PStmt.conjsL P)) b (fun _ => closed) 1).finished = some closed ∧
      (after cfg.opts (decide (0 < PStmt.conjsL P)) b (fun _ => closed) 1).round = 1 := by
    have : (!closed && decide (0 < b) && !cfg.opts.oneStep) = false := by
      rcases hfin with h | h | h <;> simp [h]
    simp [after, start, iter, oneStep, this]
  obtain ⟨i, i1, -, -, i4, -⟩ := (inv_after cfg.opts (decide (0 < PStmt.conjsL P)) b (fun _ => closed) 1).done closed hone.1
  refine ⟨printResult (decide (0 < PStmt.conjsL P)) closed, P, b, _, e', f, false, m, fun _ => closed, closed, _, r1, h2, hq, ⟨1, rfl, hone.1⟩, ?_, ?_⟩
  · intro k hk
    rw [hone.2] at hk
    have : k = 0 := by omega
    subst this
    exact ⟨_, Nat.le_refl _, hv⟩
  · rw [i4]; simp

/-- **C88, no round hangs or crashes**: every schedule of a round of such a problem is of bounded length and can be continued to a
verdict. -/
theorem C88_rounds {e : Env} {cfg : Cfg} {P : List PStmt} (he : EnvOk e) (hans : ∀ ar, Verif.Search.Incr.Answers ar e.U)
    (hg : ∀ st ∈ P, PStmt.Ground ar st) {f : Form} {c : Bool} {m : Maker}
    (h : presearch cfg.flatten (fun _ => false) cfg.typeOk initMaker P = .search f c m) (st : Start) (limit : Nat) :
    ∃ N, ∀ (cs : List Choice) (s : Sys), (Verif.Search.Main.start limit f).run e st cs = some s → cs.length ≤ N ∧
      ∃ cs' s' closed, (Verif.Search.Main.start limit f).run e st (cs ++ cs') = some s' ∧ s'.result = some closed ∧ (closed = true ↔ Follows P) := by
  obtain ⟨hp, hq⟩ := presearch_ground cfg.flatten cfg.typeOk P hg f _ m h
  rw [← he.eq] at hq
  refine ⟨_, fun cs s hr => ⟨Verif.Search.Main.C65_ground_ends he.index he.fuel st limit hp hq cs s hr, ?_⟩⟩
  obtain ⟨cs', s', closed, k1, k2, k3⟩ := Verif.Search.Main.C65_ground_decides he.index he.fuel (hans _) st limit hp hq cs s hr
  exact ⟨cs', s', closed, k1, k2, k3.trans (follows_closed hg h).symm⟩

/-- **C88, with `-l`**: a problem of one file that deserves a negative verdict does not get it if a positive bound is given, unless
`-one_step` is: the rounds go on for ever. -/
theorem C88_limit_never {e : Env} {cfg : Cfg} {d : fs.Dir} {s : List Char} {n : Nat} {P : List PStmt} (he : EnvOk e)
    (hs : Says fs d s n P) (hg : ∀ st ∈ P, PStmt.Ground ar st) (hi : ∀ sel f, .incl sel f ∉ P) (hl : 0 < cfg.limit)
    (ho : cfg.opts.oneStep = false) (hF : ¬ Follows P) (l : Line) : ¬ Prints fs e cfg d s l := by
  intro h
  have hv := C88_partial he hs hg h
  obtain ⟨P', b, q, eq, f, c, m, outcome, res, t, h1, h2, -, h4, h5, h6⟩ := h
  obtain ⟨b', e', r1, -⟩ := hs.reads (fun st h => ground_whole (hg st h)) cfg.limit 0 false
  obtain ⟨rfl, rfl, -, -⟩ := h1.unique r1
  have hb := C89_partial (fun sel f h => absurd h (hi sel f)) (by intro h; rw [h] at hl; exact absurd hl (by decide)) h1
  obtain ⟨k, rfl, hf⟩ := h4
  obtain ⟨i, i1, i2, i3, i4, i5, i6⟩ := (inv_after cfg.opts _ b outcome k).done res hf
  rw [i4, List.mem_singleton] at h6
  rw [h6, printResult_deserved, verdict] at hv
  rcases i5 with h | h | h
  · subst h
    simp only [hF, decide_false] at hv
    cases hd : decide (0 < PStmt.conjsL P') <;> rw [hd] at hv <;> cases hv
  · exact h (by rw [hb]; exact hl)
  · rw [ho] at h; cases h

end Verif.Whole
