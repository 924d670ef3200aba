import Verif.Whole.Props
import Verif.Whole.Delta
/-!
# C88 for problems whose quantifiers all assert the existence of something
-/

namespace Verif.Whole
open Verif.AST Verif.Engine Verif.Parser
open Verif.Search.Verdict
open Verif.Search.Main (Env Start Verdict NoPred Deep Choice Sys)

variable {fs : Files} {ar : String → Nat}

/-! ### Names -/

/-- The name begins with a capital letter. -/
def Capital (s : String) : Prop := ∃ c, s.toList.head? = some c ∧ c.isUpper = true

/-- Variables: the last character of the name is not a digit (see C43 for what happens otherwise). -/
def VarName (s : String) : Prop := Capital s ∧ NoDigitEnd s

/-- Symbols: not predefined ones. -/
def SymName (s : String) : Prop := ¬ Capital s ∧ UserName s

theorem lexNames : Lex VarName SymName := ⟨fun _ h => user_defined h.2, fun _ h h' => h'.1 h.1, fun _ h => h.2⟩

theorem var_user {s : String} (h : VarName s) : UserName s := by
  intro hm
  obtain ⟨c, h1, h2⟩ := h.1
  have : ∀ n ∈ initialContext.map (·.1), n.toList.head?.all (fun c => !c.isUpper) = true := by decide +kernel
  have := this s hm
  rw [h1] at this
  simp [h2] at this

theorem sym_user {s : String} (h : SymName s) : UserName s := h.2

/-- Closed untyped problems without equality: in the axioms `∃` is positive and `∀` negative, in the conjecture the other way round; each symbol
has one arity; included files are included as a whole. -/
abbrev Delta (ar : String → Nat) : PStmt → Prop := PStmt.In VarName SymName fun p w => w.Exi ar p

theorem in_whole {V F : String → Prop} {W : Bool → WForm → Prop} {s : PStmt} (h : PStmt.In V F W s) : Whole s := by
  induction h with
  | incl _ ih => exact .incl ih
  | form => exact .form

theorem follows_fof {V F : String → Prop} (L : Lex V F) (hV : ∀ s, V s → UserName s) (hF : ∀ s, F s → UserName s) {fl : Bool} {typeOk : Form → Bool} {P : List PStmt}
    (hg : ∀ st ∈ P, PStmt.Fof V F st) {f : Form} {c : Bool} {m : Maker} (h : presearch fl (fun _ => false) typeOk initMaker P = .search f c m) :
    Follows P ↔ ∀ (D : Type) (I : Interp D) (μ ρ : Nat → D), ¬ Form.holds I μ ρ f := by
  have key := (C43_meaning_partial.{0} fl typeOk L hV hF initMaker Inv_init P hg f c m h).2
  constructor
  · intro hF D I μ ρ hh
    obtain ⟨S, hn, hS⟩ := (key D).1 ⟨I, μ, ρ, hh⟩
    exact hF D S hn hS
  · intro hF E S hn hS
    obtain ⟨I, μ, ρ, hh⟩ := (key E).2 ⟨S, hn, hS⟩
    exact hF E I μ ρ hh

theorem follows_delta {fl : Bool} {typeOk : Form → Bool} {P : List PStmt} (hg : ∀ st ∈ P, Delta ar st) {f : Form} {c : Bool} {m : Maker}
    (h : presearch fl (fun _ => false) typeOk initMaker P = .search f c m) :
    Follows P ↔ ∀ (D : Type) (I : Interp D) (μ ρ : Nat → D), ¬ Form.holds I μ ρ f :=
  follows_fof lexNames (fun _ h => var_user h) (fun _ h => sym_user h) (fun s hs => (hg s hs).fof) h

/-- What the search needs. -/
theorem delta_search {e : Env} (he : EnvOk e) {fl : Bool} {typeOk : Form → Bool} {P : List PStmt} (hg : ∀ st ∈ P, Delta ar st) {f : Form}
    {c : Bool} {m : Maker} (h : presearch fl (fun _ => false) typeOk initMaker P = .search f c m) (st : Start) (hs : m.cpt ≤ st.sk) :
    Verif.Search.Main.Skolem (arOf ar m) e st ∧ Verif.Search.Main.Exist (arOf ar m) (width f) true f ∧ Verif.Search.WF f st.sk ∧ NoPred e.eq f := by
  obtain ⟨h1, h2, h3, h4⟩ := presearch_exi lexNames (fun _ h => var_user h) (fun _ h => sym_user h) fl typeOk P hg f c m h
  refine ⟨⟨fun i hi => h4 i (Nat.le_trans hs hi), fun F _ => he.sko _ _⟩, h1, ⟨h2.fo, h2.nodup, ?_, ?_, h2.closed⟩, by rw [he.eq]; exact h3⟩
  · intro i hi
    obtain ⟨a, b⟩ := h2.binders i hi
    exact ⟨Nat.lt_of_lt_of_le a hs, b⟩
  · intro i hi
    exact Nat.lt_of_lt_of_le (h2.funs i hi) hs

/-- **C88 for problems whose quantifiers all assert the existence of something** (a conjecture with `∀` in front, say), without
equality: whatever the options and the schedules, what is printed is the verdict the problem deserves. Missing: other quantifiers and
equality. -/
theorem C88_delta_partial {e : Env} {cfg : Cfg} {d : fs.Dir} {s : List Char} {n : Nat} {P : List PStmt} {l : Line} (he : EnvOk e)
    (hs : Says fs d s n P) (hg : ∀ st ∈ P, Delta ar st) (h : Prints fs e cfg d s l) : l = verdict P := by
  obtain ⟨P', b, q, eq, f, c, m, outcome, res, t, h1, h2, -, h4, h5, h6⟩ := h
  obtain ⟨b', e', r1, -⟩ := hs.reads (fun st h => in_whole (hg st h)) cfg.limit 0 false
  obtain ⟨rfl, rfl, -, -⟩ := h1.unique r1
  obtain ⟨k, rfl, hf⟩ := h4
  obtain ⟨i, i1, i2, i3, i4, i5, i6⟩ := (inv_after cfg.opts _ b outcome k).done res hf
  rw [i4, List.mem_singleton] at h6
  obtain ⟨st, hc, hv⟩ := h5 i (by omega)
  obtain ⟨a1, a2, a3, a4⟩ := delta_search he hg h2 st hc
  have hex := Verif.Search.Main.C65_delta_exact he.index he.fuel st a1 _ a2 a3 a4 _ hv
  rw [i2, ← follows_delta hg h2] at hex
  rw [h6, printResult_deserved, verdict]
  congr 1
  cases res <;> simp at hex <;> simp [hex]

/-- **C88, the program answers**: the text of such a problem with at least one formula and at most one conjecture in a file gets a verdict if only one
round is run, or if the conjecture follows. The index must answer for ground atoms (`C30_ground_answers`). -/
theorem C88_delta_answers {e : Env} {cfg : Cfg} {d : fs.Dir} {s : List Char} {n : Nat} {P : List PStmt} (he : EnvOk e)
    (hans : ∀ ar, Verif.Search.Incr.Answers ar e.U) (hs : Says fs d s n P) (hg : ∀ st ∈ P, Delta ar st)
    (hok : FileOk P) (hn : PStmt.formsL P ≠ 0) (ho : cfg.opts.oneStep = true ∨ Follows P) :
    ∃ l, Prints fs e cfg d s l := by
  obtain ⟨b, e', r1, r2⟩ := hs.reads (fun st h => in_whole (hg st h)) cfg.limit 0 false
  obtain ⟨f, m, h2⟩ := (C43_outcome_partial cfg.flatten cfg.typeOk lexNames (fun _ h => var_user h) (fun _ h => sym_user h) initMaker Inv_init P
    (fun s hs => (hg s hs).fof) hok).2 hn
  obtain ⟨a1, a2, a3, a4⟩ := delta_search he hg h2 ⟨0, m.cpt⟩ (Nat.le_refl _)
  have hv : ∃ closed, Verdict e ⟨0, m.cpt⟩ (limitAt b 0).toNatClampNeg f closed ∧ (closed = true ↔ Follows P) := by
    obtain ⟨cs', s', closed, k1, k2, k3⟩ := Verif.Search.Main.C65_delta_decides he.index he.fuel (hans _) ⟨0, m.cpt⟩ a1 (limitAt b 0).toNatClampNeg a2
      a3 a4 [] _ rfl
    exact ⟨closed, ⟨s', ⟨_, k1⟩, k2⟩, k3.trans (follows_delta hg h2).symm⟩
  obtain ⟨closed, hv, hc⟩ := hv
  have hfin : closed = true ∨ cfg.opts.oneStep = true := by
    rcases ho with h | h
    · exact .inr h
    · exact .inl (hc.2 h)
  have hone : (after cfg.opts (decide (0 < PStmt.conjsL P)) b (fun _ => closed) 1).finished = some closed ∧
      (after cfg.opts (decide (0 < PStmt.conjsL P)) b (fun _ => closed) 1).round = 1 := by
    have : (!closed && decide (0 < b) && !cfg.opts.oneStep) = false := by
      rcases hfin with h | h <;> simp [h]
    simp [after, start, iter, oneStep, this]
  obtain ⟨i, i1, -, -, i4, -⟩ := (inv_after cfg.opts (decide (0 < PStmt.conjsL P)) b (fun _ => closed) 1).done closed hone.1
  refine ⟨printResult (decide (0 < PStmt.conjsL P)) closed, P, b, _, e', f, false, m, fun _ => closed, closed, _, r1, h2, by rw [← he.eq]; exact a4,
    ⟨1, rfl, hone.1⟩, ?_, ?_⟩
  · intro k hk
    rw [hone.2] at hk
    have : k = 0 := by omega
    subst this
    exact ⟨_, Nat.le_refl _, hv⟩
  · rw [i4]; simp

/-- **C88, no round hangs or crashes**: every schedule of a round of such a problem is of bounded length and can be continued to a
verdict. -/
theorem C88_delta_rounds {e : Env} {cfg : Cfg} {P : List PStmt} (he : EnvOk e) (hans : ∀ ar, Verif.Search.Incr.Answers ar e.U)
    (hg : ∀ st ∈ P, Delta ar st) {f : Form} {c : Bool} {m : Maker}
    (h : presearch cfg.flatten (fun _ => false) cfg.typeOk initMaker P = .search f c m) (st : Start) (hst : m.cpt ≤ st.sk) (limit : Nat) :
    ∃ N, ∀ (cs : List Choice) (s : Sys), (Verif.Search.Main.start limit f).run e st cs = some s → cs.length ≤ N ∧
      ∃ cs' s' closed, (Verif.Search.Main.start limit f).run e st (cs ++ cs') = some s' ∧ s'.result = some closed ∧ (closed = true ↔ Follows P) := by
  obtain ⟨a1, a2, a3, a4⟩ := delta_search he hg h st hst
  refine ⟨_, fun cs s hr => ⟨Verif.Search.Main.C65_delta_ends he.index he.fuel st a1 limit a2 a3 a4 cs s hr, ?_⟩⟩
  obtain ⟨cs', s', closed, k1, k2, k3⟩ := Verif.Search.Main.C65_delta_decides he.index he.fuel (hans _) st a1 limit a2 a3 a4 cs s hr
  exact ⟨cs', s', closed, k1, k2, k3.trans (follows_delta hg h).symm⟩

/-- **C88, no answer for what does not follow**: if a quantifier is written in the files, the bound is positive, and such a problem that deserves a
negative verdict does not get it without `-one_step`: every round says that nothing was found, with a finished search of which the bound is no
part, and the rounds go on for ever. -/
theorem C88_delta_never {e : Env} {cfg : Cfg} {d : fs.Dir} {s : List Char} {n : Nat} {P : List PStmt} (he : EnvOk e)
    (hs : Says fs d s n P) (hg : ∀ st ∈ P, Delta ar st) (hl : cfg.limit = -1) (hn : 0 < Int64.ofNat n)
    (ho : cfg.opts.oneStep = false) (hF : ¬ Follows P) (l : Line) : ¬ Prints fs e cfg d s l := by
  intro h
  have hv := C88_delta_partial he hs hg h
  obtain ⟨P', b, q, eq, f, c, m, outcome, res, t, h1, h2, -, h4, h5, h6⟩ := h
  obtain ⟨b', e', r1, r2⟩ := hs.reads (fun st h => in_whole (hg st h)) cfg.limit 0 false
  obtain ⟨rfl, rfl, -, -⟩ := h1.unique r1
  have hb := r2 hl
  rw [Nat.zero_add] at hb
  obtain ⟨k, rfl, hf⟩ := h4
  obtain ⟨i, i1, i2, i3, i4, i5, i6⟩ := (inv_after cfg.opts _ b outcome k).done res hf
  rw [i4, List.mem_singleton] at h6
  rw [h6, printResult_deserved, verdict] at hv
  rcases i5 with h | h | h
  · subst h
    simp only [hF, decide_false] at hv
    cases hd : decide (0 < PStmt.conjsL P') <;> rw [hd] at hv <;> cases hv
  · exact h (by rw [hb]; exact hn)
  · rw [ho] at h; cases h

end Verif.Whole
