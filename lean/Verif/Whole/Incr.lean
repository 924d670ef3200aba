import Verif.Whole.Proof
import Verif.Search.IncrProofGround
import Verif.Search.Output
import Verif.Mods.Dmt
/-!
# C101: what the option `-incr` shows for the text of a problem

The program as in `Verif.Whole.Program`, with the incremental search (`Verif.Search.Incr`) and what it writes (`Verif.Search.Output`). It writes no
verdict (`C94_violated_incr_verdict`), so what it has found is seen by the proof that `-proof` prints.

Simplifications: as in `Verif.Whole.Program`; a run that crashes while the proof is made (`St.proof`) is left out here (C95), and so is a crash of the
registration of an axiom as a rewrite rule (C61).
-/

namespace Verif.Whole
open Verif.AST Verif.Engine Verif.Parser
open Verif.Search.Incr (Oracle Faithful Note)
open Verif.Gs3 (PS)
open Verif.Search.Output (Item Format End printf printTexts printProof incrSearch)

/-! ### The program -/

/-- Whether an axiom is taken out of the formula: with `-dmt`, if `RegisterAxiom` says so (src/main.go:338-358). The numbers given to metavariables and
Skolem symbols do not matter for that. -/
def consumes : Option Verif.Mods.Dmt.Opts → Form → Bool
  | none, _ => false
  | some o, f => ((Verif.Mods.Dmt.register o 0 0 f).map (·.1)).getD false

/-- The program run on a text with `-incr` ends in this way (`main`, src/main.go:74-126; `Search` and `handleSearchResults`,
src/Search/incremental/search.go:24-38). `rw` are the options of rewriting, if `-dmt` is given. The bound is not used. -/
def RunsIncr (fs : Files) (U : Oracle) (rw : Option Verif.Mods.Dmt.Opts) (cfg : Cfg) (o : Verif.Search.Output.Opts PS) (d : fs.Dir) (s : List Char)
    (e : End) : Prop :=
  ∃ P b q eq f c m, Reads fs d cfg.limit 0 false s P b q eq ∧ presearch cfg.flatten (consumes rw) cfg.typeOk initMaker P = .search f c m ∧
    ∃ mv sk sched st notes pr, m.cpt ≤ sk ∧ (Verif.Search.Incr.St.init f mv sk).runN U sched (fun _ => {}) = some (st, notes) ∧ st.agenda = [] ∧
      st.proof notes = some pr ∧ e = incrSearch o (if st.treeClosed (st.nodes.length + 1) 0 then some pr else none)

/-! ### Specification -/

/-- An output that writes something for every proof but the empty one. -/
def Speaks (φ : Format PS) : Prop := ∀ pr, ∃ t, φ pr = some t ∧ (t = [] ↔ pr = [])

/-- A proof with some text is written. -/
def Shown (e : End) : Prop := ∃ t, t ≠ ['\n'] ∧ Item.text t ∈ e.out

/-- **C101**: with `-incr` and `-proof` a proof is shown exactly if the conjecture follows from the axioms. -/
def C101_statement : Prop := ∀ (fs : Files) (U : Oracle) (rw : Option Verif.Mods.Dmt.Opts) (cfg : Cfg) (one : Bool) (φ : Format PS) (d : fs.Dir)
  (s : List Char) (n : Nat) (P : List PStmt) (e : End), Faithful U → Speaks φ → Says fs d s n P → RunsIncr fs U rw cfg ⟨true, one, [φ]⟩ d s e →
    (Shown e ↔ FollowsEq P)

/-! ### What is written -/

theorem verb_ne (c : Char) (t : List Char) : Verif.Search.Output.verb c ++ t ≠ [] := by
  unfold Verif.Search.Output.verb
  split <;> exact List.cons_ne_nil _ _

theorem noverb_ne : "%!(NOVERB)".toList ≠ [] := by decide

theorem printf_nil {mo : Verif.Search.Output.Mode} {t : List Char} (h : printf mo t = []) : mo = .text ∧ t = [] := by
  induction t generalizing mo with
  | nil =>
    cases mo
    · exact ⟨rfl, rfl⟩
    all_goals exact absurd h noverb_ne
  | cons c t ih =>
    cases mo <;> simp only [printf] at h <;> repeat' split at h
    all_goals first
      | exact absurd h (verb_ne _ _)
      | exact absurd h (List.cons_ne_nil _ _)
      | (have := (ih h).1; cases this)

theorem shown_iff {φ : Format PS} (hφ : Speaks φ) (one : Bool) (x : Option (List PS)) :
    Shown (incrSearch ⟨true, one, [φ]⟩ x) ↔ ∃ pr, x = some pr ∧ pr ≠ [] := by
  obtain ⟨t, ht, hn⟩ := hφ (x.getD [])
  have hout : (incrSearch ⟨true, one, [φ]⟩ x).out = [.startProof, .text ('\n' :: printf .text t), .endProof] := by
    simp [incrSearch, printProof, printTexts, ht, printf]
  have h1 : Shown (incrSearch ⟨true, one, [φ]⟩ x) ↔ t ≠ [] := by
    unfold Shown
    rw [hout]
    constructor
    · rintro ⟨u, h, hm⟩ rfl
      simp [printf] at hm
      exact h hm
    · intro h
      refine ⟨_, ?_, List.mem_cons_of_mem _ List.mem_cons_self⟩
      intro e
      exact h (printf_nil (List.cons.inj e).2).2
  rw [h1, Ne, hn]
  cases x <;> simp

/-- A proof that is made has a step. -/
theorem proofOf_ne {st : Verif.Search.Incr.St} {notes : Nat → Note} {sub : List (Nat × Term)} {k i : Nat} {pr : List PS}
    (h : st.proofOf notes sub k i = some pr) : pr ≠ [] := by
  cases k with
  | zero => simp [Verif.Search.Incr.St.proofOf] at h
  | succ k =>
    simp only [Verif.Search.Incr.St.proofOf] at h
    split at h
    · split at h
      · cases h
      · split at h
        · cases h; simp
        · simp only [Option.map_eq_some_iff] at h; obtain ⟨_, _, rfl⟩ := h; simp
        · simp only [Option.map_eq_some_iff] at h; obtain ⟨_, _, rfl⟩ := h; simp
    · cases h

/-! ### Equality does not matter for problems without it -/

variable {fs : Files} {ar : String → Nat}

/-- The structure with equality as `=`. -/
def eqStr {E : Type} (S : Str E) : Str E := ⟨S.fn, fun s l => if s = "=" then ∃ a, l = [a, a] else S.pr s l⟩

mutual
theorem val_eqStr {E : Type} (S : Str E) (v : String → E) : ∀ t : PTm, PTm.val (eqStr S) v t = PTm.val S v t
  | .var _ => by simp [PTm.val]
  | .fn s args ty => by simp only [PTm.val, valL_eqStr S v args]; rfl
theorem valL_eqStr {E : Type} (S : Str E) (v : String → E) : ∀ l : List PTm, PTm.valL (eqStr S) v l = PTm.valL S v l
  | [] => by simp [PTm.valL]
  | t :: l => by simp [PTm.valL, val_eqStr S v t, valL_eqStr S v l]
end

theorem sat_eqStr {E : Type} (S : Str E) (v : String → E) (w : WForm) (h : w.Ground ar) : w.sat (eqStr S) v ↔ w.sat S v := by
  induction w with
  | atom s args => simp only [WForm.sat, valL_eqStr]; simp [eqStr, user_ne_eq h.1]
  | eq => exact h.elim
  | neq => exact h.elim
  | all => exact h.elim
  | ex => exact h.elim
  | top => simp [WForm.sat]
  | bot => simp [WForm.sat]
  | not f ih => simp [WForm.sat, ih h]
  | _ l r il ir => simp [WForm.sat, il h.1, ir h.2]

theorem means_eqStr {E : Type} (S : Str E) {st : PStmt} (h : PStmt.Ground ar st) : ∀ pick, st.means (eqStr S) pick ↔ st.means S pick := by
  induction h with
  | incl _ ih =>
    rename_i file _
    intro pick
    simp only [PStmt.means]
    generalize (fun n => pick n && true) = p
    revert ih
    induction file with
    | nil => intro _; simp [PStmt.meansL]
    | cons a l il =>
      intro ih
      simp only [PStmt.meansL]
      rw [ih a List.mem_cons_self p, il (fun s hs => by rename_i hall; exact hall s (List.mem_cons_of_mem _ hs)) fun s hs => ih s (List.mem_cons_of_mem _ hs)]
  | form hr hw =>
    intro pick
    rcases hr with rfl | rfl | rfl <;> simp [PStmt.means, PRole.means, sat_eqStr S _ _ hw]

theorem problem_eqStr {E : Type} (S : Str E) {P : List PStmt} (h : ∀ st ∈ P, PStmt.Ground ar st) : ProblemMeans (eqStr S) P ↔ ProblemMeans S P := by
  unfold ProblemMeans
  induction P with
  | nil => simp [PStmt.meansL]
  | cons a l ih =>
    simp only [PStmt.meansL]
    rw [means_eqStr S (h a List.mem_cons_self), ih fun s hs => h s (List.mem_cons_of_mem _ hs)]

theorem followsEq_iff {P : List PStmt} (h : ∀ st ∈ P, PStmt.Ground ar st) : FollowsEq P ↔ Follows P := by
  constructor
  · intro hF E S hn hS
    refine hF E (eqStr S) hn ?_ ((problem_eqStr S h).2 hS)
    intro a b
    simp [eqStr, eq_comm]
  · intro hF E S hn _ hS
    exact hF E S hn hS

/-! ### The theorems -/

theorem run_snoc {U : Oracle} {s st st' : Verif.Search.Incr.St} {sched : List Nat} {j : Nat} (h : s.run U sched = some st) (h' : st.step U j = some st') :
    s.run U (sched ++ [j]) = some st' := by
  induction sched generalizing s with
  | nil =>
    simp only [Verif.Search.Incr.St.run, Option.some.injEq] at h
    subst h
    simp [Verif.Search.Incr.St.run, h']
  | cons i l ih =>
    simp only [Verif.Search.Incr.St.run, List.cons_append] at h ⊢
    split at h
    · cases h
    · exact ih h

/-- **C101 for problems without quantifiers and equality**, spread over files included as a whole, each symbol having one arity, without `-dmt`:
whatever the schedule and the options, a proof is shown exactly if the conjecture follows. -/
theorem C101_partial {U : Oracle} (hU : Faithful U) {cfg : Cfg} {one : Bool} {φ : Format PS} (hφ : Speaks φ) {d : fs.Dir} {s : List Char} {n : Nat}
    {P : List PStmt} {e : End} (hs : Says fs d s n P) (hg : ∀ st ∈ P, PStmt.Ground ar st) (h : RunsIncr fs U none cfg ⟨true, one, [φ]⟩ d s e) :
    Shown e ↔ FollowsEq P := by
  obtain ⟨P', b, q, eq, f, c, m, h1, h2, mv, sk, sched, st, notes, pr, -, h3, h4, h5, rfl⟩ := h
  obtain ⟨b', e', r1, -⟩ := hs.reads (fun st h => ground_whole (hg st h)) cfg.limit 0 false
  obtain ⟨rfl, rfl, -, -⟩ := h1.unique r1
  have h2 : presearch cfg.flatten (fun _ => false) cfg.typeOk initMaker P' = .search f c m := h2
  obtain ⟨hp, hq⟩ := presearch_ground cfg.flatten cfg.typeOk P' hg f c m h2
  have hv := Verif.Search.Incr.C64_ground_exact hU hp mv sk _ ⟨sched, st, Verif.Search.Incr.runN_run sched h3, h4, rfl⟩
  rw [← follows_closed hg h2, ← followsEq_iff hg] at hv
  rw [shown_iff hφ, ← hv]
  cases hc : st.treeClosed (st.nodes.length + 1) 0 with
  | false => simp
  | true =>
    unfold Verif.Search.Incr.St.proof at h5
    rw [hc] at h5
    simp only [if_true] at h5
    simp [proofOf_ne h5]

/-- **C101, the search ends**: for such a problem every schedule is of bounded length and can be continued until nothing is left to do, if the index
answers for ground atoms (`C30_ground_answers`); the tree is closed then exactly if the conjecture follows. No option changes that. -/
theorem C101_ends {U : Oracle} (hU : Faithful U) (hans : ∀ ar, Verif.Search.Incr.Answers ar U) {cfg : Cfg} {P : List PStmt}
    (hg : ∀ st ∈ P, PStmt.Ground ar st) {f : Form} {c : Bool} {m : Maker}
    (h : presearch cfg.flatten (fun _ => false) cfg.typeOk initMaker P = .search f c m) (mv sk : Nat) :
    ∃ N, ∀ (sched : List Nat) (st : Verif.Search.Incr.St), (Verif.Search.Incr.St.init f mv sk).run U sched = some st → sched.length ≤ N ∧
      ∃ sched' st', (Verif.Search.Incr.St.init f mv sk).run U (sched ++ sched') = some st' ∧ st'.agenda = [] ∧
        (st'.treeClosed (st'.nodes.length + 1) 0 = true ↔ FollowsEq P) := by
  obtain ⟨hp, -⟩ := presearch_ground cfg.flatten cfg.typeOk P hg f _ m h
  refine ⟨(max 2 (width f) + 1) ^ Verif.Search.weight true f, fun sched st hr => ⟨Verif.Search.Incr.C64_ground_ends hU hp mv sk sched st hr, ?_⟩⟩
  have key : ∀ k (sched : List Nat) st, (Verif.Search.Incr.St.init f mv sk).run U sched = some st →
      (max 2 (width f) + 1) ^ Verif.Search.weight true f - sched.length ≤ k →
      ∃ sched' st', (Verif.Search.Incr.St.init f mv sk).run U (sched ++ sched') = some st' ∧ st'.agenda = [] := by
    intro k
    induction k with
    | zero =>
      intro sched st hr hk
      by_cases ha : st.agenda = []
      · exact ⟨[], st, by simpa using hr, ha⟩
      · obtain ⟨s', hs'⟩ := Verif.Search.Incr.C64_ground_progress hU hp mv sk sched st hr (hans _) 0 (List.length_pos_of_ne_nil ha)
        have hr' := run_snoc hr hs'
        have := Verif.Search.Incr.C64_ground_ends hU hp mv sk _ _ hr'
        simp at this
        omega
    | succ k ih =>
      intro sched st hr hk
      by_cases ha : st.agenda = []
      · exact ⟨[], st, by simpa using hr, ha⟩
      · obtain ⟨s', hs'⟩ := Verif.Search.Incr.C64_ground_progress hU hp mv sk sched st hr (hans _) 0 (List.length_pos_of_ne_nil ha)
        have hr' := run_snoc hr hs'
        obtain ⟨sched', st', h1, h2⟩ := ih _ _ hr' (by simp; omega)
        exact ⟨0 :: sched', st', by simpa using h1, h2⟩
  obtain ⟨sched', st', h1, h2⟩ := key _ sched st hr (Nat.le_refl _)
  refine ⟨sched', st', h1, h2, ?_⟩
  rw [Verif.Search.Incr.C64_ground_exact hU hp mv sk _ ⟨_, st', h1, h2, rfl⟩, ← follows_closed hg h, ← followsEq_iff hg]

end Verif.Whole
