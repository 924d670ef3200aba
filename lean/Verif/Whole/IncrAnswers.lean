import Verif.Whole.IncrCases
/-!
# C101: the program answers

The formula made of a problem has no conjunction or disjunction with one member, but for the conjunctions of the statements; so the proof of a closed
tree can be made (C95), and on problems without quantifiers the program ends with every fair schedule.
-/

namespace Verif.Whole
open Verif.AST Verif.Engine Verif.Parser
open Verif.Search.Incr (Oracle Faithful Note Wide WideL WideL_iff WideTop)
open Verif.Gs3 (PS)
open Verif.Search.Output (Format End incrSearch)

/-! ### Replacing keeps the connectives -/

mutual
theorem wide_replace {o n : Term} : ∀ f : Form, Wide f → Wide (Form.replaceTermByTerm o n f).1
  | .pred _ _ _, _ => by simp [Form.replaceTermByTerm, Wide]
  | .top, _ => by simp [Form.replaceTermByTerm, Wide]
  | .bot, _ => by simp [Form.replaceTermByTerm, Wide]
  | .neg f, h => by simp only [Form.replaceTermByTerm, Wide] at *; exact wide_replace f h
  | .and fs, h => by simp only [Form.replaceTermByTerm, Wide] at *; exact ⟨by rw [(wide_replaceL fs h.2).2]; exact h.1, (wide_replaceL fs h.2).1⟩
  | .or fs, h => by simp only [Form.replaceTermByTerm, Wide] at *; exact ⟨by rw [(wide_replaceL fs h.2).2]; exact h.1, (wide_replaceL fs h.2).1⟩
  | .imp f g, h => by simp only [Form.replaceTermByTerm, Wide] at *; exact ⟨wide_replace f h.1, wide_replace g h.2⟩
  | .equ f g, h => by simp only [Form.replaceTermByTerm, Wide] at *; exact ⟨wide_replace f h.1, wide_replace g h.2⟩
  | .all _ f, h => by simp only [Form.replaceTermByTerm, Wide] at *; exact wide_replace f h
  | .ex _ f, h => by simp only [Form.replaceTermByTerm, Wide] at *; exact wide_replace f h
theorem wide_replaceL {o n : Term} : ∀ l : List Form, WideL l →
    WideL (Form.replaceTermByTermL o n l).1 ∧ (Form.replaceTermByTermL o n l).1.length = l.length
  | [], _ => by simp [Form.replaceTermByTermL, WideL]
  | f :: l, h => by
    simp only [Form.replaceTermByTermL, WideL] at *
    exact ⟨⟨wide_replace f h.1, (wide_replaceL l h.2).1⟩, by simp [(wide_replaceL l h.2).2]⟩
end

mutual
theorem wide_bound {s : String} {t : Ty} : ∀ f : Form, Wide f → Wide (Form.substBound s t f)
  | .pred _ _ _, _ => by simp [Form.substBound, Wide]
  | .top, _ => by simp [Form.substBound, Wide]
  | .bot, _ => by simp [Form.substBound, Wide]
  | .neg f, h => by simp only [Form.substBound, Wide] at *; exact wide_bound f h
  | .and fs, h => by simp only [Form.substBound, Wide] at *; exact ⟨by rw [(wide_boundL fs h.2).2]; exact h.1, (wide_boundL fs h.2).1⟩
  | .or fs, h => by simp only [Form.substBound, Wide] at *; exact ⟨by rw [(wide_boundL fs h.2).2]; exact h.1, (wide_boundL fs h.2).1⟩
  | .imp f g, h => by simp only [Form.substBound, Wide] at *; exact ⟨wide_bound f h.1, wide_bound g h.2⟩
  | .equ f g, h => by simp only [Form.substBound, Wide] at *; exact ⟨wide_bound f h.1, wide_bound g h.2⟩
  | .all _ f, h => by simp only [Form.substBound, Wide] at *; exact wide_bound f h
  | .ex _ f, h => by simp only [Form.substBound, Wide] at *; exact wide_bound f h
theorem wide_boundL {s : String} {t : Ty} : ∀ l : List Form, WideL l → WideL (Form.substBoundL s t l) ∧ (Form.substBoundL s t l).length = l.length
  | [], _ => by simp [Form.substBoundL, WideL]
  | f :: l, h => by
    simp only [Form.substBoundL, WideL] at *
    exact ⟨⟨wide_bound f h.1, (wide_boundL l h.2).1⟩, by simp [(wide_boundL l h.2).2]⟩
end

theorem wide_loop : ∀ (vs : List TVar) (f : Form) (m : Maker), Wide f → Wide (renameVarsLoop vs f m).2.2.1
  | [], _, _, h => h
  | v :: vs, f, m, h => by
    simp only [renameVarsLoop]
    refine wide_loop vs _ _ ?_
    split
    · exact wide_replace f h
    · exact wide_bound _ (wide_replace f h)

mutual
theorem wide_rename : ∀ (f : Form) (m : Maker), Wide f → Wide (f.rename m).1
  | .pred _ _ _, _, h => h
  | .top, _, h => h
  | .bot, _, h => h
  | .neg f, m, h => by simp only [Form.rename, Wide] at *; exact wide_rename f m h
  | .and fs, m, h => by simp only [Form.rename, Wide] at *; exact ⟨by rw [(wide_renameL fs m h.2).2]; exact h.1, (wide_renameL fs m h.2).1⟩
  | .or fs, m, h => by simp only [Form.rename, Wide] at *; exact ⟨by rw [(wide_renameL fs m h.2).2]; exact h.1, (wide_renameL fs m h.2).1⟩
  | .imp f g, m, h => by simp only [Form.rename, Wide] at *; exact ⟨wide_rename f m h.1, wide_rename g _ h.2⟩
  | .equ f g, m, h => by simp only [Form.rename, Wide] at *; exact ⟨wide_rename f m h.1, wide_rename g _ h.2⟩
  | .all vs f, m, h => by simp only [Form.rename, Wide] at *; exact wide_loop vs _ _ (wide_rename f m h)
  | .ex vs f, m, h => by simp only [Form.rename, Wide] at *; exact wide_loop vs _ _ (wide_rename f m h)
theorem wide_renameL : ∀ (l : List Form) (m : Maker), WideL l → WideL (Form.renameL l m).1 ∧ (Form.renameL l m).1.length = l.length
  | [], _, _ => by simp [Form.renameL, WideL]
  | f :: l, m, h => by
    simp only [Form.renameL, WideL] at *
    exact ⟨⟨wide_rename f m h.1, (wide_renameL l _ h.2).1⟩, by simp [(wide_renameL l _ h.2).2]⟩
end

/-! ### Elaboration makes no connective with one member -/

theorem flatten_ne (op : PBinOp) (f : PForm) : 1 ≤ (flatten op f).length := by
  induction f with
  | bin o l r il ir =>
    simp only [flatten]
    split
    · simp; omega
    · simp
  | _ => simp [flatten]

theorem subForms_two (fl : Bool) (op : PBinOp) (l r : PForm) : 2 ≤ (subForms fl op l r).length := by
  unfold subForms
  split
  · have h1 := flatten_ne op l
    have h2 := flatten_ne op r
    simp [flatten]; omega
  · simp

theorem elabSeq_wide {g : Ctx → Maker → PForm → Option (Out Form)} (hg : ∀ con m f r, g con m f = some r → Wide r.val) :
    ∀ (fs : List PForm) (con : Ctx) (m : Maker) (r : Out (List Form)), elabSeq g con m fs = some r →
    WideL r.val ∧ r.val.length = fs.length
  | [], con, m, r, h => by simp only [elabSeq] at h; cases h; simp [WideL]
  | f :: fs, con, m, r, h => by
    simp only [elabSeq, Option.bind_eq_some_iff, Option.map_eq_some_iff] at h
    obtain ⟨x, hx, y, hy, rfl⟩ := h
    obtain ⟨h1, h2⟩ := elabSeq_wide hg fs _ _ _ hy
    exact ⟨⟨hg _ _ _ _ hx, h1⟩, by simp [h2]⟩

theorem elabN_wide (fl : Bool) : ∀ (n : Nat) (con : Ctx) (m : Maker) (f : PForm) (r : Out Form), elabN fl n con m f = some r → Wide r.val := by
  intro n
  induction n with
  | zero => intro con m f r h; simp [elabN] at h
  | succ n ih =>
    intro con m f r h
    cases f with
    | top => simp only [elabN] at h; cases h; simp [Wide]
    | bot => simp only [elabN] at h; cases h; simp [Wide]
    | pred s args =>
      simp only [elabN, Option.bind_eq_some_iff, Option.map_eq_some_iff] at h
      obtain ⟨_, _, _, _, _, _, _, _, rfl⟩ := h
      simp [Wide]
    | neg f =>
      simp only [elabN, Option.map_eq_some_iff] at h
      obtain ⟨x, hx, rfl⟩ := h
      simpa only [Wide] using ih _ _ _ _ hx
    | bin op l r' =>
      simp only [elabN, Option.bind_eq_some_iff, Option.map_eq_some_iff] at h
      obtain ⟨x, hx, f', hf', rfl⟩ := h
      obtain ⟨h1, h2⟩ := elabSeq_wide ih _ _ _ _ hx
      have h3 := subForms_two fl op l r'
      generalize x.val = fs at h1 h2 hf'
      unfold mkBin at hf'
      split at hf' <;> first | cases hf' | skip
      · simp only [Wide]; exact ⟨by omega, h1⟩
      · simp only [Wide]; exact ⟨by omega, h1⟩
      · simp only [Wide, WideL] at *; exact ⟨h1.1, h1.2.1⟩
      · simp only [Wide, WideL] at *; exact ⟨h1.1, h1.2.1⟩
    | all vs f =>
      simp only [elabN, Option.bind_eq_some_iff, Option.map_eq_some_iff] at h
      obtain ⟨q, _, x, hx, rfl⟩ := h
      have := ih _ _ _ _ hx
      simp only [mkAll]
      split
      · exact this
      · simpa only [Wide] using this
    | ex vs f =>
      simp only [elabN, Option.bind_eq_some_iff] at h
      obtain ⟨q, _, h⟩ := h
      split at h
      · cases h
      · simp only [Option.map_eq_some_iff] at h
        obtain ⟨x, hx, rfl⟩ := h
        have := ih _ _ _ _ hx
        simp only [mkEx]
        split
        · exact this
        · simpa only [Wide] using this

/-! ### Files -/

theorem toInternal_wide (fl : Bool) : ∀ (l : List PStmt) (con : Ctx) (m : Maker) (r : List CStmt × Bool × Maker), toInternal fl con m l = some r →
    ∀ role f, CStmt.form role f ∈ r.1 → Wide f
  | [], con, m, r, h => by simp only [toInternal] at h; cases h; simp
  | s :: l, con, m, r, h => by
    cases s <;> simp only [toInternal, Option.bind_eq_some_iff, Option.map_eq_some_iff] at h
    · obtain ⟨y, hy, rfl⟩ := h
      simpa using toInternal_wide fl l _ _ _ hy
    · obtain ⟨y, hy, rfl⟩ := h
      simpa using toInternal_wide fl l _ _ _ hy
    · obtain ⟨x, hx, y, hy, rfl⟩ := h
      intro role f hf
      rcases List.mem_cons.1 hf with hf | hf
      · cases hf; exact elabN_wide fl _ _ _ _ _ hx
      · exact toInternal_wide fl l _ _ _ hy role f hf
    · obtain ⟨x, hx, y, hy, rfl⟩ := h
      simpa using toInternal_wide fl l _ _ _ hy

theorem loop_wide {consume : Form → Bool} {g : Maker → List PStmt → Option FileOut}
    (hg : ∀ m file r, g m file = some r → ∀ f, r.form = some f → WideTop f) :
    ∀ (cs : List CStmt) (st st' : LState), (∀ role f, CStmt.form role f ∈ cs → Wide f) → (∀ f ∈ st.ands, WideTop f) →
    (∀ f, st.conj = some f → WideTop f) → loop consume g cs st = some st' → (∀ f ∈ st'.ands, WideTop f) ∧ ∀ f, st'.conj = some f → WideTop f
  | [], st, st', _, ha, hc, h => by simp only [loop] at h; cases h; exact ⟨ha, hc⟩
  | c :: cs, st, st', hcs, ha, hc, h => by
    have ht : ∀ role f, CStmt.form role f ∈ cs → Wide f := fun role f h => hcs role f (List.mem_cons_of_mem _ h)
    cases c with
    | incl file =>
      simp only [loop, Option.bind_eq_some_iff] at h
      obtain ⟨r, hr, h⟩ := h
      refine loop_wide hg cs _ st' ht ?_ ?_ h
      rotate_left
      · exact hc
      intro f hf
      cases hrf : r.form with
      | none => simp only [hrf] at hf; exact ha f hf
      | some f' =>
        simp only [hrf, List.mem_append, List.mem_singleton] at hf
        rcases hf with hf | rfl
        · exact ha f hf
        · exact hg _ _ _ hr _ hrf
    | missing => simp [loop] at h
    | form role f =>
      have hw := wide_rename f st.m (hcs role f List.mem_cons_self)
      cases role with
      | ax =>
        simp only [loop] at h
        refine loop_wide hg cs _ st' ht ?_ ?_ h
        rotate_left
        · exact hc
        intro x hx
        dsimp only at hx
        split at hx
        · exact ha x hx
        · rcases List.mem_append.1 hx with hx | hx
          · exact ha x hx
          · rw [List.mem_singleton.1 hx]; exact .wide hw
      | conj =>
        simp only [loop] at h
        split at h
        · cases h
        · exact loop_wide hg cs ⟨st.ands, some (.neg (f.rename st.m).1), st.typed, _⟩ st' ht ha (by intro x hx; cases hx; exact .wide (by simpa only [Wide] using hw)) h
      | negConj =>
        simp only [loop] at h
        split at h
        · cases h
        · exact loop_wide hg cs ⟨st.ands, some (f.rename st.m).1, st.typed, _⟩ st' ht ha (by intro x hx; cases hx; exact .wide hw) h
      | type => simp [loop] at h
      | unknown => simp [loop] at h
    | typ role s ty =>
      cases role with
      | type => simp only [loop] at h; exact loop_wide hg cs _ st' ht ha hc h
      | _ => simp [loop] at h

mutual
theorem flattenAnd1_wide : ∀ (f : Form), WideTop f → ∀ g ∈ flattenAnd1 f, WideTop g
  | .and fs, h => by simp only [flattenAnd1]; exact flattenAnd_wide fs h.members
  | .top, h => by simpa [flattenAnd1] using h
  | .bot, h => by simpa [flattenAnd1] using h
  | .pred _ _ _, h => by simpa only [flattenAnd1, List.mem_singleton, forall_eq] using h
  | .neg _, h => by simpa only [flattenAnd1, List.mem_singleton, forall_eq] using h
  | .or _, h => by simpa only [flattenAnd1, List.mem_singleton, forall_eq] using h
  | .imp _ _, h => by simpa only [flattenAnd1, List.mem_singleton, forall_eq] using h
  | .equ _ _, h => by simpa only [flattenAnd1, List.mem_singleton, forall_eq] using h
  | .all _ _, h => by simpa only [flattenAnd1, List.mem_singleton, forall_eq] using h
  | .ex _ _, h => by simpa only [flattenAnd1, List.mem_singleton, forall_eq] using h
theorem flattenAnd_wide : ∀ (l : List Form), (∀ f ∈ l, WideTop f) → ∀ g ∈ flattenAnd l, WideTop g
  | [], _ => by simp [flattenAnd]
  | f :: l, h => by
    intro g hg
    simp only [flattenAnd, List.mem_append] at hg
    rcases hg with hg | hg
    · exact flattenAnd1_wide f (h f List.mem_cons_self) g hg
    · exact flattenAnd_wide l (fun x hx => h x (List.mem_cons_of_mem _ hx)) g hg
end

theorem finish_wide {ands : List Form} {conj : Option Form} {f : Form} (ha : ∀ f ∈ ands, WideTop f) (hc : ∀ f, conj = some f → WideTop f)
    (h : finish ands conj = some f) : WideTop f := by
  simp only [finish] at h
  cases conj with
  | none =>
    simp only at h
    split at h
    · cases h
    · cases h; exact .and ha
  | some c =>
    simp only at h
    split at h
    · cases h; exact hc _ rfl
    · cases h
      refine .and ?_
      intro x hx
      rcases List.mem_append.1 hx with hx | hx
      · exact flattenAnd_wide ands ha x hx
      · rw [List.mem_singleton.1 hx]; exact hc _ rfl

theorem readFile_wide (fl : Bool) (consume : Form → Bool) : ∀ (n : Nat) (m : Maker) (file : List PStmt) (r : FileOut),
    readFile fl consume n m file = some r → ∀ f, r.form = some f → WideTop f := by
  intro n
  induction n with
  | zero => intro m file r h; simp [readFile] at h
  | succ n ih =>
    intro m file r h
    simp only [readFile, Option.bind_eq_some_iff, Option.map_eq_some_iff] at h
    obtain ⟨t, ht, st, hst, rfl⟩ := h
    obtain ⟨h1, h2⟩ := loop_wide ih t.1 _ st (toInternal_wide fl file _ _ _ ht) (by simp) (by simp) hst
    exact fun f hf => finish_wide h1 h2 hf

/-- The formula made of a problem has no conjunction or disjunction with one member, but for the conjunctions of the statements of a file. -/
theorem presearch_wide (fl : Bool) (consume typeOk : Form → Bool) (m0 : Maker) (P : List PStmt) {f : Form} {c : Bool} {m : Maker}
    (h : presearch fl consume typeOk m0 P = .search f c m) : WideTop f := by
  unfold presearch at h
  split at h
  · cases h
  · next r hr =>
    split at h
    · cases h
    · next f' hf' =>
      have hw := readFile_wide fl consume _ _ _ r hr f' hf'
      split at h
      · split at h
        · cases h; exact hw
        · cases h
      · cases h; exact hw

/-! ### The theorem -/

/-- **C101, the program answers**: on such a problem with a formula and no more than one conjecture per file, the program ends, if the index answers for ground atoms
(`C30_ground_answers`); by `C101_partial` a proof is shown exactly if the conjecture follows, and by `C101_ends` every schedule ends. -/
theorem C101_answers {fs : Files} {ar : String → Nat} {U : Oracle} (hU : Faithful U) (hans : ∀ ar, Verif.Search.Incr.Answers ar U) {cfg : Cfg} {one : Bool} {φ : Format PS}
    (hφ : Speaks φ) {d : fs.Dir} {s : List Char} {n : Nat} {P : List PStmt} (hs : Says fs d s n P) (hg : ∀ st ∈ P, PStmt.Ground ar st) (hok : FileOk P)
    (hn : PStmt.formsL P ≠ 0) : ∃ e, RunsIncr fs U none cfg ⟨true, one, [φ]⟩ d s e ∧ (Shown e ↔ FollowsEq P) := by
  obtain ⟨b, e', r1, -⟩ := hs.reads (fun st h => ground_whole (hg st h)) cfg.limit 0 false
  obtain ⟨f, m, h2⟩ := (C43_outcome_partial cfg.flatten cfg.typeOk lexNone (by intro s h; exact h.elim) (fun _ h => h) initMaker Inv_init P
    (fun s hs => PStmt.ground_fof (hg s hs)) hok).2 hn
  obtain ⟨hp, -⟩ := presearch_ground cfg.flatten cfg.typeOk P hg f _ m h2
  obtain ⟨N, hN⟩ := C101_ends hU hans (ar := ar) hg h2 0 m.cpt
  obtain ⟨-, sched, st, h3, h4, h5⟩ := hN [] _ rfl
  obtain ⟨notes, h6⟩ := Verif.Search.Incr.run_runN _ (fun _ => {}) h3
  have hpr : ∃ pr, st.proof notes = some pr := by
    cases hc : st.treeClosed (st.nodes.length + 1) 0 with
    | false => exact ⟨_, Verif.Search.Incr.C95_open st notes hc⟩
    | true =>
      obtain ⟨pr, h, -⟩ := Verif.Search.Incr.C95_ground_partial hU hp (presearch_wide _ _ _ _ _ h2) 0 m.cpt _ st notes h6 hc
      exact ⟨pr, h⟩
  obtain ⟨pr, hpr⟩ := hpr
  have hr : RunsIncr fs U none cfg ⟨true, one, [φ]⟩ d s (incrSearch ⟨true, one, [φ]⟩ (if st.treeClosed (st.nodes.length + 1) 0 then some pr else none)) :=
    ⟨P, b, _, e', f, _, m, r1, h2, 0, m.cpt, _, st, notes, pr, Nat.le_refl _, h6, h4, hpr, rfl⟩
  exact ⟨_, hr, C101_partial hU hφ hs hg hr⟩

/-- **C101, the proof**: whenever a proof is shown for such a problem, a closed tableau for the formula of the problem is what the output is given. -/
theorem C101_proof {ar : String → Nat} {U : Oracle} (hU : Faithful U) {cfg : Cfg} {P : List PStmt} (hg : ∀ st ∈ P, PStmt.Ground ar st) {f : Form} {c : Bool}
    {m : Maker} (h : presearch cfg.flatten (fun _ => false) cfg.typeOk initMaker P = .search f c m) {mv sk : Nat} {sched : List Nat}
    {st : Verif.Search.Incr.St} {notes : Nat → Note} (hr : (Verif.Search.Incr.St.init f mv sk).runN U sched (fun _ => {}) = some (st, notes)) :
    ∃ pr, st.proof notes = some pr ∧ (st.treeClosed (st.nodes.length + 1) 0 = true → Verif.Search.Main.Tableau true [f] pr) := by
  obtain ⟨hp, -⟩ := presearch_ground cfg.flatten cfg.typeOk P hg f _ m h
  cases hc : st.treeClosed (st.nodes.length + 1) 0 with
  | false => exact ⟨_, Verif.Search.Incr.C95_open st notes hc, by simp⟩
  | true =>
    obtain ⟨pr, h1, h2⟩ := Verif.Search.Incr.C95_ground_partial hU hp (presearch_wide _ _ _ _ _ h) mv sk sched st notes hr hc
    exact ⟨pr, h1, fun _ => h2⟩

/-- The hypotheses are met by the text with an include. -/
example {φ : Format PS} (hφ : Speaks φ) : ∃ e, RunsIncr inclFiles Verif.Search.Incr.anyU none cfg0 ⟨true, true, [φ]⟩ () (textOf mainPieces) e ∧ Shown e := by
  obtain ⟨e, h1, h2⟩ := C101_answers (cfg := cfg0) (one := true) (fun t a b l h => let ⟨n, x⟩ := Verif.Search.Incr.anyU_deep t a b l h; ⟨n + 2, x⟩) (fun _ => Verif.Search.Incr.anyU_answers) hφ says_incl ground_incl
    (.mk (by decide) (by
      intro f hf
      simp only [inclProblem, incls, List.mem_cons, List.not_mem_nil, or_false] at hf
      subst hf
      exact .mk (by decide) (by simp [incls]))) (by decide)
  exact ⟨e, h1, h2.2 ((followsEq_iff ground_incl).2 incl_follows)⟩

end Verif.Whole
