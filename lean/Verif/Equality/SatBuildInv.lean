import Verif.Equality.SatBuild

/-!
# What holds of the state when the SAT problem is built
-/

namespace Verif.Equality.Sat
open Verif.Unif Verif.Equality

/-- The keys of the indices are representatives of classes that have records; arguments and goals belong to such classes; a constant has
one record. -/
structure Kept (st : St) : Prop where
  keyRep : ∀ c, (st.p.super c).isSome → st.h.rep c = c ∧ c < st.h.next
  keyTerm : ∀ c, (st.p.super c).isSome → (∃ r ∈ st.p.funs, st.h.rep r.cls = c) ∨ ∃ e ∈ st.p.metas, st.h.rep e.2 = c
  args : ∀ r ∈ st.p.funs, ∀ a ∈ r.args, (st.p.super (st.h.rep a)).isSome
  const : ∀ r ∈ st.p.funs, ∀ s ∈ st.p.funs, r.sym = s.sym → r.args = [] → s.args = [] → r = s
  goals : ∀ g ∈ st.p.goals, ∀ p ∈ g, (st.p.super (st.h.rep p.1)).isSome ∧ (st.p.super (st.h.rep p.2)).isSome

theorem kept_newClass {st : St} (h : Kept st) : Kept (newClass st).2 :=
  ⟨fun c hc => ⟨(h.keyRep c hc).1, Nat.lt_succ_of_lt (h.keyRep c hc).2⟩, h.keyTerm, h.args, h.const, h.goals⟩

theorem kept_mv {ar : Nat → Nat} (i : Nat) (st : St) (hw : WF ar st) (h : Kept st) (c : Nat) (st' : St)
    (he : getClass (.mv i) st = some (c, st')) : Kept st' := by
  simp only [getClass] at he
  split at he
  · cases he; exact h
  · cases he
    have hf : st.h.rep st.h.next = st.h.next := hw.fresh _ (Nat.le_refl _)
    have key : ∀ c, (st.p.super c).isSome → ((addMeta (newClass st).2 i (newClass st).1).p.super c).isSome := by
      intro c hc
      simp only [addMeta, newClass, hf]
      split
      · rfl
      · exact hc
    refine ⟨fun c hc => ?_, fun c hc => ?_, fun r hr a ha => key _ (h.args r hr a ha), h.const,
      fun g hg p hp => ⟨key _ (h.goals g hg p hp).1, key _ (h.goals g hg p hp).2⟩⟩
    · simp only [addMeta, newClass, hf] at hc ⊢
      split at hc
      · rename_i e; subst e; exact ⟨hf, Nat.lt_succ_self _⟩
      · exact ⟨(h.keyRep c hc).1, Nat.lt_succ_of_lt (h.keyRep c hc).2⟩
    · simp only [addMeta, newClass, hf] at hc ⊢
      split at hc
      · rename_i e; subst e
        exact Or.inr ⟨(i, st.h.next), by simp, hf⟩
      · rcases h.keyTerm c hc with hh | ⟨e, he, h2⟩
        · exact Or.inl hh
        · exact Or.inr ⟨e, by simp [he], h2⟩

theorem kept_fnL {ar : Nat → Nat} (ts : List UT)
    (ih : ∀ t ∈ ts, ∀ st, t.Ar ar → WF ar st → Kept st → ∀ c st', getClass t st = some (c, st') → Kept st') (st : St)
    (ha : UT.ArL ar ts) (hw : WF ar st) (h : Kept st) (cs : List Nat) (st' : St) (he : getClassL ts st = some (cs, st')) : Kept st' := by
  induction ts generalizing st cs st' with
  | nil => simp only [getClassL] at he; cases he; exact h
  | cons t ts ihl =>
    simp only [UT.ArL] at ha
    obtain ⟨c, st1, e1, l1, -⟩ := getClass_spec ar t st ha.1 hw
    simp only [getClassL, e1, Option.bind_some] at he
    obtain ⟨r2, e2, e3⟩ := Option.bind_eq_some_iff.1 he
    cases e3
    exact ihl (fun t ht => ih t (by simp [ht])) st1 ha.2 l1.wf (ih t (by simp) st ha.1 hw h c st1 e1) r2.1 r2.2 e2

theorem kept_getClass {ar : Nat → Nat} (t : UT) : ∀ st, t.Ar ar → WF ar st → Kept st → ∀ c st', getClass t st = some (c, st') →
    Kept st' := by
  induction t using UT.ind with
  | mv i => intro st _ hw h c st' he; exact kept_mv i st hw h c st' he
  | fn f args ih =>
    intro st ha hw h c st' he
    simp only [UT.Ar] at ha
    obtain ⟨cs, st1, e1, l1, k1, -, -, n1⟩ := getClassL_spec ar args (fun t _ st h1 h2 => getClass_spec ar t st h1 h2) st ha.2 hw
    have h1 := kept_fnL args ih st ha.2 hw h cs st1 e1
    simp only [getClass, e1, Option.bind_some] at he
    have h0 := l1.wf
    have hf : st1.h.rep st1.h.next = st1.h.next := h0.fresh _ (Nat.le_refl _)
    have hfind := findCongruent_spec st1.h.rep ⟨f, cs, st1.h.next⟩ st1.p.funs
      (fun r hr hs => by simp only at hs ⊢; rw [n1, ha.1, h0.arity r hr, hs])
    rcases hfind with ⟨r, hr, hfr, hs, hargs⟩ | ⟨hfr, hno⟩
    · simp only [newClass, hfr, Option.bind_some, Option.some.injEq, Prod.mk.injEq] at he
      rw [← he.2]
      exact kept_newClass h1
    · simp only [newClass, hfr, Option.bind_some, Option.some.injEq, Prod.mk.injEq] at he
      rw [← he.2]
      have key : ∀ c, (st1.p.super c).isSome → ((addFun (newClass st1).2 ⟨f, cs, st1.h.next⟩).p.super c).isSome := by
        intro c hc
        simp only [addFun, newClass, hf]
        split
        · rfl
        · exact hc
      refine ⟨fun c hc => ?_, fun c hc => ?_, fun r hr a ha => ?_, fun r hr s hs' e1 e2 e3 => ?_,
        fun g hg p hp => ⟨key _ (h1.goals g hg p hp).1, key _ (h1.goals g hg p hp).2⟩⟩
      · simp only [addFun, hf] at hc ⊢
        split at hc
        · rename_i e; subst e; exact ⟨hf, Nat.lt_succ_self _⟩
        · exact ⟨(h1.keyRep c hc).1, Nat.lt_succ_of_lt (h1.keyRep c hc).2⟩
      · simp only [addFun, hf] at hc ⊢
        split at hc
        · rename_i e; subst e
          exact Or.inl ⟨⟨f, cs, st1.h.next⟩, by simp, hf⟩
        · rcases h1.keyTerm c hc with ⟨e, he, h2⟩ | hh
          · exact Or.inl ⟨e, by simp [he], h2⟩
          · exact Or.inr hh
      · simp only [addFun, List.mem_append, List.mem_singleton] at hr
        refine key _ ?_
        rcases hr with hr | rfl
        · exact h1.args r hr a ha
        · exact (k1 a ha).2
      · simp only [addFun, List.mem_append, List.mem_singleton] at hr hs'
        rcases hr with hr | rfl <;> rcases hs' with hs' | rfl
        · exact h1.const r hr s hs' e1 e2 e3
        · simp only at e3
          exact absurd (by simp [e2, e3]) (hno r hr e1)
        · simp only at e2
          exact absurd (by simp [e2, e3]) (hno s hs' e1.symm)
        · rfl

/-- What a merge of two known classes gives (as `merge_spec`, with the keys of the index). -/
theorem kept_merge {ar : Nat → Nat} (k : Nat) (st : St) (a b : Nat) (h : WF ar st) (ka : Known st a) (kb : Known st b) (hk : Kept st)
    (st' : St) (he : mergeClasses (k + 1) st a b = some st') : Kept st' := by
  simp only [mergeClasses] at he
  by_cases e : st.h.rep a = st.h.rep b
  · rw [if_pos e] at he; cases he; exact hk
  · rw [if_neg e] at he
    have key : ∀ m d, (m = st.h.rep a ∧ d = st.h.rep b ∨ m = st.h.rep b ∧ d = st.h.rep a) →
        (st.p.super m).bind (fun sm => (st.p.super d).bind fun sd =>
          let l := appendNew sm sd
          let h : Heap := { st.h with
            rep := fun c => if st.h.rep c = d then m else st.h.rep c
            size := fun c => if c = m then st.h.size m + st.h.size d else st.h.size c }
          let p : Pb := { st.p with super := fun c => if c = d then none else if c = m then some l else st.p.super c }
          l.foldlM (fun st t3 =>
            (st.p.super m).bind fun l4 => l4.foldlM (fun st t4 =>
              if st.h.rep t3.cls = st.h.rep t4.cls then some st
              else (recCongruent st.h.rep t3 t4).bind fun c => if c then mergeClasses k st t3.cls t4.cls else some st) st) ⟨h, p⟩) = some st' →
          Kept st' := by
      intro m d hmd he
      have hne : m ≠ d := by
        rcases hmd with ⟨rfl, rfl⟩ | ⟨rfl, rfl⟩
        · exact e
        · exact Ne.symm e
      have hm : ∃ sm, st.p.super m = some sm := by
        rcases hmd with ⟨rfl, rfl⟩ | ⟨rfl, rfl⟩
        · exact Option.isSome_iff_exists.1 ka.2
        · exact Option.isSome_iff_exists.1 kb.2
      have hd : ∃ sd, st.p.super d = some sd := by
        rcases hmd with ⟨rfl, rfl⟩ | ⟨rfl, rfl⟩
        · exact Option.isSome_iff_exists.1 kb.2
        · exact Option.isSome_iff_exists.1 ka.2
      have mm : st.h.rep m = m := by rcases hmd with ⟨rfl, rfl⟩ | ⟨rfl, rfl⟩ <;> exact h.idem _
      obtain ⟨sm, hsm⟩ := hm
      obtain ⟨sd, hsd⟩ := hd
      have hl' : ∀ t ∈ appendNew sm sd, (if st.h.rep t.cls = d then m else st.h.rep t.cls) = m := by
        intro t ht
        rcases mem_appendNew.1 ht with ht | ht
        · simp [(h.sup m sm hsm t ht).1]
        · simp [(h.sup d sd hsd t ht).1]
      simp only [hsm, hsd, Option.bind_some] at he
      rw [foldlM_skip] at he
      · cases he
        have kp : ∀ c, (st.p.super (st.h.rep c)).isSome →
            ((if (if st.h.rep c = d then m else st.h.rep c) = d then none else
              if (if st.h.rep c = d then m else st.h.rep c) = m then some (appendNew sm sd) else
                st.p.super (if st.h.rep c = d then m else st.h.rep c)) : Option (List Rec)).isSome := by
          intro c hc
          by_cases h1 : st.h.rep c = d
          · simp [h1, hne]
          · simp only [if_neg h1]
            split
            · rfl
            · exact hc
        refine ⟨fun c hc => ?_, fun c hc => ?_, fun r hr a ha => kp a (hk.args r hr a ha), hk.const,
          fun g hg p hp => ⟨kp _ (hk.goals g hg p hp).1, kp _ (hk.goals g hg p hp).2⟩⟩
        · simp only at hc ⊢
          split at hc
          · cases hc
          · rename_i hcd
            split at hc
            · rename_i hcm
              subst hcm
              rw [mm, if_neg hcd]
              exact ⟨rfl, (hk.keyRep c (by rw [hsm]; rfl)).2⟩
            · have := hk.keyRep c hc
              rw [this.1, if_neg hcd]
              exact ⟨rfl, this.2⟩
        · simp only at hc ⊢
          split at hc
          · cases hc
          · rename_i hcd
            have hc' : (st.p.super c).isSome := by
              split at hc
              · rename_i hcm
                rw [hcm, hsm]; rfl
              · exact hc
            rcases hk.keyTerm c hc' with ⟨r, hr, h2⟩ | ⟨r, hr, h2⟩
            · exact Or.inl ⟨r, hr, by rw [h2, if_neg hcd]⟩
            · exact Or.inr ⟨r, hr, by rw [h2, if_neg hcd]⟩
      · intro t3 h3
        simp only [if_neg hne, if_true, Option.bind_some]
        refine foldlM_skip _ _ _ fun t4 h4 => ?_
        exact if_pos ((hl' t3 h3).trans (hl' t4 h4).symm)
    by_cases hs : st.h.size (st.h.rep a) < st.h.size (st.h.rep b)
    · simp only [if_pos hs] at he
      exact key _ _ (Or.inr ⟨rfl, rfl⟩) he
    · simp only [if_neg hs] at he
      exact key _ _ (Or.inl ⟨rfl, rfl⟩) he

theorem kept_assumption {ar : Nat → Nat} (k : Nat) (e : UT × UT) (st : St) (ha : PairAr ar e) (hw : WF ar st) (h : Kept st) (st' : St)
    (he : addAssumption (k + 1) st e = some st') : Kept st' := by
  obtain ⟨c, st1, e1, l1, k1, -⟩ := getClass_spec ar e.1 st ha.1 hw
  obtain ⟨c', st2, e2, l2, k2, -⟩ := getClass_spec ar e.2 st1 ha.2 l1.wf
  simp only [addAssumption, e1, e2, Option.bind_some] at he
  exact kept_merge k st2 c c' l2.wf (l2.known _ k1) k2
    (kept_getClass e.2 st1 ha.2 l1.wf (kept_getClass e.1 st ha.1 hw h c st1 e1) c' st2 e2) st' he

theorem kept_goalPairs {ar : Nat → Nat} (g : List (UT × UT)) (st : St) (ha : ∀ e ∈ g, PairAr ar e) (hw : WF ar st) (h : Kept st)
    (ps : List (Nat × Nat)) (st' : St) (he : goalPairs g st = some (ps, st')) :
    Kept st' ∧ Looked ar st st' ∧ ∀ p ∈ ps, Known st' p.1 ∧ Known st' p.2 := by
  induction g generalizing st ps st' with
  | nil => simp only [goalPairs] at he; cases he; exact ⟨h, Looked.refl hw, by simp⟩
  | cons e g ih =>
    obtain ⟨c, st1, e1, l1, k1, -⟩ := getClass_spec ar e.1 st (ha e (by simp)).1 hw
    obtain ⟨c', st2, e2, l2, k2, -⟩ := getClass_spec ar e.2 st1 (ha e (by simp)).2 l1.wf
    simp only [goalPairs, e1, e2, Option.bind_some] at he
    obtain ⟨r3, e3, e4⟩ := Option.bind_eq_some_iff.1 he
    cases e4
    have := ih st2 (fun e he => ha e (by simp [he])) l2.wf
      (kept_getClass e.2 st1 (ha e (by simp)).2 l1.wf (kept_getClass e.1 st (ha e (by simp)).1 hw h c st1 e1) c' st2 e2) r3.1 r3.2 e3
    refine ⟨this.1, (l1.trans l2).trans this.2.1, fun p hp => ?_⟩
    rcases List.mem_cons.1 hp with rfl | hp
    · exact ⟨this.2.1.known _ (l2.known _ k1), this.2.1.known _ k2⟩
    · exact this.2.2 p hp

theorem kept_addGoal {ar : Nat → Nat} (g : List (UT × UT)) (st : St) (ha : ∀ e ∈ g, PairAr ar e) (hw : WF ar st) (h : Kept st)
    (st' : St) (he : addGoal st g = some st') : Kept st' ∧ WF ar st' := by
  simp only [addGoal] at he
  obtain ⟨r, e1, e2⟩ := Option.bind_eq_some_iff.1 he
  cases e2
  obtain ⟨h1, l1, k1⟩ := kept_goalPairs g st ha hw h r.1 r.2 e1
  refine ⟨⟨h1.keyRep, h1.keyTerm, h1.args, h1.const, fun g' hg' p hp => ?_⟩,
    ⟨l1.wf.idem, l1.wf.lt, l1.wf.fresh, l1.wf.cls, l1.wf.args, l1.wf.arity, l1.wf.metas, l1.wf.uniq, l1.wf.sup, l1.wf.supF, l1.wf.supM⟩⟩
  simp only [List.mem_append, List.mem_singleton] at hg'
  rcases hg' with hg' | rfl
  · exact h1.goals g' hg' p hp
  · exact ⟨(k1 p hp).1.2, (k1 p hp).2.2⟩

theorem kept_final {ar : Nat → Nat} (k : Nat) (E : List (UT × UT)) (gs : List (List (UT × UT))) (hE : ∀ e ∈ E, PairAr ar e)
    (hg : ∀ g ∈ gs, ∀ e ∈ g, PairAr ar e) (st : St) (he : final (k + 1) E gs = some st) : Kept st := by
  have h0 : Kept ⟨Heap.empty, Pb.new⟩ := ⟨by simp [Pb.new], by simp [Pb.new], by simp [Pb.new], by simp [Pb.new], by simp [Pb.new]⟩
  have A : ∀ (E done : List (UT × UT)) (st st' : St), (∀ e ∈ E, PairAr ar e) → Holds ar done st → Kept st →
      E.foldlM (addAssumption (k + 1)) st = some st' → Kept st' := by
    intro E
    induction E with
    | nil => intro done st st' _ _ h he; cases he; exact h
    | cons e E ih =>
      intro done st st' ha hh h he
      obtain ⟨st1, e1, h1, -⟩ := addAssumption_spec ar k done e st (ha e (by simp)) hh
      rw [List.foldlM_cons, e1] at he
      exact ih (done ++ [e]) st1 st' (fun e he => ha e (by simp [he])) h1
        (kept_assumption k e st (ha e (by simp)) hh.wf h st1 e1) he
  have G : ∀ (gs : List (List (UT × UT))) (st st' : St), (∀ g ∈ gs, ∀ e ∈ g, PairAr ar e) → WF ar st → Kept st →
      gs.foldlM addGoal st = some st' → Kept st' := by
    intro gs
    induction gs with
    | nil => intro st st' _ _ h he; cases he; exact h
    | cons g gs ih =>
      intro st st' ha hw h he
      rw [List.foldlM_cons] at he
      obtain ⟨st1, e1, e2⟩ := Option.bind_eq_some_iff.1 he
      have := kept_addGoal g st (ha g (by simp)) hw h st1 e1
      exact ih st1 st' (fun g hg => ha g (by simp [hg])) this.2 this.1 e2
  obtain ⟨st1, e1, h1, -⟩ := assumptions_spec ar k E [] ⟨Heap.empty, Pb.new⟩ hE (holds_empty ar)
  simp only [final, e1, Option.bind_some] at he
  exact G gs st1 st hg h1.wf (A E [] _ st1 hE (holds_empty ar) h0 e1) he

/-- The state of a problem. -/
structure Ready (ar : Nat → Nat) (E : List (UT × UT)) (gs : List (List (UT × UT))) (st : St) : Prop where
  holds : Holds ar E st
  kept : Kept st
  goals : All2 (PairsHave st) gs st.p.goals

theorem ready (ar : Nat → Nat) (k : Nat) (E : List (UT × UT)) (gs : List (List (UT × UT))) (hE : ∀ e ∈ E, PairAr ar e)
    (hg : ∀ g ∈ gs, ∀ e ∈ g, PairAr ar e) : ∃ st, problem (k + 1) E gs = some st ∧ Ready ar E gs st := by
  obtain ⟨st1, e1, h1, g1, -⟩ := assumptions_spec ar k E [] ⟨Heap.empty, Pb.new⟩ hE (holds_empty ar)
  obtain ⟨st2, e2, h2, g2, -⟩ := goals_spec ar E gs [] st1 hg (by simpa using h1) (by rw [g1]; exact .nil)
  have he : problem (k + 1) E gs = some st2 := by simp only [problem, final, e1, Option.bind_some, e2]
  exact ⟨st2, he, h2, kept_final k E gs hE hg st2 he, by simpa using g2⟩

theorem ready_of (ar : Nat → Nat) {k : Nat} {E : List (UT × UT)} {gs : List (List (UT × UT))} (hE : ∀ e ∈ E, PairAr ar e)
    (hg : ∀ g ∈ gs, ∀ e ∈ g, PairAr ar e) {st : St} (he : problem (k + 1) E gs = some st) : Ready ar E gs st := by
  obtain ⟨st', e, r⟩ := ready ar k E gs hE hg
  rw [e] at he; cases he; exact r

end Verif.Equality.Sat
