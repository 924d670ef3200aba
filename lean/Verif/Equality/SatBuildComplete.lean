import Verif.Equality.SatBuildReal

/-!
# Bounded solutions are found
-/

namespace Verif.Equality.Sat
open Verif.Unif Verif.Equality

/-! ### Every class has a term -/

/-- The arguments of records represent terms. -/
def Named (st : St) : Prop := ∀ r ∈ st.p.funs, ∃ ts, HasL st ts r.args

theorem _root_.Verif.Equality.HasL.mono {st st' : St} (hle : Le st st') {ts : List UT} {cs : List Nat} (h : HasL st ts cs) : HasL st' ts cs :=
  hasL_mono ts (fun t _ => Has.mono hle t) cs h

theorem Named.mono {st st' : St} (hle : Le st st') (hf : st'.p.funs = st.p.funs) (h : Named st) : Named st' := by
  intro r hr
  rw [hf] at hr
  obtain ⟨ts, ht⟩ := h r hr
  exact ⟨ts, ht.mono hle⟩

theorem named_getClassL {ar : Nat → Nat} (ts : List UT)
    (ih : ∀ t ∈ ts, ∀ st, t.Ar ar → WF ar st → Named st → ∀ c st', getClass t st = some (c, st') → Named st') (st : St)
    (ha : UT.ArL ar ts) (hw : WF ar st) (h : Named st) (cs : List Nat) (st' : St) (he : getClassL ts st = some (cs, st')) : Named st' := by
  induction ts generalizing st cs st' with
  | nil => simp only [getClassL] at he; cases he; exact h
  | cons t ts ihl =>
    simp only [UT.ArL] at ha
    obtain ⟨c, st1, e1, l1, -⟩ := getClass_spec ar t st ha.1 hw
    simp only [getClassL, e1, Option.bind_some] at he
    obtain ⟨r2, e2, e3⟩ := Option.bind_eq_some_iff.1 he
    cases e3
    exact ihl (fun t ht => ih t (by simp [ht])) st1 ha.2 l1.wf (ih t (by simp) st ha.1 hw h c st1 e1) r2.1 r2.2 e2

theorem named_getClass {ar : Nat → Nat} (t : UT) : ∀ st, t.Ar ar → WF ar st → Named st → ∀ c st', getClass t st = some (c, st') →
    Named st' := by
  induction t using UT.ind with
  | mv i =>
    intro st _ hw h c st' he
    obtain ⟨c0, st0, e0, l0, -⟩ := getClass_mv ar i st hw
    rw [e0] at he
    cases he
    refine h.mono l0.le ?_
    simp only [getClass] at e0
    split at e0
    · cases e0; rfl
    · cases e0; rfl
  | fn f args ih =>
    intro st ha hw h c st' he
    have ha0 := ha
    simp only [UT.Ar] at ha
    obtain ⟨cs, st1, e1, l1, k1, hL, -, n1⟩ := getClassL_spec ar args (fun t _ st h1 h2 => getClass_spec ar t st h1 h2) st ha.2 hw
    have h1 := named_getClassL args ih st ha.2 hw h cs st1 e1
    simp only [getClass, e1, Option.bind_some] at he
    have h0 := l1.wf
    have hfind := findCongruent_spec st1.h.rep ⟨f, cs, st1.h.next⟩ st1.p.funs
      (fun r hr hs => by simp only at hs ⊢; rw [n1, ha.1, h0.arity r hr, hs])
    rcases hfind with ⟨r, hr, hfr, hs, hargs⟩ | ⟨hfr, hno⟩
    · simp only [newClass, hfr, Option.bind_some, Option.some.injEq, Prod.mk.injEq] at he
      rw [← he.2]
      exact Named.mono (st := st1) ⟨fun _ _ h => h, fun _ h => h, fun _ h => h⟩ rfl h1
    · simp only [newClass, hfr, Option.bind_some, Option.some.injEq, Prod.mk.injEq] at he
      rw [← he.2]
      have le : Le st1 (addFun (newClass st1).2 ⟨f, cs, st1.h.next⟩) :=
        ⟨fun _ _ h => h, fun r hr => by simp [addFun, newClass, hr], fun _ h => h⟩
      intro r hr
      simp only [addFun, List.mem_append, List.mem_singleton] at hr
      rcases hr with hr | rfl
      · obtain ⟨ts, ht⟩ := h1 r hr
        exact ⟨ts, ht.mono le⟩
      · exact ⟨args, hL.mono le⟩

theorem named_final {ar : Nat → Nat} (k : Nat) (E : List (UT × UT)) (gs : List (List (UT × UT))) (hE : ∀ e ∈ E, PairAr ar e)
    (hg : ∀ g ∈ gs, ∀ e ∈ g, PairAr ar e) (st : St) (he : final (k + 1) E gs = some st) : Named st := by
  have h0 : Named ⟨Heap.empty, Pb.new⟩ := by simp [Named, Pb.new]
  have A : ∀ (E : List (UT × UT)) (st st' : St), (∀ e ∈ E, PairAr ar e) → WF ar st → Named st →
      E.foldlM (addAssumption (k + 1)) st = some st' → Named st' ∧ WF ar st' := by
    intro E
    induction E with
    | nil => intro st st' _ hw h he; cases he; exact ⟨h, hw⟩
    | cons e E ih =>
      intro st st' ha hw h he
      have hae := ha e (by simp)
      obtain ⟨c, st1, e1, l1, k1, -⟩ := getClass_spec ar e.1 st hae.1 hw
      obtain ⟨c', st2, e2, l2, k2, -⟩ := getClass_spec ar e.2 st1 hae.2 l1.wf
      obtain ⟨st3, e3, w3, f3, m3, -, -, -, p3, -⟩ := merge_spec ar k st2 c c' l2.wf (l2.known _ k1) k2
      rw [List.foldlM_cons] at he
      simp only [addAssumption, e1, e2, e3, Option.bind_some] at he
      refine ih st3 st' (fun e he => ha e (by simp [he])) w3 ?_ he
      exact (named_getClass e.2 st1 hae.2 l1.wf (named_getClass e.1 st hae.1 hw h c st1 e1) c' st2 e2).mono
        ⟨p3, fun r hr => f3 ▸ hr, fun r hr => m3 ▸ hr⟩ f3
  have P : ∀ (g : List (UT × UT)) (st : St) (ps : List (Nat × Nat)) (st' : St), (∀ e ∈ g, PairAr ar e) → WF ar st → Named st →
      goalPairs g st = some (ps, st') → Named st' ∧ WF ar st' := by
    intro g
    induction g with
    | nil => intro st ps st' _ hw h he; simp only [goalPairs] at he; cases he; exact ⟨h, hw⟩
    | cons e g ih =>
      intro st ps st' ha hw h he
      have hae := ha e (by simp)
      obtain ⟨c, st1, e1, l1, -⟩ := getClass_spec ar e.1 st hae.1 hw
      obtain ⟨c', st2, e2, l2, -⟩ := getClass_spec ar e.2 st1 hae.2 l1.wf
      simp only [goalPairs, e1, e2, Option.bind_some] at he
      obtain ⟨r3, e3, e4⟩ := Option.bind_eq_some_iff.1 he
      cases e4
      exact ih st2 r3.1 r3.2 (fun e he => ha e (by simp [he])) l2.wf
        (named_getClass e.2 st1 hae.2 l1.wf (named_getClass e.1 st hae.1 hw h c st1 e1) c' st2 e2) e3
  have G : ∀ (gs : List (List (UT × UT))) (st st' : St), (∀ g ∈ gs, ∀ e ∈ g, PairAr ar e) → WF ar st → Named st →
      gs.foldlM addGoal st = some st' → Named st' := by
    intro gs
    induction gs with
    | nil => intro st st' _ _ h he; cases he; exact h
    | cons g gs ih =>
      intro st st' ha hw h he
      rw [List.foldlM_cons] at he
      obtain ⟨st1, e1, e2⟩ := Option.bind_eq_some_iff.1 he
      simp only [addGoal] at e1
      obtain ⟨r, e3, e4⟩ := Option.bind_eq_some_iff.1 e1
      cases e4
      obtain ⟨n1, w1⟩ := P g st r.1 r.2 (ha g (by simp)) hw h e3
      refine ih _ st' (fun g hg => ha g (by simp [hg])) ?_ ?_ e2
      · exact ⟨w1.idem, w1.lt, w1.fresh, w1.cls, w1.args, w1.arity, w1.metas, w1.uniq, w1.sup, w1.supF, w1.supM⟩
      · exact Named.mono (st := r.2) ⟨fun _ _ h => h, fun _ h => h, fun _ h => h⟩ rfl n1
  simp only [final] at he
  obtain ⟨st1, e1, e2⟩ := Option.bind_eq_some_iff.1 he
  obtain ⟨n1, w1⟩ := A E _ st1 hE (holds_empty ar).wf h0 e1
  exact G gs st1 st hg w1 n1 e2

/-- A class that has a record represents a term. -/
theorem has_term {ar : Nat → Nat} {st : St} (hw : WF ar st) (hk : Kept st) (hN : Named st) {c : Nat} (hc : (st.p.super c).isSome) :
    ∃ t, Has st t c := by
  have hr := (hk.keyRep c hc).1
  rcases hk.keyTerm c hc with ⟨r, h1, h2⟩ | ⟨e, h1, h2⟩
  · obtain ⟨ts, ht⟩ := hN r h1
    exact ⟨.fn r.sym ts, by simp only [Has]; exact ⟨r, h1, rfl, ht, by rw [hr, h2]⟩⟩
  · exact ⟨.mv e.1, by simp only [Has]; exact ⟨e.2, h1, by rw [hr, h2]⟩⟩

/-! ### Terms of the problem have classes -/

theorem hasL_mem {st : St} {ts : List UT} {cs : List Nat} (h : HasL st ts cs) :
    (∀ t ∈ ts, ∃ c ∈ cs, Has st t c) ∧ ∀ c ∈ cs, ∃ t ∈ ts, Has st t c := by
  induction ts generalizing cs with
  | nil => cases cs <;> simp_all [HasL]
  | cons t ts ih =>
    cases cs with
    | nil => simp [HasL] at h
    | cons c cs =>
      simp only [HasL] at h
      obtain ⟨h1, h2⟩ := ih h.2
      refine ⟨fun t' ht' => ?_, fun c' hc' => ?_⟩
      · rcases List.mem_cons.1 ht' with rfl | ht'
        · exact ⟨c, by simp, h.1⟩
        · obtain ⟨c', a, b⟩ := h1 t' ht'; exact ⟨c', by simp [a], b⟩
      · rcases List.mem_cons.1 hc' with rfl | hc'
        · exact ⟨t, by simp, h.1⟩
        · obtain ⟨t', a, b⟩ := h2 c' hc'; exact ⟨t', by simp [a], b⟩

theorem has_sub {st : St} {s t : UT} (hs : Sub s t) : ∀ c, Has st t c → ∃ d, Has st s d := by
  induction hs with
  | refl => intro c h; exact ⟨c, h⟩
  | arg hm _ ih =>
    intro c h
    simp only [Has] at h
    obtain ⟨r, h1, h2, h3, h4⟩ := h
    obtain ⟨d, -, hd⟩ := (hasL_mem h3).1 _ hm
    exact ih d hd

theorem has_occurs {ar : Nat → Nat} {E : List (UT × UT)} {gs : List (List (UT × UT))} {st : St} (hr : Ready ar E gs st) {s : UT}
    (h : Occurs E gs s) : ∃ c, Has st s c := by
  rcases h with ⟨e, he, h⟩ | ⟨g, hg, e, he, h⟩
  · obtain ⟨c, c', h1, h2, -⟩ := hr.holds.has e he
    rcases h with h | h
    · exact has_sub h c h1
    · exact has_sub h c' h2
  · obtain ⟨ps, hps, hh⟩ := forall₂_right hr.goals g hg
    clear hps hg
    induction hh with
    | nil => cases he
    | @cons e0 p g ps hep _ ih =>
      rcases List.mem_cons.1 he with rfl | he'
      · rcases h with h | h
        · exact has_sub h _ hep.1
        · exact has_sub h _ hep.2
      · exact ih he'

theorem has_key {ar : Nat → Nat} {st : St} (hw : WF ar st) {t : UT} {c : Nat} (h : Has st t c) : (st.p.super (st.h.rep c)).isSome := by
  cases t with
  | mv x =>
    simp only [Has] at h
    obtain ⟨d, h1, h2⟩ := h
    rw [h2]; exact hw.supM _ h1
  | fn f args =>
    simp only [Has] at h
    obtain ⟨r, h1, -, -, h2⟩ := h
    rw [h2]; exact hw.supF _ h1

/-! ### Equal classes -/

section
variable (st : St) (ecs : List Nat) (bd : Nat → Nat → Prop)

/-- Two records of the same symbol with equal arguments. -/
def Cong (R : Nat → Nat → Prop) (a b : Nat) : Prop :=
  ∃ r ∈ st.p.funs, ∃ s ∈ st.p.funs, st.h.rep r.cls = a ∧ st.h.rep s.cls = b ∧ r.sym = s.sym ∧ r.args ≠ [] ∧ s.args ≠ [] ∧
    ∀ p ∈ r.args.zip s.args, R (st.h.rep p.1) (st.h.rep p.2)

/-- The classes found equal after some rounds, if metavariables are bound to classes by `bd`. -/
def Rel : Nat → Nat → Nat → Prop
  | 0, a, b => a = b ∨ (∃ e ∈ st.p.metas, st.h.rep e.2 = a ∧ bd e.1 b) ∨ ∃ e ∈ st.p.metas, st.h.rep e.2 = b ∧ bd e.1 a
  | n + 1, a, b => Rel n a b ∨ (∃ c ∈ ecs, Rel n a c ∧ Rel n c b) ∨ Cong st (Rel n) a b

variable {st ecs bd}

theorem zip_swap_mem {l m : List Nat} {p : Nat × Nat} (h : p ∈ l.zip m) : (p.2, p.1) ∈ m.zip l := by
  induction l generalizing m with
  | nil => simp at h
  | cons a l ih =>
    cases m with
    | nil => simp at h
    | cons b m =>
      simp only [List.zip_cons_cons, List.mem_cons] at h ⊢
      rcases h with rfl | h
      · exact Or.inl rfl
      · exact Or.inr (ih h)

theorem Cong.symm {R : Nat → Nat → Prop} (hR : ∀ a b, R a b → R b a) {a b : Nat} (h : Cong st R a b) : Cong st R b a := by
  obtain ⟨r, hr, s, hs, h1, h2, h3, h4, h5, h6⟩ := h
  exact ⟨s, hs, r, hr, h2, h1, h3.symm, h5, h4, fun p hp => hR _ _ (h6 _ (zip_swap_mem hp))⟩

theorem Rel.symm (n : Nat) : ∀ a b, Rel st ecs bd n a b → Rel st ecs bd n b a := by
  induction n with
  | zero =>
    rintro a b (h | h | h)
    · exact Or.inl h.symm
    · exact Or.inr (Or.inr h)
    · exact Or.inr (Or.inl h)
  | succ n ih =>
    rintro a b (h | ⟨c, hc, h1, h2⟩ | h)
    · exact Or.inl (ih _ _ h)
    · exact Or.inr (Or.inl ⟨c, hc, ih _ _ h2, ih _ _ h1⟩)
    · exact Or.inr (Or.inr (h.symm ih))

theorem Rel.refl (n a : Nat) : Rel st ecs bd n a a := by
  induction n with
  | zero => exact Or.inl rfl
  | succ n ih => exact Or.inl ih

theorem Rel.up {n m : Nat} (h : n ≤ m) {a b : Nat} (hr : Rel st ecs bd n a b) : Rel st ecs bd m a b := by
  induction h with
  | refl => exact hr
  | step _ ih => exact Or.inl ih

/-- Another round finds no more equal classes. -/
def Stable' (st : St) (ecs : List Nat) (bd : Nat → Nat → Prop) (n : Nat) : Prop :=
  ∀ a ∈ ecs, ∀ b ∈ ecs, Rel st ecs bd (n + 1) a b → Rel st ecs bd n a b

theorem stable_succ (hk : Kept st) (hn : Enum st ecs) {n : Nat} (h : Stable' st ecs bd n) : Stable' st ecs bd (n + 1) := by
  rintro a ha b hb (h1 | ⟨c, hc, h1, h2⟩ | ⟨r, hr, s, hs, e1, e2, e3, e4, e5, e6⟩)
  · exact h1
  · exact Or.inr (Or.inl ⟨c, hc, h a ha c hc h1, h c hc b hb h2⟩)
  · refine Or.inr (Or.inr ⟨r, hr, s, hs, e1, e2, e3, e4, e5, fun p hp => h _ ?_ _ ?_ (e6 p hp)⟩)
    · exact (hn.2 _).2 (hk.args r hr p.1 (List.of_mem_zip hp).1)
    · exact (hn.2 _).2 (hk.args s hs p.2 (List.of_mem_zip hp).2)

theorem pairs_length (l : List Nat) : 2 * (pairs l).length = l.length * (l.length - 1) := by
  induction l with
  | nil => rfl
  | cons a l ih =>
    simp only [pairs, List.length_append, List.length_map, List.length_cons, Nat.add_sub_cancel]
    rw [Nat.mul_add, ih]
    cases l.length with
    | zero => rfl
    | succ n => simp only [Nat.add_sub_cancel]; rw [Nat.mul_comm (n + 1) n, ← Nat.add_mul, Nat.add_comm 2]

theorem stable_exists (ecs : List Nat) : ∃ n ≤ numPairs ecs, ∀ p ∈ pairs ecs, Rel st ecs bd (n + 1) p.1 p.2 → Rel st ecs bd n p.1 p.2 := by
  classical
  refine Classical.byContradiction fun hno => ?_
  have hstep : ∀ n ≤ numPairs ecs, (pairs ecs).countP (fun p => decide (Rel st ecs bd n p.1 p.2)) <
      (pairs ecs).countP (fun p => decide (Rel st ecs bd (n + 1) p.1 p.2)) := by
    intro n hn
    have : ∃ p ∈ pairs ecs, Rel st ecs bd (n + 1) p.1 p.2 ∧ ¬ Rel st ecs bd n p.1 p.2 := by
      refine Classical.byContradiction fun h => hno ⟨n, hn, fun p hp h1 => Classical.byContradiction fun h2 => h ⟨p, hp, h1, h2⟩⟩
    obtain ⟨p, hp, h1, h2⟩ := this
    exact countP_lt (fun q _ hq => by simp only [decide_eq_true_eq] at hq ⊢; exact Or.inl hq) hp (by simpa using h2) (by simpa using h1)
  have hge : ∀ n ≤ numPairs ecs + 1, n ≤ (pairs ecs).countP (fun p => decide (Rel st ecs bd n p.1 p.2)) := by
    intro n
    induction n with
    | zero => intro _; exact Nat.zero_le _
    | succ n ih =>
      intro hn
      have h1 := ih (by omega)
      have h2 := hstep n (by omega)
      omega
  have h1 := hge _ (Nat.le_refl _)
  have h2 : (pairs ecs).countP (fun p => decide (Rel st ecs bd (numPairs ecs + 1) p.1 p.2)) ≤ (pairs ecs).length := List.countP_le_length
  have h3 := pairs_length ecs
  simp only [numPairs] at h1
  simp only [numPairs] at h2
  omega

/-- The number of rounds is enough. -/
theorem stable (hk : Kept st) (hn : Enum st ecs) : Stable' st ecs bd (numPairs ecs) := by
  obtain ⟨n, hle, h⟩ := stable_exists (st := st) (bd := bd) ecs
  have h0 : Stable' st ecs bd n := by
    intro a ha b hb hr
    by_cases e : a = b
    · rw [e]; exact Rel.refl ..
    · rcases pairs_all ha hb e with hp | hp
      · exact h _ hp hr
      · exact Rel.symm _ _ _ (h _ hp (Rel.symm _ _ _ hr))
  obtain ⟨d, e⟩ := Nat.exists_eq_add_of_le hle
  rw [e]
  clear e
  induction d with
  | zero => exact h0
  | succ d ih => exact stable_succ hk hn ih

/-! ### The equal classes as elements of an interpretation -/

/-- The classes equal to a class. -/
def block (st : St) (ecs : List Nat) (bd : Nat → Nat → Prop) (c : Nat) : Option (Nat → Prop) :=
  some fun d => d ∈ ecs ∧ Rel st ecs bd (numPairs ecs) (st.h.rep c) d

noncomputable def blockAlg (st : St) (ecs : List Nat) (bd : Nat → Nat → Prop) : Alg (Option (Nat → Prop)) := fun f ds =>
  open Classical in
  if h : ∃ r ∈ st.p.funs, r.sym = f ∧ r.args.map (block st ecs bd) = ds then block st ecs bd h.choose.cls else none

noncomputable def blockVal (st : St) (ecs : List Nat) (bd : Nat → Nat → Prop) : Nat → Option (Nat → Prop) := fun x =>
  open Classical in
  if h : ∃ d, (x, d) ∈ st.p.metas then block st ecs bd h.choose else none

theorem block_rel {a b : Nat} (hb : st.h.rep b ∈ ecs) (h : block st ecs bd a = block st ecs bd b) :
    Rel st ecs bd (numPairs ecs) (st.h.rep a) (st.h.rep b) := by
  simp only [block, Option.some.injEq] at h
  have := congrFun h (st.h.rep b)
  exact (this.mpr ⟨hb, Rel.refl ..⟩).2

theorem rel_block (hk : Kept st) (hn : Enum st ecs) {a b : Nat} (ha : st.h.rep a ∈ ecs) (hb : st.h.rep b ∈ ecs)
    (h : Rel st ecs bd (numPairs ecs) (st.h.rep a) (st.h.rep b)) : block st ecs bd a = block st ecs bd b := by
  have hs := stable (bd := bd) hk hn
  simp only [block, Option.some.injEq]
  funext d
  refine propext ⟨fun hd => ⟨hd.1, ?_⟩, fun hd => ⟨hd.1, ?_⟩⟩
  · exact hs _ hb _ hd.1 (Or.inr (Or.inl ⟨_, ha, Rel.symm _ _ _ h, hd.2⟩))
  · exact hs _ ha _ hd.1 (Or.inr (Or.inl ⟨_, hb, h, hd.2⟩))

theorem zip_map_eq {α β : Type} {f : α → β} {l m : List α} (h : l.map f = m.map f) : ∀ p ∈ l.zip m, f p.1 = f p.2 := by
  induction l generalizing m with
  | nil => simp
  | cons a l ih =>
    cases m with
    | nil => simp
    | cons b m =>
      simp only [List.map_cons, List.cons.injEq] at h
      intro p hp
      rcases List.mem_cons.1 hp with rfl | hp
      · exact h.1
      · exact ih h.2 p hp

theorem block_good {ar : Nat → Nat} (hw : WF ar st) (hk : Kept st) (hn : Enum st ecs) :
    Good (blockAlg st ecs bd) (blockVal st ecs bd) (block st ecs bd) st := by
  have key : ∀ c, (st.p.super (st.h.rep c)).isSome → st.h.rep c ∈ ecs := fun c h => (hn.2 _).2 h
  refine ⟨fun c => by simp only [block, hw.idem], fun r hr => ?_, fun e he => ?_⟩
  · have hex : ∃ s ∈ st.p.funs, s.sym = r.sym ∧ s.args.map (block st ecs bd) = r.args.map (block st ecs bd) := ⟨r, hr, rfl, rfl⟩
    simp only [blockAlg, dif_pos hex]
    obtain ⟨h1, h2, h3⟩ := hex.choose_spec
    generalize hex.choose = s at h1 h2 h3
    by_cases hargs : r.args = []
    · have hs : s.args = [] := by rw [hargs] at h3; simpa using h3
      rw [hk.const r hr s h1 h2.symm hargs hs]
    · have hs : s.args ≠ [] := by intro e; rw [e] at h3; exact hargs (by simpa using h3.symm)
      refine rel_block hk hn (key _ (hw.supF _ hr)) (key _ (hw.supF _ h1)) ?_
      refine stable (bd := bd) hk hn _ (key _ (hw.supF _ hr)) _ (key _ (hw.supF _ h1)) (Or.inr (Or.inr
        ⟨r, hr, s, h1, rfl, rfl, h2.symm, hargs, hs, fun p hp => ?_⟩))
      exact block_rel (key _ (hk.args s h1 p.2 (List.of_mem_zip hp).2)) (zip_map_eq h3.symm p hp)
  · have hex : ∃ d, (e.1, d) ∈ st.p.metas := ⟨e.2, he⟩
    simp only [blockVal, dif_pos hex]
    rw [hw.uniq e he (e.1, hex.choose) hex.choose_spec rfl]

end

/-! ### Smallest terms -/

/-- The size of a term whose metavariables have given sizes. -/
def weight (ρ : Nat → Nat) (t : UT) : Nat := t.eval (fun _ ds => 1 + ds.sum) ρ

theorem weight_arg {ρ : Nat → Nat} {f : Nat} {ts : List UT} {t : UT} (h : t ∈ ts) : weight ρ t < weight ρ (.fn f ts) := by
  have : ∀ (l : List UT), t ∈ l → weight ρ t ≤ (l.map (weight ρ)).sum := by
    intro l
    induction l with
    | nil => intro h; cases h
    | cons a l ih =>
      intro h
      simp only [List.map_cons, List.sum_cons]
      rcases List.mem_cons.1 h with rfl | h
      · omega
      · have := ih h; omega
  have := this ts h
  show _ < UT.eval _ _ _
  simp only [UT.eval, UT.evalL_eq]
  show _ < 1 + (ts.map (weight ρ)).sum
  omega

theorem least_exists {α : Type} (P : α → Prop) (w : α → Nat) (h : ∃ a, P a) : ∃ a, P a ∧ ∀ b, P b → w a ≤ w b := by
  have : ∀ n, ∀ a, P a → w a ≤ n → ∃ a, P a ∧ ∀ b, P b → w a ≤ w b := by
    intro n
    induction n with
    | zero => intro a ha hn; exact ⟨a, ha, fun b _ => by omega⟩
    | succ n ih =>
      intro a ha hn
      by_cases hb : ∃ b, P b ∧ w b < w a
      · obtain ⟨b, hb1, hb2⟩ := hb
        exact ih b hb1 (by omega)
      · exact ⟨a, ha, fun b hb' => Classical.byContradiction fun hlt => hb ⟨b, hb', by omega⟩⟩
  obtain ⟨a, ha⟩ := h
  exact this _ a ha (Nat.le_refl _)

/-- A smallest term of a class. -/
noncomputable def best (st : St) (ρ : Nat → Nat) (c : Nat) : UT :=
  open Classical in
  if h : ∃ t, Has st t c ∧ ∀ t', Has st t' c → weight ρ t ≤ weight ρ t' then h.choose else .fn 0 []

theorem best_spec {st : St} {ρ : Nat → Nat} {c : Nat} (h : ∃ t, Has st t c) :
    Has st (best st ρ c) c ∧ ∀ t, Has st t c → weight ρ (best st ρ c) ≤ weight ρ t := by
  have hex := least_exists (fun t => Has st t c) (weight ρ) h
  rw [best, dif_pos hex]
  exact hex.choose_spec

noncomputable def low (st : St) (ρ : Nat → Nat) (c : Nat) : Nat := weight ρ (best st ρ c)

/-- A record of a smallest term of a class. -/
def Chosen (st : St) (ρ : Nat → Nat) (c : Nat) : TR → Prop
  | .mv x d => (x, d) ∈ st.p.metas ∧ st.h.rep d = st.h.rep c ∧ best st ρ c = .mv x
  | .fn r => r ∈ st.p.funs ∧ st.h.rep r.cls = st.h.rep c ∧ ∃ ts, best st ρ c = .fn r.sym ts ∧ HasL st ts r.args

/-! ### The assignment -/

/-- What the literals are to mean. -/
def Holds' (st : St) (ecs : List Nat) (bd : Nat → Nat → Prop) (ρ : Nat → Nat) : Var → Prop
  | .S x c => bd x c
  | .E n a b => Rel st ecs bd n a b
  | .R c t => Chosen st ρ c t
  | .O a b => low st ρ a < low st ρ b
  | .C i => ∃ h : i < st.p.goals.length, ∀ p ∈ st.p.goals[i], Rel st ecs bd (numPairs ecs) (st.h.rep p.1) (st.h.rep p.2)
  | .Phi n a b => ∃ c ∈ ecs, c ≠ a ∧ c ≠ b ∧ Rel st ecs bd n a c ∧ Rel st ecs bd n c b
  | .Psi n a b => Cong st (Rel st ecs bd n) a b
  | .F n r s => ∀ p ∈ r.args.zip s.args, Rel st ecs bd n (st.h.rep p.1) (st.h.rep p.2)
  | .T n a b c => Rel st ecs bd n a c ∧ Rel st ecs bd n c b

section
variable {st : St} {ecs : List Nat} {bd : Nat → Nat → Prop} {ρ : Nat → Nat}

theorem holds_E {n a b : Nat} : Holds' st ecs bd ρ (vE st n a b) ↔ Rel st ecs bd n (st.h.rep a) (st.h.rep b) := by
  simp only [vE]
  split
  · rfl
  · exact ⟨fun h => Rel.symm _ _ _ h, fun h => Rel.symm _ _ _ h⟩

theorem holds_Phi {n a b : Nat} : Holds' st ecs bd ρ (vPhi st n a b) ↔
    ∃ c ∈ ecs, c ≠ st.h.rep a ∧ c ≠ st.h.rep b ∧ Rel st ecs bd n (st.h.rep a) c ∧ Rel st ecs bd n c (st.h.rep b) := by
  simp only [vPhi]
  split
  · rfl
  · constructor <;> rintro ⟨c, h1, h2, h3, h4, h5⟩ <;> exact ⟨c, h1, h3, h2, Rel.symm _ _ _ h5, Rel.symm _ _ _ h4⟩

theorem holds_Psi {n a b : Nat} : Holds' st ecs bd ρ (vPsi st n a b) ↔ Cong st (Rel st ecs bd n) (st.h.rep a) (st.h.rep b) := by
  simp only [vPsi]
  split
  · rfl
  · exact ⟨fun h => h.symm (Rel.symm n), fun h => h.symm (Rel.symm n)⟩

theorem holds_T {n a b c : Nat} : Holds' st ecs bd ρ (vT st n a b c) ↔
    Rel st ecs bd n (st.h.rep a) (st.h.rep c) ∧ Rel st ecs bd n (st.h.rep c) (st.h.rep b) := by
  simp only [vT]
  split
  · rfl
  · constructor <;> rintro ⟨h1, h2⟩ <;> exact ⟨Rel.symm _ _ _ h2, Rel.symm _ _ _ h1⟩

theorem holds_F {n : Nat} {r s : Rec} : Holds' st ecs bd ρ (vF n r s) ↔
    ∀ p ∈ r.args.zip s.args, Rel st ecs bd n (st.h.rep p.1) (st.h.rep p.2) := by
  simp only [vF]
  split
  · rfl
  · constructor <;> intro h p hp <;> exact Rel.symm _ _ _ (h _ (zip_swap_mem hp))

/-- What is needed of the bindings. -/
structure Fits (st : St) (ecs : List Nat) (bd : Nat → Nat → Prop) (ρ : Nat → Nat) : Prop where
  mem : ∀ x c, bd x c → c ∈ ecs
  one : ∀ x c d, bd x c → bd x d → c = d
  low : ∀ x c, bd x c → ∃ s, Has st s c ∧ weight ρ s = ρ x
  goal : ∃ g ∈ st.p.goals, ∀ p ∈ g, Rel st ecs bd (numPairs ecs) (st.h.rep p.1) (st.h.rep p.2)

noncomputable def asgOf (st : St) (ecs : List Nat) (bd : Nat → Nat → Prop) (ρ : Nat → Nat) (v : Var) : Bool :=
  open Classical in decide (Holds' st ecs bd ρ v)

theorem asg_true {v : Var} (h : Holds' st ecs bd ρ v) : asgOf st ecs bd ρ v = true := by simp [asgOf, h]
theorem asg_false {v : Var} (h : ¬ Holds' st ecs bd ρ v) : asgOf st ecs bd ρ v = false := by simp [asgOf, h]

/-- A clause with negative literals and then positive ones. -/
theorem clause_of {c : Clause} (h : (∀ l ∈ c, l.2 = false → Holds' st ecs bd ρ l.1) → ∃ l ∈ c, l.2 = true ∧ Holds' st ecs bd ρ l.1) :
    ∃ l ∈ c, asgOf st ecs bd ρ l.1 = l.2 := by
  by_cases hn : ∀ l ∈ c, l.2 = false → Holds' st ecs bd ρ l.1
  · obtain ⟨l, hl, e, hh⟩ := h hn
    exact ⟨l, hl, by rw [e]; exact asg_true hh⟩
  · have : ∃ l ∈ c, l.2 = false ∧ ¬ Holds' st ecs bd ρ l.1 := by
      refine Classical.byContradiction fun h => hn fun l hl e => Classical.byContradiction fun hh => h ⟨l, hl, e, hh⟩
    obtain ⟨l, hl, e, hh⟩ := this
    exact ⟨l, hl, by rw [e]; exact asg_false hh⟩

/-- The assignment satisfies the clauses. -/
theorem asg_sat {ar : Nat → Nat} (hw : WF ar st) (hk : Kept st) (hN : Named st) (hn : Enum st ecs) {cs : List Clause}
    (hb : build st ecs = some cs) (hf : Fits st ecs bd ρ) : Sat (asgOf st ecs bd ρ) cs := by
  obtain ⟨es, he, hmem⟩ := mem_build hb
  have hrep : ∀ c ∈ ecs, st.h.rep c = c := fun c hc => keyRep hk hn hc
  have term : ∀ c ∈ ecs, ∃ t, Has st t c := fun c hc => has_term hw hk hN ((hn.2 c).1 hc)
  intro c hc
  obtain ⟨hall, hne⟩ := (hmem c).1 hc
  refine clause_of fun neg => ?_
  rcases mem_all.1 hall with h | h | h | h | rfl | h | h | h | h | h
  · -- a metavariable has one class
    obtain ⟨x, hx, h⟩ := List.mem_flatMap.1 h
    obtain ⟨p, hp, rfl⟩ := List.mem_map.1 h
    have h1 : bd x.1 (st.h.rep p.1) := neg (vS st x.1 p.1, false) (by simp) rfl
    have h2 : bd x.1 (st.h.rep p.2) := neg (vS st x.1 p.2, false) (by simp) rfl
    have := hf.one _ _ _ h1 h2
    rw [hrep _ (mem_pairs hp).1, hrep _ (mem_pairs hp).2] at this
    exact absurd this (pairs_ne hn.1 hp)
  · -- no round
    obtain ⟨p, hp, rfl⟩ := List.mem_map.1 h
    have h1 := holds_E.1 (neg (vE st 0 p.1 p.2, false) (by simp) rfl)
    rcases h1 with h1 | ⟨e, he', h2, h3⟩ | ⟨e, he', h2, h3⟩
    · rw [hrep _ (mem_pairs hp).1, hrep _ (mem_pairs hp).2] at h1
      exact absurd h1 (pairs_ne hn.1 hp)
    · refine ⟨(vS st e.1 p.2, true), ?_, rfl, h3⟩
      simp only [List.mem_cons, List.mem_append, List.mem_map]
      exact Or.inr (Or.inl ⟨e.1, mem_metasIn.2 ⟨e.2, he', h2⟩, rfl⟩)
    · refine ⟨(vS st e.1 p.1, true), ?_, rfl, h3⟩
      simp only [List.mem_cons, List.mem_append, List.mem_map]
      exact Or.inr (Or.inr ⟨e.1, mem_metasIn.2 ⟨e.2, he', h2⟩, rfl⟩)
  · -- a round
    obtain ⟨n, hlt, p, hp, hpne, ps, hps, h⟩ := (mem_eClauses he c).1 h
    rcases h with rfl | h | h
    · have h1 := holds_E.1 (neg (vE st (n + 1) p.1 p.2, false) (by simp) rfl)
      rcases h1 with h1 | ⟨d, hd, h1, h2⟩ | h1
      · exact ⟨(vE st n p.1 p.2, true), by simp, rfl, holds_E.2 h1⟩
      · by_cases e1 : d = st.h.rep p.1
        · exact ⟨(vE st n p.1 p.2, true), by simp, rfl, holds_E.2 (e1 ▸ h2)⟩
        · by_cases e2 : d = st.h.rep p.2
          · exact ⟨(vE st n p.1 p.2, true), by simp, rfl, holds_E.2 (e2 ▸ h1)⟩
          · exact ⟨(vPhi st n p.1 p.2, true), by simp, rfl, holds_Phi.2 ⟨d, hd, e1, e2, h1, h2⟩⟩
      · exact ⟨(vPsi st n p.1 p.2, true), by simp, rfl, holds_Psi.2 h1⟩
    · simp only [phiClauses, List.mem_append, List.mem_flatMap, List.mem_singleton] at h
      rcases h with ⟨d, -, h⟩ | rfl
      · simp only [List.mem_cons, List.not_mem_nil, or_false] at h
        rcases h with rfl | rfl
        · have h1 := holds_T.1 (neg (vT st n p.1 p.2 d, false) (by simp) rfl)
          exact ⟨(vE st n p.1 d, true), by simp, rfl, holds_E.2 h1.1⟩
        · have h1 := holds_T.1 (neg (vT st n p.1 p.2 d, false) (by simp) rfl)
          exact ⟨(vE st n d p.2, true), by simp, rfl, holds_E.2 h1.2⟩
      · obtain ⟨d, hd, h1, h2, h3, h4⟩ := holds_Phi.1 (neg (vPhi st n p.1 p.2, false) (by simp) rfl)
        refine ⟨(vT st n p.1 p.2 d, true), ?_, rfl, holds_T.2 (by rw [hrep d hd]; exact ⟨h3, h4⟩)⟩
        simp only [List.mem_cons, List.mem_map, List.mem_filter]
        exact Or.inr ⟨d, ⟨hd, by rw [hrep d hd]; simp [h1, h2]⟩, rfl⟩
    · rcases (mem_psiClauses hps c).1 h with ⟨q, hq, z, hz, a, ha, rfl⟩ | rfl
      · obtain ⟨f1, -, -, f4, f5, -⟩ := mem_psiPairs.1 hq
        rw [zipArgs_some (by rw [hw.arity _ f1, hw.arity _ f4, f5])] at hz
        cases hz
        have h1 := holds_F.1 (neg (vF n q.1 q.2, false) (by simp) rfl)
        exact ⟨(vE st n a.1 a.2, true), by simp, rfl, holds_E.2 (h1 a ha)⟩
      · obtain ⟨r, hr, s, hs, h1, h2, h3, h4, -, h5⟩ := holds_Psi.1 (neg (vPsi st n p.1 p.2, false) (by simp) rfl)
        refine ⟨(vF n r s, true), ?_, rfl, holds_F.2 h5⟩
        simp only [List.mem_cons, List.mem_map]
        exact Or.inr ⟨(r, s), mem_psiPairs.2 ⟨hr, h1, h4, hs, h3.symm, by rw [h1, h2]; exact hpne⟩, rfl⟩
  · -- the equations of a goal
    obtain ⟨j, hj, p, hp, rfl⟩ := mem_goalClauses.1 h
    obtain ⟨hj', h1⟩ := neg (Var.C (0 + j), false) (by simp) rfl
    refine ⟨(vE st (numPairs ecs) p.1 p.2, true), by simp, rfl, holds_E.2 ?_⟩
    simp only [Nat.zero_add] at h1
    exact h1 p hp
  · -- some goal
    obtain ⟨g, hg, h1⟩ := hf.goal
    obtain ⟨i, hi, rfl⟩ := List.getElem_of_mem hg
    exact ⟨(Var.C i, true), by simp only [goalClause, List.mem_map, List.mem_range]; exact ⟨i, hi, rfl⟩, rfl, hi, h1⟩
  · -- representation
    obtain ⟨i, hi, rfl⟩ := List.mem_map.1 h
    have hb' := (best_spec (ρ := ρ) (term i hi)).1
    cases hbe : best st ρ i with
    | mv x =>
      rw [hbe] at hb'
      simp only [Has] at hb'
      obtain ⟨d, h1, h2⟩ := hb'
      refine ⟨(vR st i (.mv x d), true), List.mem_map.2 ⟨_, mem_termsIn.2 (Or.inr ⟨(x, d), h1, rfl, h2.symm⟩), rfl⟩, rfl, ?_⟩
      rw [vR, hrep i hi]
      exact ⟨h1, h2.symm, hbe⟩
    | fn f ts =>
      rw [hbe] at hb'
      simp only [Has] at hb'
      obtain ⟨r, h1, h2, h3, h4⟩ := hb'
      refine ⟨(vR st i (.fn r), true), List.mem_map.2 ⟨_, mem_termsIn.2 (Or.inl ⟨r, h1, rfl, h4.symm⟩), rfl⟩, rfl, ?_⟩
      rw [vR, hrep i hi]
      exact ⟨h1, h4.symm, ts, by rw [hbe, h2], h3⟩
  · -- subterms
    obtain ⟨i, hi, h⟩ := List.mem_flatMap.1 h
    obtain ⟨r, hr, h⟩ := List.mem_flatMap.1 h
    obtain ⟨a, ha, rfl⟩ := List.mem_map.1 h
    have h1 := neg (vR st i (.fn r), false) (by simp) rfl
    rw [vR, hrep i hi] at h1
    obtain ⟨h2, -, ts, h3, h4⟩ := h1
    refine ⟨(vO st a i, true), by simp, rfl, ?_⟩
    rw [vO, hrep i hi]
    obtain ⟨t, ht, h5⟩ := (hasL_mem h4).2 a ha
    have h6 : Has st t (st.h.rep a) := h5.congr (hw.idem a).symm
    have h7 := (best_spec (ρ := ρ) ⟨t, h6⟩).2 t h6
    have h8 : weight ρ t < weight ρ (.fn r.sym ts) := weight_arg ht
    show low st ρ _ < low st ρ _
    simp only [low, h3]
    omega
  · obtain ⟨i, hi, h⟩ := List.mem_flatMap.1 h
    obtain ⟨j, hj, h⟩ := List.mem_flatMap.1 h
    obtain ⟨k, hk', rfl⟩ := List.mem_map.1 h
    have h1 : low st ρ _ < low st ρ _ := neg (vO st j i, false) (by simp) rfl
    have h2 : low st ρ _ < low st ρ _ := neg (vO st k j, false) (by simp) rfl
    exact ⟨(vO st k i, true), by simp, rfl, Nat.lt_trans h2 h1⟩
  · -- substitution
    obtain ⟨x, hx, h⟩ := List.mem_flatMap.1 h
    obtain ⟨i, hi, h⟩ := List.mem_flatMap.1 h
    obtain ⟨k, hk', h⟩ := List.mem_flatMap.1 h
    have hi' := hrep i (List.mem_filter.1 hi).1
    have key : bd x.1 (st.h.rep i) → Chosen st ρ (st.h.rep x.2) (.mv x.1 x.2) → low st ρ (st.h.rep i) ≤ low st ρ (st.h.rep x.2) := by
      rintro h1 ⟨-, -, h2⟩
      obtain ⟨s, h3, h4⟩ := hf.low _ _ h1
      have h5 := (best_spec (ρ := ρ) ⟨s, h3⟩).2 s h3
      have h6 : weight ρ (.mv x.1) = ρ x.1 := rfl
      simp only [low, h2]
      omega
    simp only [List.mem_cons, List.not_mem_nil, or_false] at h
    rcases h with rfl | rfl
    · have h3 := key (neg (vS st x.1 i, false) (by simp) rfl) (neg (vR st x.2 (.mv x.1 x.2), false) (by simp) rfl)
      have h4 : low st ρ _ < low st ρ _ := neg (vO st k i, false) (by simp) rfl
      exact ⟨(vO st k x.2, true), by simp, rfl, Nat.lt_of_lt_of_le h4 h3⟩
    · have h3 := key (neg (vS st x.1 i, false) (by simp) rfl) (neg (vR st x.2 (.mv x.1 x.2), false) (by simp) rfl)
      have h4 : low st ρ _ < low st ρ _ := neg (vO st x.2 k, false) (by simp) rfl
      exact ⟨(vO st i k, true), by simp, rfl, Nat.lt_of_le_of_lt h3 h4⟩
  · obtain ⟨i, hi, rfl⟩ := List.mem_map.1 h
    have h1 : low st ρ _ < low st ρ _ := neg (vO st i i, false) (by simp) rfl
    exact absurd h1 (Nat.lt_irrefl _)

end

/-! ### Completeness -/

theorem eval_inst {D : Type} (A : Alg D) (σ : Nat → D) (θ : Nat → UT) (t : UT) :
    (t.inst θ).eval A σ = t.eval A (fun x => (θ x).eval A σ) := by
  induction t using UT.ind with
  | mv i => rfl
  | fn f args ih =>
    rw [inst_fn]
    simp only [UT.eval, UT.evalL_eq, List.map_map]
    congr 1
    exact List.map_congr_left fun a ha => ih a ha

/-- A solution among the terms of the problem: each metavariable of the problem is bound at most once, to a term of the problem, terms
satisfy the bindings, and with the bindings a goal follows from the equations. -/
structure Bounded (E : List (UT × UT)) (gs : List (List (UT × UT))) (b : List (Nat × UT)) : Prop where
  vars : ∀ p ∈ b, Occurs E gs (.mv p.1)
  terms : ∀ p ∈ b, Occurs E gs p.2
  one : ∀ p ∈ b, ∀ q ∈ b, p.1 = q.1 → p.2 = q.2
  real : Realised b
  solved : Solved E gs b

theorem bounded_sat {ar : Nat → Nat} {E : List (UT × UT)} {gs : List (List (UT × UT))} {st : St} (hr : Ready ar E gs st) (hN : Named st)
    {b : List (Nat × UT)} (hb : Bounded E gs b) {ecs : List Nat} (hn : Enum st ecs) {cs : List Clause} (hbd : build st ecs = some cs) :
    ∃ m, Sat m cs := by
  have hw := hr.holds.wf
  have hk := hr.kept
  obtain ⟨θ, hθ⟩ := hb.real
  have hcl : ∃ cl : UT → Nat, ∀ p ∈ b, Has st p.2 (cl p.2) := by
    classical
    refine ⟨fun s => if h : ∃ c, Has st s c then h.choose else 0, fun p hp => ?_⟩
    have h := has_occurs hr (hb.terms p hp)
    simp only [dif_pos h]
    exact h.choose_spec
  obtain ⟨cl, hcl⟩ := hcl
  let bd : Nat → Nat → Prop := fun x c => ∃ p ∈ b, p.1 = x ∧ c = st.h.rep (cl p.2)
  let ρ : Nat → Nat := fun x => weight (fun _ => 1) (θ x)
  have key : ∀ c, (st.p.super (st.h.rep c)).isSome → st.h.rep c ∈ ecs := fun c h => (hn.2 _).2 h
  refine ⟨asgOf st ecs bd ρ, asg_sat hw hk hN hn hbd ⟨?_, ?_, ?_, ?_⟩⟩
  · rintro x c ⟨p, hp, -, rfl⟩
    exact key _ (has_key hw (hcl p hp))
  · rintro x c d ⟨p, hp, e1, rfl⟩ ⟨q, hq, e2, rfl⟩
    rw [hb.one p hp q hq (e1.trans e2.symm)]
  · rintro x c ⟨p, hp, rfl, rfl⟩
    refine ⟨p.2, (hcl p hp).congr (hw.idem _).symm, ?_⟩
    show p.2.eval _ _ = (θ p.1).eval _ _
    rw [hθ p hp, eval_inst]
    rfl
  · have good := block_good (bd := bd) hw hk hn
    obtain ⟨g, hg, hent⟩ := hb.solved
    obtain ⟨ps, hps, hhas⟩ := forall₂_right hr.goals g hg
    refine ⟨ps, hps, fun p hp => ?_⟩
    have hE : ∀ e ∈ E ++ eqsOf b, e.1.eval (blockAlg st ecs bd) (blockVal st ecs bd) = e.2.eval (blockAlg st ecs bd) (blockVal st ecs bd) := by
      intro e he
      simp only [List.mem_append, eqsOf, List.mem_map] at he
      rcases he with he | ⟨q, hq, rfl⟩
      · obtain ⟨c, c', k1, k2, k3⟩ := hr.holds.has e he
        rw [← has_val good _ _ k1, ← has_val good _ _ k2, ← good.rep c, k3, good.rep]
      · obtain ⟨d, hd⟩ := has_occurs hr (hb.vars q hq)
        rw [← has_val good _ _ hd, ← has_val good _ _ (hcl q hq)]
        refine rel_block hk hn (key _ (has_key hw hd)) (key _ (has_key hw (hcl q hq))) (Rel.up (Nat.zero_le _) ?_)
        simp only [Has] at hd
        obtain ⟨d', h1, h2⟩ := hd
        exact Or.inr (Or.inl ⟨(q.1, d'), h1, h2.symm, q, hq, rfl, rfl⟩)
    have hall : ∀ p ∈ ps, block st ecs bd p.1 = block st ecs bd p.2 := by
      clear hps hp hg
      have hent' : ∀ e ∈ g, e.1.eval (blockAlg st ecs bd) (blockVal st ecs bd) = e.2.eval (blockAlg st ecs bd) (blockVal st ecs bd) :=
        fun e he => hent e he _ _ _ hE
      clear hent
      induction hhas with
      | nil => simp
      | @cons e0 p g ps hep _ ih =>
        intro p' hp'
        rcases List.mem_cons.1 hp' with rfl | hp'
        · rw [has_val good _ _ hep.1, has_val good _ _ hep.2]
          exact hent' e0 (by simp)
        · exact ih (fun e he => hent' e (by simp [he])) p' hp'
    exact block_rel (key _ (hk.goals ps hps p hp).2) (hall p hp)

/-- **C81.** If the problem has a solution among its terms, the module finds one. -/
def C81_statement : Prop := ∀ (ar : Nat → Nat) (E : List (UT × UT)) (gs : List (List (UT × UT))) (k : Nat) (st : St)
  (b : List (Nat × UT)), (∀ e ∈ E, PairAr ar e) → (∀ g ∈ gs, ∀ e ∈ g, PairAr ar e) → problem (k + 1) E gs = some st →
  Bounded E gs b → ∀ subs ok, Solve st subs ok → ok = true

/-- **C81, in part.** If the problem has a metavariable and a solution among its terms, the module finds one. What is missing, problems
without metavariables, is false: `C81_violated`. -/
theorem C81_partial (ar : Nat → Nat) (E : List (UT × UT)) (gs : List (List (UT × UT))) (k : Nat) (st : St) (b : List (Nat × UT))
    (hE : ∀ e ∈ E, PairAr ar e) (hg : ∀ g ∈ gs, ∀ e ∈ g, PairAr ar e) (he : problem (k + 1) E gs = some st) (hb : Bounded E gs b)
    (x : Nat) (hx : Occurs E gs (.mv x)) (subs : List (List (Nat × UT))) (ok : Bool) (h : Solve st subs ok) : ok = true := by
  have hr := ready_of ar hE hg he
  have hN := named_final k E gs hE hg st he
  cases h with
  | trivial => rfl
  | sat => rfl
  | ground _ hm =>
    obtain ⟨c, hc⟩ := has_occurs hr hx
    simp only [Has, hm] at hc
    obtain ⟨d, hd, -⟩ := hc
    cases hd
  | unsat _ _ hn hbd hno => exact absurd (bounded_sat hr hN hb hn hbd) hno

theorem isSub_exists (m : Var → Bool) (cs : List Clause) : ∃ sub, IsSub m cs sub := by
  classical
  refine ⟨fun x => if h : ∃ c, Registered cs (.S x c) ∧ m (.S x c) = true then some h.choose else none, fun x => ⟨fun c hc => ?_, fun hx c hc => ?_⟩⟩
  · simp only at hc
    split at hc
    · rename_i h; cases hc; exact h.choose_spec
    · cases hc
  · simp only at hx
    split at hx
    · cases hx
    · rename_i h
      cases hm : m (.S x c) with
      | false => rfl
      | true => exact absurd ⟨c, hc, hm⟩ h

theorem isCorr_exists (m : Var → Bool) (cs : List Clause) : ∃ corr, IsCorr m cs corr := by
  classical
  refine ⟨fun x => if h : ∃ c, Registered cs (.R x c) ∧ m (.R x c) = true then some h.choose else none, fun x => ⟨fun c hc => ?_, fun hx c hc => ?_⟩⟩
  · simp only at hc
    split at hc
    · rename_i h; cases hc; exact h.choose_spec
    · cases hc
  · simp only at hx
    split at hx
    · cases hx
    · rename_i h
      cases hm : m (.R x c) with
      | false => rfl
      | true => exact absurd ⟨c, hc, hm⟩ h

/-- In every order of the classes the module answers: it does not panic, and its recursion ends. -/
theorem C80_answers (ar : Nat → Nat) (E : List (UT × UT)) (gs : List (List (UT × UT))) (k : Nat)
    (hE : ∀ e ∈ E, PairAr ar e) (hg : ∀ g ∈ gs, ∀ e ∈ g, PairAr ar e) :
    ∃ st, problem (k + 1) E gs = some st ∧ ∀ ecs, Enum st ecs → ∃ cs, build st ecs = some cs ∧
      (hasTrivialGoals st = false → st.p.metas ≠ [] → ((∃ m, Sat m cs) → ∃ b, Solve st [b] true) ∧ ((¬ ∃ m, Sat m cs) → Solve st [] false)) := by
  obtain ⟨st, he, hr⟩ := ready ar k E gs hE hg
  refine ⟨st, he, fun ecs hn => ?_⟩
  obtain ⟨cs, hb⟩ := build_some hr.holds.wf ecs
  refine ⟨cs, hb, fun h1 h2 => ⟨?_, fun hno => .unsat h1 h2 hn hb hno⟩⟩
  rintro ⟨m, hs⟩
  obtain ⟨sub, hsub⟩ := isSub_exists m cs
  obtain ⟨corr, hcorr⟩ := isCorr_exists m cs
  obtain ⟨n, b, hall, -⟩ := C80_realised ar E gs k st hE hg he hn hb hs hsub hcorr
  exact ⟨b, .sat h1 h2 hn hb hs hsub hcorr (hall n (Nat.le_refl _))⟩

end Verif.Equality.Sat
