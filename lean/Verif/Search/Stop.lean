/-!
# Stopping the children of a node (`src/Search/children.go`, `destructive.go`)

`closeChildren` goes through the children one after the other. For each of them it waits until it can either hand over the
order or take a pending answer; a child that waits for a reply after its answer gets the order then.
The children run meanwhile; they are modelled by what they do on their channels. The work of a child between
two operations on the channels to its father is a number of steps chosen freely each time, so that every finite
amount of work is covered. That a child does not block on its own children is the subject of `Verif.Search.Protocol`.
-/

namespace Verif.Search.Stop

/-- A child, as seen from its father. -/
inductive Child where
  /-- Working; `n` steps are left before it looks at the channels again. -/
  | busy (n : Nat)
  /-- At the `select` with `default` in `ProofSearch` (src/Search/destructive.go:289-293) or in `waitChildren`
  (src/Search/destructive.go:439-444). -/
  | poll
  /-- In the loop of `selectChildren` (src/Search/destructive.go:707-871), which also accepts orders; `m` answers of
  its own children are missing. -/
  | kids (m : Nat)
  /-- At the `select` in `sendSubToFather` (src/Search/children.go:227-244): the answer, with `need_answer`, is offered,
  orders are accepted. -/
  | send (need : Bool)
  /-- In `waitFather` (src/Search/destructive.go:509-515). -/
  | waitF
  /-- Told to wait (`manageQuitOrder(false)`, src/Search/destructive.go:644-655), `n` steps before it is in `waitFather`. -/
  | retire (n : Nat)
  /-- Told to die, `n` steps before its end. -/
  | die (n : Nat)
  | dead
deriving DecidableEq

/-- What the father does (`closeChildren`, src/Search/children.go:124-156). -/
inductive Phase where
  /-- At the `select` for the child with this number. -/
  | offer (i : Nat)
  /-- At `v.quit <- kill` after an answer of this child that needs a reply. -/
  | reply (i : Nat)
deriving DecidableEq

structure Sys where
  phase : Phase
  child : Nat → Child

/-- The order is handed over; the child then closes its own children, which takes some steps. -/
def ordered (kill : Bool) (k : Nat) : Child := if kill then .die k else .retire k

/-- What the child does without its father. `offered`: the father is at the `select` for this child. The `default` branch is
only taken when no order is offered. -/
inductive Own (offered : Bool) : Child → Child → Prop where
  | work (n) : Own offered (.busy (n + 1)) (.busy n)
  | toPoll : Own offered (.busy 0) .poll
  | toSend (na) : Own offered (.busy 0) (.send na)
  | default (k) : offered = false → Own offered .poll (.busy k)
  | defaultKids (m) : offered = false → Own offered .poll (.kids m)
  | answer (m) : Own offered (.kids (m + 1)) (.kids m)
  | opened (m k) : Own offered (.kids (m + 1)) (.busy k)
  | collected (k) : Own offered (.kids 0) (.busy k)
  | retiring (n) : Own offered (.retire (n + 1)) (.retire n)
  | retired : Own offered (.retire 0) .waitF
  | dying (n) : Own offered (.die (n + 1)) (.die n)
  | died : Own offered (.die 0) .dead

def put (f : Nat → Child) (i : Nat) (c : Child) : Nat → Child := fun j => if j = i then c else f j

/-- A step of the child `j`, alone or together with its father; `kill` is the order. -/
inductive Step (kill : Bool) (j : Nat) : Sys → Sys → Prop where
  | own (ph f c) : Own (decide (ph = .offer j)) (f j) c → Step kill j ⟨ph, f⟩ ⟨ph, put f j c⟩
  | orderPoll (f k) : f j = .poll → Step kill j ⟨.offer j, f⟩ ⟨.offer (j + 1), put f j (ordered kill k)⟩
  | orderKids (f m k) : f j = .kids m → Step kill j ⟨.offer j, f⟩ ⟨.offer (j + 1), put f j (ordered kill k)⟩
  | orderSend (f na k) : f j = .send na → Step kill j ⟨.offer j, f⟩ ⟨.offer (j + 1), put f j (ordered kill k)⟩
  | orderWait (f k) : f j = .waitF → Step kill j ⟨.offer j, f⟩ ⟨.offer (j + 1), put f j (ordered kill k)⟩
  | consume (f) : f j = .send false → Step kill j ⟨.offer j, f⟩ ⟨.offer (j + 1), put f j .dead⟩
  | consumeNeed (f) : f j = .send true → Step kill j ⟨.offer j, f⟩ ⟨.reply j, put f j .waitF⟩
  | reply (f k) : f j = .waitF → Step kill j ⟨.reply j, f⟩ ⟨.offer (j + 1), put f j (ordered kill k)⟩

/-- A run: at each time a child is scheduled; it makes a step if it can make one. -/
structure Run (kill : Bool) (sched : Nat → Nat) (e : Nat → Sys) : Prop where
  step : ∀ t, Step kill (sched t) (e t) (e (t + 1)) ∨
    ((∀ s, ¬ Step kill (sched t) (e t) s) ∧ e (t + 1) = e t)

/-- Every child is scheduled again and again. -/
def Fair (n : Nat) (sched : Nat → Nat) : Prop := ∀ j < n, ∀ t, ∃ t' ≥ t, sched t' = j

/-- A child that has not been ordered to stop: anything but dead, dying or retiring. -/
def Live : Child → Prop
  | .busy _ | .poll | .kids _ | .send _ | .waitF => True
  | .retire _ | .die _ | .dead => False

/-! ### Lemmas -/

theorem put_same (f : Nat → Child) (i : Nat) (c : Child) : put f i c i = c := by simp [put]
theorem put_other (f : Nat → Child) {i j : Nat} (c : Child) (h : j ≠ i) : put f i c j = f j := by simp [put, h]

theorem step_frame {kill j s s'} (h : Step kill j s s') : ∀ i, i ≠ j → s'.child i = s.child i := by
  intro i hi
  cases h <;> simp [put, hi]

/-- A step of another child does not change what the father does for this one. -/
theorem step_phase {kill j s s'} (h : Step kill j s s') :
    (∀ i, s.phase = .offer i → i ≠ j → s'.phase = .offer i) ∧ (∀ i, s.phase = .reply i → i ≠ j → s'.phase = .reply i) := by
  cases h <;> simp_all

/-- The stage a child is in with respect to the order. -/
def rank : Child → Nat × Nat
  | .kids m => (m + 1, 0)
  | .busy n => (0, n + 1)
  | .retire n => (0, n + 1)
  | .die n => (0, n + 1)
  | _ => (0, 0)

abbrev Lt : Nat × Nat → Nat × Nat → Prop := Prod.Lex (· < ·) (· < ·)

theorem lt_wf : WellFounded Lt := (Prod.lex ⟨_, Nat.lt_wfRel.wf⟩ ⟨_, Nat.lt_wfRel.wf⟩).wf

theorem own_rank {c c' : Child} (h : Own true c c') : Lt (rank c') (rank c) := by
  cases h <;> simp [rank, Lt, Prod.lex_def] at *

theorem own_live {b : Bool} {c c' : Child} (h : Own b c c') (hl : Live c) : Live c' := by
  cases h <;> simp_all [Live]

/-- A live child the father is waiting for can always make a step. -/
theorem offer_enabled (kill : Bool) (i : Nat) (f : Nat → Child) (h : Live (f i)) : ∃ s, Step kill i ⟨.offer i, f⟩ s := by
  cases hc : f i with
  | busy n => cases n with
    | zero => exact ⟨_, .own _ _ _ (by rw [hc]; exact .toPoll)⟩
    | succ n => exact ⟨_, .own _ _ _ (by rw [hc]; exact .work n)⟩
  | poll => exact ⟨_, .orderPoll f 0 hc⟩
  | kids m => exact ⟨_, .orderKids f m 0 hc⟩
  | send na => exact ⟨_, .orderSend f na 0 hc⟩
  | waitF => exact ⟨_, .orderWait f 0 hc⟩
  | retire n => simp [hc, Live] at h
  | die n => simp [hc, Live] at h
  | dead => simp [hc, Live] at h

/-- The outcome for a child: it has the order, or its answer that needs no reply was taken. -/
def Stopped (kill : Bool) : Child → Prop
  | .die _ => kill = true
  | .retire _ | .waitF => kill = false
  | .dead => True
  | _ => False

theorem own_stopped {b kill : Bool} {c c' : Child} (h : Own b c c') (hs : Stopped kill c) : Stopped kill c' := by
  cases h <;> simp_all [Stopped]

theorem ordered_stopped (kill : Bool) (k : Nat) : Stopped kill (ordered kill k) := by
  cases kill <;> simp [ordered, Stopped]

/-- While the father is at child `i`: the children before are stopped, those from `i` on are live. -/
def Inv (kill : Bool) (n : Nat) (s : Sys) : Prop :=
  match s.phase with
  | .offer i => (∀ j < i, j < n → Stopped kill (s.child j)) ∧ ∀ j, i ≤ j → j < n → Live (s.child j)
  | .reply i => (∀ j < i, j < n → Stopped kill (s.child j)) ∧ s.child i = .waitF ∧
      ∀ j, i < j → j < n → Live (s.child j)

theorem inv_step {kill n j s s'} (h : Step kill j s s') (hi : Inv kill n s) : Inv kill n s' := by
  have stop : ∀ (f : Nat → Child) (c : Child), Stopped kill c → (∀ i < j, i < n → Stopped kill (f i)) →
      ∀ i < j + 1, i < n → Stopped kill (put f j c i) := by
    intro f c hc hf i hij hin
    by_cases e : i = j
    · subst e; rw [put_same]; exact hc
    · rw [put_other f c e]; exact hf i (by omega) hin
  have live : ∀ (f : Nat → Child) (c : Child), (∀ i, j ≤ i → i < n → Live (f i)) →
      ∀ i, j + 1 ≤ i → i < n → Live (put f j c i) := by
    intro f c hf i hij hin
    rw [put_other f c (by omega)]; exact hf i (by omega) hin
  cases h with
  | own ph f c ho =>
    cases ph with
    | offer i =>
      refine ⟨fun k hk hn => ?_, fun k hk hn => ?_⟩
      · by_cases e : k = j
        · subst e; simp only [put_same]; exact own_stopped ho (hi.1 k hk hn)
        · simp only [put_other f c e]; exact hi.1 k hk hn
      · by_cases e : k = j
        · subst e; simp only [put_same]; exact own_live ho (hi.2 k hk hn)
        · simp only [put_other f c e]; exact hi.2 k hk hn
    | reply i =>
      obtain ⟨h1, h2, h3⟩ := hi
      refine ⟨fun k hk hn => ?_, ?_, fun k hk hn => ?_⟩
      · by_cases e : k = j
        · subst e; simp only [put_same]; exact own_stopped ho (h1 k hk hn)
        · simp only [put_other f c e]; exact h1 k hk hn
      · by_cases e : i = j
        · subst e
          simp only at h2
          rw [h2] at ho
          cases ho
        · simp only [put_other f c e]; exact h2
      · by_cases e : k = j
        · subst e; simp only [put_same]; exact own_live ho (h3 k hk hn)
        · simp only [put_other f c e]; exact h3 k hk hn
  | orderPoll f k hf => exact ⟨stop f _ (ordered_stopped kill k) hi.1, live f _ hi.2⟩
  | orderKids f m k hf => exact ⟨stop f _ (ordered_stopped kill k) hi.1, live f _ hi.2⟩
  | orderSend f na k hf => exact ⟨stop f _ (ordered_stopped kill k) hi.1, live f _ hi.2⟩
  | orderWait f k hf => exact ⟨stop f _ (ordered_stopped kill k) hi.1, live f _ hi.2⟩
  | consume f hf => exact ⟨stop f _ trivial hi.1, live f _ hi.2⟩
  | consumeNeed f hf =>
    refine ⟨fun i hij hin => ?_, put_same _ _ _, fun i hij hin => ?_⟩
    · simp only; rw [put_other f _ (by omega)]; exact hi.1 i hij hin
    · simp only; rw [put_other f _ (by omega)]; exact hi.2 i (by omega) hin
  | reply f k hf =>
    refine ⟨stop f _ (ordered_stopped kill k) hi.1, fun i hij hin => ?_⟩
    simp only; rw [put_other f _ (by omega)]; exact hi.2.2 i (by omega) hin

theorem inv_run {kill n sched e} (hr : Run kill sched e) (h0 : Inv kill n (e 0)) : ∀ t, Inv kill n (e t) := by
  intro t
  induction t with
  | zero => exact h0
  | succ t ih =>
    rcases hr.step t with h | ⟨_, h⟩
    · exact inv_step h ih
    · rw [h]; exact ih

/-- Nothing concerning `i` changes until it is scheduled. -/
theorem until_sched {kill sched e} (hr : Run kill sched e) (ph : Phase) (i : Nat) (hph : ph = .offer i ∨ ph = .reply i)
    (t : Nat) (h : (e t).phase = ph) :
    ∀ d, (∀ d' < d, sched (t + d') ≠ i) → (e (t + d)).phase = ph ∧ (e (t + d)).child i = (e t).child i := by
  intro d
  induction d with
  | zero => intro _; exact ⟨h, rfl⟩
  | succ d ih =>
    intro hd
    obtain ⟨h1, h2⟩ := ih fun d' h' => hd d' (by omega)
    have hne := hd d (by omega)
    rcases hr.step (t + d) with hs | ⟨_, hs⟩
    · refine ⟨?_, ?_⟩
      · rcases hph with rfl | rfl
        · exact (step_phase hs).1 i h1 (Ne.symm hne)
        · exact (step_phase hs).2 i h1 (Ne.symm hne)
      · rw [← h2]
        exact step_frame hs i (Ne.symm hne)
    · rw [show t + (d + 1) = t + d + 1 from rfl, hs]
      exact ⟨h1, h2⟩

theorem first_sched {n : Nat} {sched : Nat → Nat} (hf : Fair n sched) (i : Nat) (hi : i < n) (t : Nat) :
    ∃ d, sched (t + d) = i ∧ ∀ d' < d, sched (t + d') ≠ i := by
  obtain ⟨t', ht', hs⟩ := hf i hi t
  have : ∀ k, sched (t + k) = i → ∃ d, sched (t + d) = i ∧ ∀ d' < d, sched (t + d') ≠ i := by
    intro k
    induction k using Nat.strongRecOn with
    | _ k ih =>
      intro hk
      by_cases h : ∃ d' < k, sched (t + d') = i
      · obtain ⟨d', h1, h2⟩ := h
        exact ih d' h1 h2
      · exact ⟨k, hk, fun d' h1 h2 => h ⟨d', h1, h2⟩⟩
  exact this (t' - t) (by rw [show t + (t' - t) = t' by omega]; exact hs)

theorem reply_done {kill n sched e} (hr : Run kill sched e) (hf : Fair n sched) (h0 : Inv kill n (e 0)) (i : Nat) (hi : i < n)
    (t : Nat) (h : (e t).phase = .reply i) : ∃ t' > t, (e t').phase = .offer (i + 1) := by
  obtain ⟨d, hd, hmin⟩ := first_sched hf i hi t
  obtain ⟨h1, _⟩ := until_sched hr _ i (Or.inr rfl) t h d hmin
  have hinv := inv_run hr h0 (t + d)
  rcases hr.step (t + d) with hs | ⟨hs, _⟩
  · rw [hd] at hs
    refine ⟨t + d + 1, by omega, ?_⟩
    cases he : e (t + d) with
    | mk ph f =>
      rw [he] at hs h1 hinv
      simp only at h1
      subst h1
      obtain ⟨_, hw, _⟩ := hinv
      simp only at hw
      generalize hb : e (t + d + 1) = b at hs
      cases hs with
      | own _ _ c ho => rw [hw] at ho; cases ho
      | reply _ k _ => rfl
  · exfalso
    rw [hd] at hs
    cases he : e (t + d) with
    | mk ph f =>
      rw [he] at hs h1 hinv
      simp only at h1
      subst h1
      exact hs _ (.reply f 0 hinv.2.1)

theorem offer_done {kill n sched e} (hr : Run kill sched e) (hf : Fair n sched) (h0 : Inv kill n (e 0)) (i : Nat) (hi : i < n)
    (r : Nat × Nat) : ∀ t, rank ((e t).child i) = r → (e t).phase = .offer i → ∃ t' > t, (e t').phase = .offer (i + 1) := by
  induction r using lt_wf.induction with
  | _ r ih =>
    intro t hr' h
    obtain ⟨d, hd, hmin⟩ := first_sched hf i hi t
    obtain ⟨h1, h2⟩ := until_sched hr _ i (Or.inl rfl) t h d hmin
    have hinv := inv_run hr h0 (t + d)
    rcases hr.step (t + d) with hs | ⟨hs, _⟩
    · rw [hd] at hs
      rw [← h2] at hr'
      cases he : e (t + d) with
      | mk ph f =>
        rw [he] at hs h1 hr'
        simp only at h1 hr'
        subst h1
        cases hb : e (t + d + 1) with
        | mk ph' f' =>
          rw [hb] at hs
          have hoff : ph' = .offer (i + 1) → ∃ t' > t, (e t').phase = .offer (i + 1) := by
            intro h
            exact ⟨t + d + 1, by omega, by rw [hb]; exact h⟩
          cases hs with
          | own _ _ c ho =>
            simp only [decide_true] at ho
            have hlt := own_rank ho
            rw [hr'] at hlt
            obtain ⟨t', h5, h6⟩ := ih _ hlt (t + d + 1) (by rw [hb]; simp only [put_same]) (by rw [hb])
            exact ⟨t', by omega, h6⟩
          | orderPoll => exact hoff rfl
          | orderKids => exact hoff rfl
          | orderSend => exact hoff rfl
          | orderWait => exact hoff rfl
          | consume => exact hoff rfl
          | consumeNeed =>
            obtain ⟨t', h5, h6⟩ := reply_done hr hf h0 i hi (t + d + 1) (by rw [hb])
            exact ⟨t', by omega, h6⟩
    · exfalso
      rw [hd] at hs
      cases he : e (t + d) with
      | mk ph f =>
        rw [he] at hs h1 hinv
        simp only at h1
        subst h1
        obtain ⟨s, hs'⟩ := offer_enabled kill i f (hinv.2 i (Nat.le_refl i) hi)
        exact hs s hs'

/-- **C34, the operation ends.** For any number of children in any state, any order and any schedule that does not
forget a child, the father gets through the list; and then each child has the order or had its last answer taken. -/
theorem C34_close_children (kill : Bool) (n : Nat) (sched : Nat → Nat) (e : Nat → Sys) (hr : Run kill sched e)
    (hf : Fair n sched) (h0 : (e 0).phase = .offer 0) (hl : ∀ j < n, Live ((e 0).child j)) :
    ∃ t, (e t).phase = .offer n ∧ ∀ j < n, Stopped kill ((e t).child j) := by
  have hinv : Inv kill n (e 0) := by
    simp only [Inv, h0]
    exact ⟨fun j hj => absurd hj (Nat.not_lt_zero j), fun j _ hj => hl j hj⟩
  have : ∀ i ≤ n, ∃ t, (e t).phase = .offer i := by
    intro i
    induction i with
    | zero => intro _; exact ⟨0, h0⟩
    | succ i ih =>
      intro hi
      obtain ⟨t, ht⟩ := ih (by omega)
      obtain ⟨t', _, h⟩ := offer_done hr hf hinv i hi _ t rfl ht
      exact ⟨t', h⟩
  obtain ⟨t, ht⟩ := this n (Nat.le_refl n)
  refine ⟨t, ht, fun j hj => ?_⟩
  have := inv_run hr hinv t
  simp only [Inv, ht] at this
  exact this.1 j hj hj

theorem phase_end {kill n sched e} (hr : Run kill sched e) (hs : ∀ t, sched t < n) (t : Nat) (h : (e t).phase = .offer n) :
    ∀ d, (e (t + d)).phase = .offer n := by
  intro d
  induction d with
  | zero => exact h
  | succ d ih =>
    rcases hr.step (t + d) with hst | ⟨_, hst⟩
    · exact (step_phase hst).1 n ih (by have := hs (t + d); omega)
    · rw [show t + (d + 1) = t + d + 1 from rfl, hst]; exact ih

/-- **C34, none is left running.** Told to die, all children are dead from some moment on; told to wait, each is dead or in
`waitFather` from some moment on. -/
theorem C34_none_left (kill : Bool) (n : Nat) (sched : Nat → Nat) (e : Nat → Sys) (hr : Run kill sched e)
    (hf : Fair n sched) (hb : ∀ t, sched t < n) (h0 : (e 0).phase = .offer 0) (hl : ∀ j < n, Live ((e 0).child j)) :
    ∃ t, ∀ t' ≥ t, ∀ j < n, (e t').child j = .dead ∨ (kill = false ∧ (e t').child j = .waitF) := by
  obtain ⟨t0, hp, hstop⟩ := C34_close_children kill n sched e hr hf h0 hl
  have hph := phase_end hr hb t0 hp
  -- a child at rest stays so
  have stay : ∀ j < n, ∀ t ≥ t0, ((e t).child j = .dead ∨ (e t).child j = .waitF) →
      (e (t + 1)).child j = (e t).child j := by
    intro j hj t ht hc
    rcases hr.step t with hs | ⟨_, hs⟩
    · by_cases hjs : j = sched t
      · have hpt : (e t).phase = .offer n := by have := hph (t - t0); rwa [show t0 + (t - t0) = t by omega] at this
        generalize e (t + 1) = b at hs ⊢
        cases he : e t with
        | mk ph f =>
          rw [he] at hs hpt hc
          simp only at hpt hc
          subst hpt
          rw [← hjs] at hs
          cases hs <;> first | (exfalso; omega) | skip
          rename_i c ho
          rcases hc with hc | hc <;> rw [hc] at ho <;> cases ho
      · exact step_frame hs j hjs
    · rw [hs]
  have stayAll : ∀ j < n, ∀ t ≥ t0, ((e t).child j = .dead ∨ (e t).child j = .waitF) →
      ∀ d, (e (t + d)).child j = (e t).child j := by
    intro j hj t ht hc d
    induction d with
    | zero => rfl
    | succ d ih =>
      rw [show t + (d + 1) = t + d + 1 from rfl, stay j hj (t + d) (by omega) (by rw [ih]; exact hc), ih]
  have stopped : ∀ j < n, ∀ t ≥ t0, Stopped kill ((e t).child j) := by
    intro j hj t ht
    have hinv : Inv kill n (e 0) := by
      simp only [Inv, h0]
      exact ⟨fun j hj => absurd hj (Nat.not_lt_zero j), fun j _ hj => hl j hj⟩
    have h1 := inv_run hr hinv t
    have h2 : (e t).phase = .offer n := by have := hph (t - t0); rwa [show t0 + (t - t0) = t by omega] at this
    simp only [Inv, h2] at h1
    exact h1.1 j hj hj
  -- each child comes to rest
  have rest : ∀ j < n, ∀ r, ∀ t ≥ t0, rank ((e t).child j) = r →
      ∃ t' ≥ t, (e t').child j = .dead ∨ (e t').child j = .waitF := by
    intro j hj r
    induction r using lt_wf.induction with
    | _ r ih =>
      intro t ht hrk
      by_cases hc : (e t).child j = .dead ∨ (e t).child j = .waitF
      · exact ⟨t, Nat.le_refl t, hc⟩
      · obtain ⟨d, hd, hmin⟩ := first_sched hf j hj t
        have same : ∀ k ≤ d, (e (t + k)).child j = (e t).child j := by
          intro k
          induction k with
          | zero => intro _; rfl
          | succ k ihk =>
            intro hk
            rcases hr.step (t + k) with hs | ⟨_, hs⟩
            · rw [show t + (k + 1) = t + k + 1 from rfl, step_frame hs j (Ne.symm (hmin k (by omega)))]
              exact ihk (by omega)
            · rw [show t + (k + 1) = t + k + 1 from rfl, hs]
              exact ihk (by omega)
        have hsame := same d (Nat.le_refl d)
        have hst := stopped j hj (t + d) (by omega)
        have hpt : (e (t + d)).phase = .offer n := by
          have := hph (t + d - t0); rwa [show t0 + (t + d - t0) = t + d by omega] at this
        have hstep := hr.step (t + d)
        rw [hd] at hstep
        rw [← hsame] at hc hrk
        cases he : e (t + d) with
        | mk ph f =>
          rw [he] at hstep hpt hc hrk hst
          simp only at hpt hc hrk hst
          subst hpt
          rcases hstep with hs | ⟨hs, _⟩
          · cases hb' : e (t + d + 1) with
            | mk ph' f' =>
              rw [hb'] at hs
              cases hs <;> first | (exfalso; omega) | skip
              rename_i c ho
              have hlt : Lt (rank c) (rank (f j)) := by
                cases hfj : f j with
                | retire m => rw [hfj] at ho; cases ho <;> simp [rank, Lt, Prod.lex_def]
                | die m => rw [hfj] at ho; cases ho <;> simp [rank, Lt, Prod.lex_def]
                | dead => exact absurd (Or.inl hfj) hc
                | waitF => exact absurd (Or.inr hfj) hc
                | busy m => rw [hfj] at hst; exact hst.elim
                | poll => rw [hfj] at hst; exact hst.elim
                | kids m => rw [hfj] at hst; exact hst.elim
                | send m => rw [hfj] at hst; exact hst.elim
              rw [hrk] at hlt
              obtain ⟨t', h1, h2⟩ := ih _ hlt (t + d + 1) (by omega) (by rw [hb']; simp only [put_same])
              exact ⟨t', by omega, h2⟩
          · exfalso
            cases hfj : f j with
            | retire m => cases m with
              | zero => exact hs _ (.own _ f _ (by rw [hfj]; exact .retired))
              | succ m => exact hs _ (.own _ f _ (by rw [hfj]; exact .retiring m))
            | die m => cases m with
              | zero => exact hs _ (.own _ f _ (by rw [hfj]; exact .died))
              | succ m => exact hs _ (.own _ f _ (by rw [hfj]; exact .dying m))
            | dead => exact hc (Or.inl hfj)
            | waitF => exact hc (Or.inr hfj)
            | busy m => rw [hfj] at hst; exact hst
            | poll => rw [hfj] at hst; exact hst
            | kids m => rw [hfj] at hst; exact hst
            | send m => rw [hfj] at hst; exact hst
  have all : ∀ m ≤ n, ∃ t ≥ t0, ∀ j < m, (e t).child j = .dead ∨ (e t).child j = .waitF := by
    intro m
    induction m with
    | zero => intro _; exact ⟨t0, Nat.le_refl _, fun j hj => absurd hj (Nat.not_lt_zero j)⟩
    | succ m ihm =>
      intro hm
      obtain ⟨t, ht, h1⟩ := ihm (by omega)
      obtain ⟨t', ht', h2⟩ := rest m (by omega) _ t ht rfl
      refine ⟨t', by omega, fun j hj => ?_⟩
      by_cases e1 : j = m
      · subst e1; exact h2
      · have := stayAll j (by omega) t ht (h1 j (by omega)) (t' - t)
        rw [show t + (t' - t) = t' by omega] at this
        rw [this]; exact h1 j (by omega)
  obtain ⟨t, ht, h⟩ := all n (Nat.le_refl n)
  refine ⟨t, fun t' ht' j hj => ?_⟩
  have h1 := stayAll j hj t ht (h j hj) (t' - t)
  rw [show t + (t' - t) = t' by omega] at h1
  have h2 := stopped j hj t' (by omega)
  rw [h1] at h2 ⊢
  rcases h j hj with h3 | h3
  · exact Or.inl h3
  · rw [h3] at h2
    exact Or.inr ⟨h2, h3⟩

/-! ### A case -/

/-- Two children, one about to answer and waiting for a reply then, one at work. -/
def start : Sys := ⟨.offer 0, fun j => if j = 0 then .send true else .busy 1⟩

example : ∃ s, Step true 0 start s ∧ s.phase = .reply 0 := ⟨_, .consumeNeed _ rfl, rfl⟩

/-- There are runs to which the theorems apply: in each state each child has a step or stays. -/
theorem run_exists (kill : Bool) (sched : Nat → Nat) (s : Sys) : ∃ e, e 0 = s ∧ Run kill sched e := by
  have next : ∀ j s, ∃ s', Step kill j s s' ∨ ((∀ s', ¬ Step kill j s s') ∧ s' = s) := by
    intro j s
    by_cases h : ∃ s', Step kill j s s'
    · obtain ⟨s', h⟩ := h; exact ⟨s', Or.inl h⟩
    · exact ⟨s, Or.inr ⟨fun s' hs => h ⟨s', hs⟩, rfl⟩⟩
  let nx : Nat → Sys → Sys := fun j s => (next j s).choose
  let e : Nat → Sys := fun t => Nat.rec s (fun t s => nx (sched t) s) t
  exact ⟨e, rfl, ⟨fun t => (next (sched t) (e t)).choose_spec⟩⟩

/-- Both theorems apply to the case, with the children scheduled in turn. -/
example (kill : Bool) : ∃ sched e, Run kill sched e ∧ Fair 2 sched ∧ (∀ t, sched t < 2) ∧ (e 0).phase = .offer 0 ∧
    ∀ j < 2, Live ((e 0).child j) := by
  obtain ⟨e, h0, hr⟩ := run_exists kill (fun t => t % 2) start
  refine ⟨_, e, hr, fun j hj t => ⟨2 * t + j, by omega, by show (2 * t + j) % 2 = j; omega⟩, fun t => Nat.mod_lt _ (by omega),
    by rw [h0]; rfl, fun j hj => ?_⟩
  rw [h0]
  rcases (by omega : j = 0 ∨ j = 1) with rfl | rfl <;> simp [start, Live]

end Verif.Search.Stop
