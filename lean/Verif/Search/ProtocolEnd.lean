import Verif.Search.Protocol
/-!
# Every search can still come to its end

`Verif.Search.Protocol` shows that no process is stuck. Here: from every reachable state of the system (without rewriting)
there is a continuation in which the main goroutine gets its result and every process ends. So no order of events leads
the processes into a region where they only exchange messages with each other, and a process told to stop can always
finish.
-/

namespace Verif.Search.Protocol

/-- A process that was killed and has no children. -/
def corpse : Proc := .mk (.close true (.ordered true)) []

/-- Several steps; the processes that lose their father have no children and are about to end. -/
inductive Drive : Proc → Proc → Prop where
  | refl (p) : Drive p p
  | tail (p q r o) : Drive p q → Step false q r o → (∀ x ∈ o, x = corpse) → Drive p r

namespace Drive

theorem one {p q : Proc} (h : Step false p q []) : Drive p q := .tail p p q [] (.refl p) h (by simp)

theorem trans {p q r : Proc} (h1 : Drive p q) (h2 : Drive q r) : Drive p r := by
  induction h2 with
  | refl => exact h1
  | tail q r o _ hs ho ih => exact .tail _ _ _ o ih hs ho

theorem child {c c' : Proc} (h : Drive c c') (s : St) (pre post : List (Bool × Proc)) (b : Bool) :
    Drive (.mk s (pre ++ (b, c) :: post)) (.mk s (pre ++ (b, c') :: post)) := by
  induction h with
  | refl => exact .refl _
  | tail q r o _ hs ho ih => exact .tail _ _ _ o ih (.child s pre post b q r o hs) ho

end Drive

/-- A process without children that does nothing until its father does. -/
inductive Simple : Proc → Prop where
  | send (a b) : Simple (.mk (.send a b) [])
  | waitF : Simple (.mk .waitF [])

/-- What a process comes to on its own. -/
inductive Rest : St → Proc → Prop where
  | owing (s a b) : Owing s → Rest s (.mk (.send a b) [])
  | waiting (s) : Waiting s → Rest s (.mk .waitF [])
  | dying (s) : Dying s → Rest s (.mk .dead [])

theorem kill_simple {c : Proc} (h : Simple c) : Accepts true c corpse := by
  cases h with
  | send a b => exact .send a b []
  | waitF => exact .waitF []

theorem hold_simple {c : Proc} (h : Simple c) : Accepts false c (.mk (.close true (.ordered false)) []) := by
  cases h with
  | send a b => exact .send a b []
  | waitF => exact .waitF []

/-- Killing children that wait. -/
theorem kill_all (k : Next) (cs : List (Bool × Proc)) (hs : ∀ c ∈ cs, Simple c.2) (hm : ∀ c ∈ cs, c.1 = true) :
    Drive (.mk (.close true k) cs) (.mk (.close true k) []) := by
  induction cs with
  | nil => exact .refl _
  | cons c cs ih =>
    obtain ⟨b, c⟩ := c
    have hb := hm (b, c) (by simp)
    simp only at hb
    subst hb
    refine Drive.trans (.tail _ _ _ _ (.refl _) (.kill [] cs c corpse k (by simp) (kill_simple (hs (true, c) (by simp)))) ?_) (ih ?_ ?_)
    · intro x hx; simpa using hx
    · exact fun c hc => hs c (List.mem_cons_of_mem _ hc)
    · exact fun c hc => hm c (List.mem_cons_of_mem _ hc)

/-- `n` children that wait for their father. -/
def waiters (b : Bool) (n : Nat) : List (Bool × Proc) := List.replicate n (b, .mk .waitF [])

theorem waiters_simple (b : Bool) (n : Nat) : ∀ c ∈ waiters b n, Simple c.2 := by
  intro c hc
  rw [(List.mem_replicate.1 hc).2]
  exact .waitF

theorem waiters_mark (b : Bool) (n : Nat) : ∀ c ∈ waiters b n, c.1 = b := by
  intro c hc
  rw [(List.mem_replicate.1 hc).2]

theorem all_waiters (b : Bool) (n : Nat) : all (waiters b n) = waiters true n := by
  simp [all, waiters, List.map_replicate]

theorem waiters_succ (b : Bool) (n : Nat) (l : List (Bool × Proc)) :
    waiters b n ++ (b, .mk .waitF []) :: l = waiters b (n + 1) ++ l := by
  simp only [waiters, List.replicate_succ']
  simp

/-- Telling children to wait. -/
theorem hold_all (k : Next) (cs : List (Bool × Proc)) (hs : ∀ c ∈ cs, Simple c.2) (hm : ∀ c ∈ cs, c.1 = true) (n : Nat) :
    Drive (.mk (.close false k) (waiters false n ++ cs)) (.mk (.close false k) (waiters false (n + cs.length))) := by
  induction cs generalizing n with
  | nil => simpa using Drive.refl _
  | cons c cs ih =>
    obtain ⟨b, c⟩ := c
    have hb := hm (b, c) (by simp)
    simp only at hb
    subst hb
    have h1 := Step.hold (dmt := false) (waiters false n) cs c _ k (waiters_mark false n) (hold_simple (hs (true, c) (by simp)))
    have h2 := Step.child (dmt := false) (.close false k) (waiters false n) cs false _ _ []
      (Step.thenWait [] true (by simp))
    have h3 := ih (fun c hc => hs c (List.mem_cons_of_mem _ hc)) (fun c hc => hm c (List.mem_cons_of_mem _ hc)) (n + 1)
    rw [← waiters_succ] at h3
    refine ((Drive.one h1).trans (Drive.one h2)).trans ?_
    simpa [Nat.add_assoc, Nat.add_comm 1] using h3

/-- Closing and sending an answer. -/
theorem close_send (a b : Bool) (cs : List (Bool × Proc)) (hs : ∀ c ∈ cs, Simple c.2) (hm : ∀ c ∈ cs, c.1 = true) :
    Drive (.mk (.close true (.send a b)) cs) (.mk (.send a b) []) :=
  (kill_all _ cs hs hm).trans (.one (.thenSend [] true a b (by simp)))

/-- Collecting answers of children that have all come to rest. -/
theorem collect_rest (cs : List (Bool × Proc)) (hs : ∀ c ∈ cs, Simple c.2)
    (hf : ∀ c ∈ cs, if c.1 then ∃ a b, c.2 = .mk (.send a b) [] else c.2 = .mk .waitF []) :
    ∃ a b, Drive (.mk .collect cs) (.mk (.send a b) []) := by
  generalize hn : (cs.filter (·.1)).length = n
  induction n generalizing cs with
  | zero =>
    have hm : ∀ c ∈ cs, c.1 = false := by
      intro c hc
      cases hb : c.1 with
      | false => rfl
      | true =>
        have : c ∈ cs.filter (·.1) := List.mem_filter.2 ⟨hc, hb⟩
        rw [List.length_eq_zero_iff.1 hn] at this
        cases this
    refine ⟨true, false, (Drive.one (.closed cs true false hm)).trans (close_send _ _ _ ?_ ?_)⟩
    · intro c hc
      obtain ⟨d, hd, rfl⟩ := List.mem_map.1 hc
      exact hs d hd
    · intro c hc
      obtain ⟨d, hd, rfl⟩ := List.mem_map.1 hc
      rfl
  | succ n ih =>
    rcases split_marks cs with hm | ⟨pre, c, post, e, hpre⟩
    · have : cs.filter (·.1) = [] := List.filter_eq_nil_iff.2 fun c hc => by simp [hm c hc]
      rw [this] at hn
      cases hn
    · have hc := hf (true, c) (by rw [e]; simp)
      simp only [if_true] at hc
      obtain ⟨a, b, rfl⟩ := hc
      have mem : ∀ x ∈ pre ++ (if b then [(false, Proc.mk .waitF [])] else []) ++ post,
          x ∈ cs ∨ x = (false, .mk .waitF []) := by
        intro x hx
        rw [e]
        rcases List.mem_append.1 hx with hx | hx
        · rcases List.mem_append.1 hx with hx | hx
          · exact Or.inl (by simp [hx])
          · cases b with
            | true => simp only [if_true, List.mem_singleton] at hx; exact Or.inr hx
            | false => simp at hx
        · exact Or.inl (by simp [hx])
      have hs' : ∀ x ∈ pre ++ (if b then [(false, Proc.mk .waitF [])] else []) ++ post, Simple x.2 := by
        intro x hx
        rcases mem x hx with h | rfl
        · exact hs x h
        · exact .waitF
      cases a with
      | true =>
        have st := Step.answer (dmt := false) pre post true b [] rfl
        obtain ⟨a', b', hd⟩ := ih (pre ++ (if b then [(false, Proc.mk .waitF [])] else []) ++ post) hs' (by
          intro x hx
          rcases mem x hx with h | rfl
          · exact hf x h
          · rfl) (by
          rw [e] at hn
          cases b <;> simp at hn ⊢ <;> omega)
        exact ⟨a', b', by rw [e]; exact (Drive.one st).trans hd⟩
      | false =>
        have st := Step.opened (dmt := false) pre post false b [] .giveUp rfl (Or.inr (Or.inl rfl))
        generalize hX : pre ++ (if b then [(false, Proc.mk .waitF [])] else []) ++ post = X at st hs'
        have h1 : ∀ c ∈ all X, Simple c.2 := by
          intro c hc
          obtain ⟨d, hd, rfl⟩ := List.mem_map.1 hc
          exact hs' d hd
        have h2 : ∀ c ∈ all X, c.1 = true := by
          intro c hc
          obtain ⟨d, hd, rfl⟩ := List.mem_map.1 hc
          rfl
        have d1 := hold_all .giveUp (all X) h1 h2 0
        have st2 := Step.thenGiveUp (dmt := false) (waiters false (0 + (all X).length)) false (waiters_mark _ _)
        rw [all_waiters] at st2
        refine ⟨false, true, ?_⟩
        rw [e]
        refine (Drive.one st).trans (Drive.trans (by simpa [waiters] using d1) ((Drive.one st2).trans ?_))
        exact close_send _ _ _ (waiters_simple _ _) (waiters_mark _ _)

/-- Sending substitutions to children that wait. -/
theorem give_rest (cs : List (Bool × Proc))
    (hf : ∀ c ∈ cs, if c.1 then c.2 = .mk .waitF [] else ∃ a b, c.2 = .mk (.send a b) []) :
    ∃ a b, Drive (.mk .give cs) (.mk (.send a b) []) := by
  generalize hn : (cs.filter (·.1)).length = n
  induction n generalizing cs with
  | zero =>
    have hm : ∀ c ∈ cs, c.1 = false := by
      intro c hc
      cases hb : c.1 with
      | false => rfl
      | true =>
        have : c ∈ cs.filter (·.1) := List.mem_filter.2 ⟨hc, hb⟩
        rw [List.length_eq_zero_iff.1 hn] at this
        cases this
    have key : ∀ c ∈ all cs, c.1 = true ∧ ∃ a b, c.2 = .mk (.send a b) [] := by
      intro c hc
      obtain ⟨d, hd, rfl⟩ := List.mem_map.1 hc
      have := hf d hd
      rw [hm d hd] at this
      exact ⟨rfl, by simpa using this⟩
    obtain ⟨a, b, h⟩ := collect_rest (all cs) (fun c hc => by
      obtain ⟨_, a, b, e⟩ := key c hc
      rw [e]; exact .send a b) (fun c hc => by
      obtain ⟨e1, h⟩ := key c hc
      rw [if_pos e1]; exact h)
    exact ⟨a, b, (Drive.one (.given cs hm)).trans h⟩
  | succ n ih =>
    rcases split_marks cs with hm | ⟨pre, c, post, e, hpre⟩
    · have : cs.filter (·.1) = [] := List.filter_eq_nil_iff.2 fun c hc => by simp [hm c hc]
      rw [this] at hn
      cases hn
    · have hc := hf (true, c) (by rw [e]; simp)
      simp only [if_true] at hc
      subst hc
      have st := Step.gives (dmt := false) pre post _ _ hpre (.back [])
      obtain ⟨a, b, hd⟩ := ih (pre ++ (false, .mk (.send true true) []) :: post) (by
        intro x hx
        rcases List.mem_append.1 hx with hx | hx
        · exact hf x (by rw [e]; simp [hx])
        · rcases List.mem_cons.1 hx with rfl | hx
          · exact ⟨true, true, rfl⟩
          · exact hf x (by rw [e]; simp [hx])) (by
        rw [e] at hn
        simp at hn ⊢
        omega)
      exact ⟨a, b, by rw [e]; exact (Drive.one st).trans hd⟩

/-- A closing loop over children that have come to rest. -/
theorem close_rest (kill : Bool) (k : Next) (cs : List (Bool × Proc)) (hk : KillNext false kill k)
    (hs : ∀ c ∈ cs, Simple c.2) (hf : ∀ c ∈ cs, c.1 = false → kill = false ∧ c.2 = .mk .waitF []) (n : Nat)
    (hn : kill = true → n = 0) :
    ∃ p', Drive (.mk (.close kill k) (waiters false n ++ cs)) p' ∧ Rest (.close kill k) p' := by
  have hdmt : k ≠ .dmt := by
    rintro rfl
    exact absurd (hk.1 rfl).1 (by simp)
  cases kill with
  | true =>
    have hm : ∀ c ∈ cs, c.1 = true := by
      intro c hc
      cases hb : c.1 with
      | true => rfl
      | false => exact absurd (hf c hc hb).1 (by simp)
    rw [hn rfl]
    have d : Drive (.mk (.close true k) (waiters false 0 ++ cs)) (.mk (.close true k) []) := by
      simpa [waiters] using kill_all k cs hs hm
    cases k with
    | send a b => exact ⟨_, d.trans (.one (.thenSend [] true a b (by simp))), .owing _ a b (by simp [Owing])⟩
    | ordered q =>
      cases q with
      | true => exact ⟨_, d.trans (.one (.thenDie [] true (by simp))), .dying _ ⟨rfl, rfl⟩⟩
      | false => exact ⟨_, d.trans (.one (.thenWait [] true (by simp))), .waiting _ ⟨rfl, rfl⟩⟩
    | retry =>
      obtain ⟨a, b, h⟩ := give_rest [] (by simp)
      exact ⟨_, d.trans ((Drive.one (.thenRetry [] true (by simp))).trans h), .owing _ a b (by simp [Owing])⟩
    | giveUp =>
      exact ⟨_, d.trans ((Drive.one (.thenGiveUp [] true (by simp))).trans (close_send false true [] (by simp) (by simp))),
        .owing _ false true (by simp [Owing])⟩
    | dmt => exact absurd rfl hdmt
  | false =>
    -- first the children that were already dealt with, then the others
    have hold : ∃ m, Drive (.mk (.close false k) (waiters false n ++ cs)) (.mk (.close false k) (waiters false m)) := by
      clear hn
      induction cs generalizing n with
      | nil => exact ⟨n, by simpa using Drive.refl _⟩
      | cons c cs ih =>
        obtain ⟨b, c⟩ := c
        have ih' := fun m => ih (fun c hc => hs c (List.mem_cons_of_mem _ hc)) m
          (fun c hc => hf c (List.mem_cons_of_mem _ hc))
        cases b with
        | false =>
          have := (hf (false, c) (by simp) rfl).2
          simp only at this
          subst this
          rw [waiters_succ]
          exact ih' (n + 1)
        | true =>
          have h1 := Step.hold (dmt := false) (waiters false n) cs c _ k (waiters_mark false n) (hold_simple (hs (true, c) (by simp)))
          have h2 := Step.child (dmt := false) (.close false k) (waiters false n) cs false _ _ []
            (Step.thenWait [] true (by simp))
          rw [waiters_succ] at h2
          obtain ⟨m, h3⟩ := ih' (n + 1)
          exact ⟨m, ((Drive.one h1).trans (Drive.one h2)).trans h3⟩
    obtain ⟨m, d⟩ := hold
    rcases hk.2 rfl with rfl | rfl | rfl
    · have st := Step.thenRetry (dmt := false) (waiters false m) false (waiters_mark _ _)
      rw [all_waiters] at st
      obtain ⟨a, b, h⟩ := give_rest (waiters true m) (fun c hc => by
        rw [(List.mem_replicate.1 hc).2]; rfl)
      exact ⟨_, d.trans ((Drive.one st).trans h), .owing _ a b (by simp [Owing])⟩
    · have st := Step.thenGiveUp (dmt := false) (waiters false m) false (waiters_mark _ _)
      rw [all_waiters] at st
      exact ⟨_, d.trans ((Drive.one st).trans (close_send false true _ (waiters_simple _ _) (waiters_mark _ _))),
        .owing _ false true (by simp [Owing])⟩
    · exact absurd rfl hdmt

theorem owing_not_waiting {s : St} (h1 : Owing s) (h2 : Waiting s) : False := by
  cases s <;> simp_all [Owing, Waiting]

/-- Driving all children of a process to rest. -/
theorem drive_children (s : St) (f : Proc → Proc) (pre cs : List (Bool × Proc)) (h : ∀ c ∈ cs, Drive c.2 (f c.2)) :
    Drive (.mk s (pre ++ cs)) (.mk s (pre ++ cs.map fun c => (c.1, f c.2))) := by
  induction cs generalizing pre with
  | nil => exact .refl _
  | cons c cs ih =>
    obtain ⟨b, c⟩ := c
    have d := h (b, c) (by simp)
    have d' := ih (pre ++ [(b, f c)]) (fun c hc => h c (List.mem_cons_of_mem _ hc))
    refine (d.child s pre cs b).trans ?_
    simpa using d'

theorem rest_owing {s : St} {p : Proc} (h : Rest s p) (ho : Owing s) : ∃ a b, p = .mk (.send a b) [] := by
  cases h with
  | owing a b _ => exact ⟨a, b, rfl⟩
  | waiting h => exact (owing_not_waiting ho h).elim
  | dying h => cases s <;> simp_all [Owing, Dying]

theorem rest_waiting {s : St} {p : Proc} (h : Rest s p) (ho : Waiting s) : p = .mk .waitF [] := by
  cases h with
  | owing a b h => exact (owing_not_waiting h ho).elim
  | waiting h => rfl
  | dying h => cases s <;> simp_all [Waiting, Dying]

/-- **Every process comes to rest**: to the answer it owes, to waiting for its father, or to its end. -/
theorem comes_to_rest (p : Proc) (h : WF false p) (hk : Owing p.st ∨ Waiting p.st ∨ Dying p.st) :
    ∃ p', Drive p p' ∧ Rest p.st p' := by
  induction h with
  | mk s cs hshape hfits hwf ih =>
    -- where the children come to rest
    have goal : ∃ f : Proc → Proc, ∀ c ∈ cs, Owing c.2.st ∨ Waiting c.2.st → Drive c.2 (f c.2) ∧ Rest c.2.st (f c.2) := by
      refine ⟨fun c => open Classical in if h : ∃ c', Drive c c' ∧ Rest c.st c' then h.choose else c, fun c hc ho => ?_⟩
      have hex : ∃ c', Drive c.2 c' ∧ Rest c.2.st c' := ih c hc (ho.imp id Or.inl)
      simp only [hex, dif_pos]
      exact hex.choose_spec
    obtain ⟨f, hfr⟩ := goal
    have kids : (∀ c ∈ cs, Owing c.2.st ∨ Waiting c.2.st) →
        Drive (.mk s cs) (.mk s (cs.map fun c => (c.1, f c.2))) ∧
        ∀ c' ∈ cs.map (fun c => (c.1, f c.2)), ∃ c ∈ cs, c'.1 = c.1 ∧ Rest c.2.st c'.2 := by
      intro hc
      refine ⟨by simpa using drive_children s f [] cs (fun c h => (hfr c h (hc c h)).1), fun c' hc' => ?_⟩
      obtain ⟨c, h, rfl⟩ := List.mem_map.1 hc'
      exact ⟨c, h, rfl, (hfr c h (hc c h)).2⟩
    have simp_of : ∀ {c c' : Bool × Proc}, Owing c.2.st ∨ Waiting c.2.st → Rest c.2.st c'.2 → Simple c'.2 := by
      intro c c' h r
      rcases h with h | h
      · obtain ⟨a, b, e⟩ := rest_owing r h
        rw [e]; exact .send a b
      · rw [rest_waiting r h]; exact .waitF
    cases s with
    | work =>
      have : cs = [] := wf_work (dmt := false) (Or.inl rfl) (.mk _ _ hshape hfits hwf)
      subst this
      exact ⟨_, .one (.leaf [] true false), .owing _ _ _ trivial⟩
    | send a b =>
      have : cs = [] := wf_work (dmt := false) (Or.inr (Or.inr ⟨a, b, rfl⟩)) (.mk _ _ hshape hfits hwf)
      subst this
      exact ⟨_, .refl _, .owing _ _ _ trivial⟩
    | waitF =>
      have : cs = [] := wf_work (dmt := false) (Or.inr (Or.inl rfl)) (.mk _ _ hshape hfits hwf)
      subst this
      exact ⟨_, .refl _, .waiting _ trivial⟩
    | dead =>
      have : cs = [] := wf_no_children (dmt := false) (.mk _ _ hshape hfits hwf) (fun c => id)
      subst this
      exact ⟨_, .refl _, .dying _ trivial⟩
    | collect =>
      have ow : ∀ c ∈ cs, Owing c.2.st ∨ Waiting c.2.st := by
        intro c hc
        have := hfits c hc
        obtain ⟨b, c⟩ := c
        cases b with
        | true => exact Or.inl this
        | false => exact Or.inr this
      obtain ⟨d, r⟩ := kids ow
      generalize hcs' : cs.map (fun c => (c.1, f c.2)) = cs' at d r
      obtain ⟨a, b, d2⟩ := collect_rest cs' (fun c' hc' => by
        obtain ⟨c, hc, _, hr⟩ := r c' hc'
        exact simp_of (ow c hc) hr) (fun c' hc' => by
        obtain ⟨c, hc, e, hr⟩ := r c' hc'
        have := hfits c hc
        obtain ⟨b, c⟩ := c
        cases b with
        | true => rw [if_pos e]; exact rest_owing hr this
        | false =>
          rw [if_neg (by rw [e]; simp)]
          exact rest_waiting hr this)
      exact ⟨_, d.trans d2, .owing _ a b trivial⟩
    | give =>
      have ow : ∀ c ∈ cs, Owing c.2.st ∨ Waiting c.2.st := by
        intro c hc
        have := hfits c hc
        obtain ⟨b, c⟩ := c
        cases b with
        | true => exact Or.inr this
        | false => exact Or.inl this
      obtain ⟨d, r⟩ := kids ow
      generalize hcs' : cs.map (fun c => (c.1, f c.2)) = cs' at d r
      obtain ⟨a, b, d2⟩ := give_rest cs' (fun c' hc' => by
        obtain ⟨c, hc, e, hr⟩ := r c' hc'
        have := hfits c hc
        obtain ⟨b, c⟩ := c
        cases b with
        | true => rw [if_pos e]; exact rest_waiting hr this
        | false =>
          rw [if_neg (by rw [e]; simp)]
          exact rest_owing hr this)
      exact ⟨_, d.trans d2, .owing _ a b trivial⟩
    | close kill k =>
      have ow : ∀ c ∈ cs, Owing c.2.st ∨ Waiting c.2.st := by
        intro c hc
        have := hfits c hc
        obtain ⟨b, c⟩ := c
        cases b with
        | true => exact this
        | false => exact Or.inr this.2
      obtain ⟨d, r⟩ := kids ow
      generalize hcs' : cs.map (fun c => (c.1, f c.2)) = cs' at d r
      obtain ⟨p', d2, hr⟩ := close_rest kill k cs' hshape (fun c' hc' => by
        obtain ⟨c, hc, _, hr⟩ := r c' hc'
        exact simp_of (ow c hc) hr) (fun c' hc' hb => by
        obtain ⟨c, hc, e, hr⟩ := r c' hc'
        have := hfits c hc
        obtain ⟨b, c⟩ := c
        rw [hb] at e
        simp only at e
        subst e
        exact ⟨this.1, rest_waiting hr this.2⟩) 0 (fun _ => rfl)
      exact ⟨p', d.trans (by simpa [waiters] using d2), hr⟩
    | reply kill k =>
      obtain ⟨hkn, pre, c, post, e, hpre, hc⟩ := hshape
      have ow : ∀ c ∈ cs, Owing c.2.st ∨ Waiting c.2.st := by
        intro c hc
        have := hfits c hc
        obtain ⟨b, c⟩ := c
        cases b with
        | true => exact this
        | false => exact Or.inr this.2
      obtain ⟨d, r⟩ := kids ow
      -- the child the order is meant for stays where it is
      have hfc : f c = .mk .waitF [] :=
        rest_waiting (hfr (true, c) (by rw [e]; simp) (ow _ (by rw [e]; simp))).2 (by rw [hc]; trivial)
      rw [e, List.map_append, List.map_cons] at d
      simp only [hfc] at d
      have hpre' : ∀ x ∈ pre.map (fun c => (c.1, f c.2)), x.1 = false := by
        intro x hx
        obtain ⟨y, hy, rfl⟩ := List.mem_map.1 hx
        exact hpre y hy
      have back : ∀ x, x ∈ pre.map (fun c => (c.1, f c.2)) ∨ x ∈ post.map (fun c => (c.1, f c.2)) →
          x ∈ cs.map (fun c => (c.1, f c.2)) := by
        intro x hx
        rw [e, List.map_append, List.map_cons]
        rcases hx with hx | hx
        · exact List.mem_append_left _ hx
        · exact List.mem_append_right _ (List.mem_cons_of_mem _ hx)
      generalize cs.map (fun c => (c.1, f c.2)) = cs' at back r
      generalize pre.map (fun c => (c.1, f c.2)) = pre' at hpre' d back
      generalize post.map (fun c => (c.1, f c.2)) = post' at d back
      have smp : ∀ c' ∈ cs', Simple c'.2 := by
        intro c' hc'
        obtain ⟨c, hc, _, hr⟩ := r c' hc'
        exact simp_of (ow c hc) hr
      have wtg : ∀ c' ∈ cs', c'.1 = false → kill = false ∧ c'.2 = .mk .waitF [] := by
        intro c' hc' hb
        obtain ⟨c, hc, e', hr⟩ := r c' hc'
        have := hfits c hc
        obtain ⟨b, c⟩ := c
        rw [hb] at e'
        simp only at e'
        subst e'
        exact ⟨this.1, rest_waiting hr this.2⟩
      have fin : ∀ {p'}, Rest (.close kill k) p' → Rest (.reply kill k) p' := by
        intro p' hr
        cases hr with
        | owing a b h => exact .owing _ a b h
        | waiting h => exact .waiting _ h
        | dying h => exact .dying _ h
      rw [e]
      cases kill with
      | true =>
        have st := Step.replyKill (dmt := false) pre' post' _ _ k hpre' (.waitF []) rfl
        obtain ⟨p', d4, hr⟩ := close_rest true k (pre' ++ post') hkn
          (fun c' hc' => smp c' (back c' (List.mem_append.1 hc'))) (fun c' hc' => wtg c' (back c' (List.mem_append.1 hc'))) 0
          (fun _ => rfl)
        refine ⟨p', d.trans (Drive.trans (.tail _ _ _ _ (.refl _) st ?_) (by simpa [waiters] using d4)), fin hr⟩
        intro x hx
        simpa [all, corpse] using hx
      | false =>
        have st := Step.replyHold (dmt := false) pre' post' _ _ k hpre' (.waitF []) rfl
        have st2 := Step.child (dmt := false) (.close false k) pre' post' false _ _ [] (Step.thenWait [] true (by simp))
        have sub : ∀ x ∈ pre' ++ (false, Proc.mk .waitF []) :: post', x ∈ cs' ∨ x = (false, .mk .waitF []) := by
          intro x hx
          rcases List.mem_append.1 hx with hx | hx
          · exact Or.inl (back x (Or.inl hx))
          · rcases List.mem_cons.1 hx with rfl | hx
            · exact Or.inr rfl
            · exact Or.inl (back x (Or.inr hx))
        obtain ⟨p', d4, hr⟩ := close_rest false k (pre' ++ (false, .mk .waitF []) :: post') hkn
          (fun c' hc' => by
            rcases sub c' hc' with h | rfl
            · exact smp c' h
            · exact .waitF)
          (fun c' hc' hb => by
            rcases sub c' hc' with h | rfl
            · exact wtg c' h hb
            · exact ⟨rfl, rfl⟩) 0 (fun _ => rfl)
        exact ⟨p', d.trans ((Drive.one st).trans ((Drive.one st2).trans (by simpa [waiters] using d4))), fin hr⟩
    | main => rcases hk with h | h | h <;> exact h.elim
    | mainReply => rcases hk with h | h | h <;> exact h.elim
    | mainDone => rcases hk with h | h | h <;> exact h.elim

/-! ### The whole system -/

inductive SysSteps : Sys → Sys → Prop where
  | refl (s) : SysSteps s s
  | tail (s t u) : SysSteps s t → SysStep false t u → SysSteps s u

theorem SysSteps.trans {s t u : Sys} (h1 : SysSteps s t) (h2 : SysSteps t u) : SysSteps s u := by
  induction h2 with
  | refl => exact h1
  | tail t u _ hs ih => exact .tail _ _ _ ih hs

theorem drive_main {p p' : Proc} (h : Drive p p') (os : List Proc) :
    ∃ n, SysSteps ⟨p, os⟩ ⟨p', os ++ List.replicate n corpse⟩ := by
  induction h with
  | refl => exact ⟨0, by simpa using SysSteps.refl _⟩
  | tail q r o _ hs ho ih =>
    obtain ⟨n, hn⟩ := ih
    have e : o = List.replicate o.length corpse := List.eq_replicate_iff.2 ⟨rfl, ho⟩
    refine ⟨n + o.length, ?_⟩
    rw [← List.replicate_append_replicate, ← e, ← List.append_assoc]
    exact .tail _ _ _ hn (.main _ _ _ _ hs)

theorem drive_orphan {c c' : Proc} (h : Drive c c') (p : Proc) (pre post : List Proc) :
    ∃ n, SysSteps ⟨p, pre ++ c :: post⟩ ⟨p, pre ++ c' :: (post ++ List.replicate n corpse)⟩ := by
  induction h with
  | refl => exact ⟨0, by simpa using SysSteps.refl _⟩
  | tail q r o _ hs ho ih =>
    obtain ⟨n, hn⟩ := ih
    have e : o = List.replicate o.length corpse := List.eq_replicate_iff.2 ⟨rfl, ho⟩
    refine ⟨n + o.length, ?_⟩
    rw [← List.replicate_append_replicate, ← e]
    have := SysStep.orphan (dmt := false) p pre q r (post ++ List.replicate n corpse) o hs
    have e2 : pre ++ r :: (post ++ List.replicate n corpse) ++ o = pre ++ r :: (post ++ (List.replicate n corpse ++ o)) := by simp
    rw [e2] at this
    exact .tail _ _ _ hn this

theorem corpse_dies : Drive corpse (.mk .dead []) := .one (.thenDie [] true (by simp))

/-- Processes that end without leaving further ones behind. -/
theorem bury (p : Proc) (done : List Proc) (n : Nat) : SysSteps ⟨p, done ++ List.replicate n corpse⟩
    ⟨p, done ++ List.replicate n (.mk .dead [])⟩ := by
  induction n generalizing done with
  | zero => exact .refl _
  | succ n ih =>
    have st := SysStep.orphan (dmt := false) p done corpse (.mk .dead []) (List.replicate n corpse) []
      (Step.thenDie [] true (by simp))
    have h := ih (done ++ [.mk .dead []])
    simp only [List.append_assoc, List.singleton_append, List.append_nil] at h st
    rw [List.replicate_succ, List.replicate_succ]
    exact (SysSteps.tail _ _ _ (.refl _) st).trans h

/-- Driving all processes without father to their end. -/
theorem drive_orphans (p : Proc) (done os : List Proc) (hd : ∀ c ∈ done, c = .mk .dead [])
    (h : ∀ c ∈ os, Drive c (.mk .dead [])) : ∃ n, SysSteps ⟨p, done ++ os⟩ ⟨p, List.replicate n (.mk .dead [])⟩ := by
  induction os generalizing done with
  | nil =>
    refine ⟨done.length, ?_⟩
    rw [List.append_nil, ← List.eq_replicate_iff.2 ⟨rfl, hd⟩]
    exact .refl _
  | cons c os ih =>
    obtain ⟨n, h1⟩ := drive_orphan (h c (by simp)) p done os
    -- the new ones are buried
    have e : done ++ Proc.mk .dead [] :: (os ++ List.replicate n corpse) =
        (done ++ Proc.mk .dead [] :: os) ++ List.replicate n corpse := by simp
    rw [e] at h1
    have h2 := h1.trans (bury p _ n)
    -- reorder: treat the buried ones as part of the list still to be done
    have e2 : (done ++ Proc.mk .dead [] :: os) ++ List.replicate n (Proc.mk .dead []) =
        (done ++ [Proc.mk .dead []]) ++ (os ++ List.replicate n (.mk .dead [])) := by simp
    rw [e2] at h2
    have key : ∀ (os : List Proc), (∀ c ∈ os, Drive c (.mk .dead [])) → ∀ (done : List Proc) (m : Nat),
        (∀ c ∈ done, c = .mk .dead []) →
        ∃ n, SysSteps ⟨p, done ++ (os ++ List.replicate m (.mk .dead []))⟩ ⟨p, List.replicate n (.mk .dead [])⟩ := by
      intro os
      induction os with
      | nil =>
        intro _ done m hd
        refine ⟨done.length + m, ?_⟩
        rw [← List.replicate_append_replicate, ← List.eq_replicate_iff.2 ⟨rfl, hd⟩]
        exact .refl _
      | cons c os ih =>
        intro h done m hd
        obtain ⟨n, h1⟩ := drive_orphan (h c (by simp)) p done (os ++ List.replicate m (.mk .dead []))
        have e : done ++ Proc.mk .dead [] :: (os ++ List.replicate m (.mk .dead []) ++ List.replicate n corpse) =
            (done ++ Proc.mk .dead [] :: (os ++ List.replicate m (.mk .dead []))) ++ List.replicate n corpse := by simp
        rw [e] at h1
        have h2 := h1.trans (bury p _ n)
        obtain ⟨k, h3⟩ := ih (fun c hc => h c (List.mem_cons_of_mem _ hc)) (done ++ [.mk .dead []]) (m + n) (by
          intro c hc
          rcases List.mem_append.1 hc with hc | hc
          · exact hd c hc
          · simpa using hc)
        refine ⟨k, SysSteps.trans (by simpa using h2) ?_⟩
        rw [← List.replicate_append_replicate] at h3
        simpa using h3
    obtain ⟨k, h3⟩ := key os (fun c hc => h c (List.mem_cons_of_mem _ hc)) (done ++ [.mk .dead []]) n (by
      intro c hc
      rcases List.mem_append.1 hc with hc | hc
      · exact hd c hc
      · simpa using hc)
    exact ⟨k, h2.trans h3⟩

/-- **C34 for the whole tree.** From every state the processes can get into there is a continuation in which the main goroutine
gets its result and every process, at any depth, has ended. -/
theorem C34_can_always_finish (s : Sys) (h : Reach false s) :
    ∃ n, SysSteps s ⟨.mk .mainDone [], List.replicate n (.mk .dead [])⟩ := by
  have inv := inv_reach h
  obtain ⟨p, os⟩ := s
  -- the main goroutine gets its result
  have hmain : Drive p (.mk .mainDone []) := by
    have hw := inv.main
    have hk := inv.kind
    simp only at hw hk
    cases hw with
    | mk t cs hshape hfits hwf =>
      simp only [Proc.st] at hk
      rcases hk with rfl | rfl | rfl
      · obtain ⟨⟨b, c⟩, rfl⟩ := List.length_eq_one_iff.1 hshape
        have hf := hfits (b, c) (by simp)
        obtain ⟨rfl, ho⟩ := hf
        obtain ⟨c', d, r⟩ := comes_to_rest c (hwf (true, c) (by simp)) (Or.inl ho)
        obtain ⟨a, n, rfl⟩ := rest_owing r ho
        refine (d.child .main [] [] true).trans ?_
        cases n with
        | false => exact .one (.result a [])
        | true =>
          refine (Drive.one (.resultNeed a [])).trans (.tail _ _ _ _ (.refl _) (.mainKill _ corpse (.waitF [])) ?_)
          intro x hx
          simpa using hx
      · obtain ⟨⟨b, c⟩, rfl⟩ := List.length_eq_one_iff.1 hshape
        obtain ⟨rfl, hc⟩ := hfits (b, c) (by simp)
        cases c with
        | mk u ks =>
          simp only [Proc.st] at hc
          subst hc
          have : ks = [] := wf_work (dmt := false) (Or.inr (Or.inl rfl)) (hwf (true, .mk .waitF ks) (by simp))
          subst this
          refine .tail _ _ _ _ (.refl _) (.mainKill _ corpse (.waitF [])) ?_
          intro x hx
          simpa using hx
      · have : cs = [] := wf_no_children (dmt := false) (.mk _ _ hshape hfits hwf) (fun c => id)
        subst this
        exact .refl _
  obtain ⟨n, h1⟩ := drive_main hmain os
  obtain ⟨m, h2⟩ := drive_orphans (.mk .mainDone []) [] (os ++ List.replicate n corpse) (by simp) (by
    intro c hc
    rcases List.mem_append.1 hc with hc | hc
    · obtain ⟨w, d⟩ := inv.orphans c hc
      rcases d with d | ⟨d, _⟩
      · obtain ⟨c', d', r⟩ := comes_to_rest c w (Or.inr (Or.inr d))
        cases r with
        | owing a b h => cases hc' : c.st <;> simp_all [Owing, Dying]
        | waiting h => cases hc' : c.st <;> simp_all [Waiting, Dying]
        | dying h => exact d'
      · cases d
    · rw [(List.mem_replicate.1 hc).2]
      exact corpse_dies)
  exact ⟨m, h1.trans (by simpa using h2)⟩

/-- The hypothesis is met in the middle of a search: the root has branched and one branch has been told to stop. -/
example : Reach false ⟨.mk .main [(true, .mk (.close false .giveUp) [(false, .mk (.close true (.ordered false)) [])])], []⟩ := by
  have r1 : Reach false ⟨.mk .main [(true, .mk .collect (fresh 2))], []⟩ :=
    .step _ _ .start (.main _ _ [] [] (.child .main [] [] true _ _ [] (.spawn [] 2)))
  have r2 : Reach false ⟨.mk .main [(true, .mk .collect [(true, .mk (.send false false) []), (true, .mk .work [])])], []⟩ :=
    .step _ _ r1 (.main _ _ [] [] (.child .main [] [] true _ _ [] (.child .collect [] [(true, .mk .work [])] true _ _ []
      (.leaf [] false false))))
  have r3 : Reach false ⟨.mk .main [(true, .mk (.close false .giveUp) [(true, .mk .work [])])], []⟩ :=
    .step _ _ r2 (.main _ _ [] [] (.child .main [] [] true _ _ []
      (.opened [] [(true, .mk .work [])] false false [] .giveUp rfl (Or.inr (Or.inl rfl)))))
  exact .step _ _ r3 (.main _ _ [] [] (.child .main [] [] true _ _ [] (.hold [] [] _ _ .giveUp (by simp) (.work []))))

end Verif.Search.Protocol
