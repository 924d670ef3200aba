/-!
# C10: the task queue (`src/Glob/syncTaskList.go`, `src/Glob/syncCounter.go`)

Goroutines call `AddTask` at any time, also from inside a task. Everything done under the mutex is one step. A goroutine
is a stack of calls: `drain` is `doTasks` waiting for the mutex, `run` a task being executed.
-/

namespace Verif.Glob.Tasks

/-- A call in progress. `run d r`: a task of `SyncCounter` (src/Glob/syncCounter.go:57-67) that adds `d` to the
counter; `r` is the value it has read, if it has read it already (`counter++` reads, then writes). -/
inductive Frame where
  | drain
  | run (d : Int) (r : Option Int)
deriving DecidableEq

/-- The state: the stacks of the goroutines, the queue (src/Glob/syncTaskList.go:44-47), the counter, and, for the specification
only, the tasks added, started and finished so far, in this order. -/
structure St where
  stacks : List (List Frame)
  queue : List Int := []
  mem : Int := 0
  added : List Int := []
  started : List Int := []
  done : List Int := []

/-- A goroutine may call `AddTask` when it is outside the queue or executes a task. -/
def MayAdd : List Frame → Prop
  | [] => True
  | .run _ _ :: _ => True
  | .drain :: _ => False

/-- One step of one goroutine. -/
inductive Step : St → St → Prop where
  /-- `AddTask` (src/Glob/syncTaskList.go:49-57): if the queue was empty the goroutine goes on with `doTasks`. -/
  | add (s : St) (pre post : List (List Frame)) (st : List Frame) (d : Int) (h : s.stacks = pre ++ st :: post) (hm : MayAdd st) :
      Step s { s with stacks := pre ++ (if s.queue.isEmpty then .drain :: st else st) :: post,
                      queue := s.queue ++ [d], added := s.added ++ [d] }
  /-- `doTasks` takes the first task and releases the mutex (59-69, 71-76). -/
  | pop (s : St) (pre post : List (List Frame)) (st : List Frame) (d : Int) (q : List Int)
      (h : s.stacks = pre ++ (.drain :: st) :: post) (hq : s.queue = d :: q) :
      Step s { s with stacks := pre ++ (.run d none :: .drain :: st) :: post, queue := q, started := s.started ++ [d] }
  /-- `doTasks` finds the queue empty and returns. -/
  | stop (s : St) (pre post : List (List Frame)) (st : List Frame)
      (h : s.stacks = pre ++ (.drain :: st) :: post) (hq : s.queue = []) :
      Step s { s with stacks := pre ++ st :: post }
  /-- The task reads the counter. -/
  | read (s : St) (pre post : List (List Frame)) (st : List Frame) (d : Int)
      (h : s.stacks = pre ++ (.run d none :: st) :: post) :
      Step s { s with stacks := pre ++ (.run d (some s.mem) :: st) :: post }
  /-- The task writes the counter and returns. -/
  | write (s : St) (pre post : List (List Frame)) (st : List Frame) (d v : Int)
      (h : s.stacks = pre ++ (.run d (some v) :: st) :: post) :
      Step s { s with stacks := pre ++ st :: post, mem := v + d, done := s.done ++ [d] }

/-- `n` goroutines, none of them in the queue. -/
def init (n : Nat) : St := { stacks := List.replicate n [] }

/-- Every interleaving. -/
inductive Reach (n : Nat) : St → Prop where
  | init : Reach n (init n)
  | step {s s' : St} : Reach n s → Step s s' → Reach n s'

/-- Nobody is in the queue any more. -/
def Quiet (s : St) : Prop := ∀ st ∈ s.stacks, st = []

/-- The tasks being executed by a goroutine. -/
def running : List Frame → List Int
  | [] => []
  | .drain :: st => running st
  | .run d _ :: st => d :: running st

/-- All tasks being executed. -/
def St.running (s : St) : List Int := s.stacks.flatMap Tasks.running

theorem running_mid (pre post : List (List Frame)) (st : List Frame) :
    (pre ++ st :: post).flatMap Tasks.running = pre.flatMap Tasks.running ++ (Tasks.running st ++ post.flatMap Tasks.running) := by
  simp [List.flatMap_append]

/-- **C10, order.** Tasks are started in the order in which they were added, each once; those not started
yet are in the queue. -/
theorem C10_fifo {n : Nat} {s : St} (h : Reach n s) : s.started ++ s.queue = s.added := by
  induction h with
  | init => rfl
  | step _ hs ih =>
    cases hs with
    | add => simp only; rw [← List.append_assoc, ih]
    | pop pre post st d q h hq => simp only; rw [← ih, hq]; simp
    | stop => exact ih
    | read => exact ih
    | write => exact ih

/-- Every started task is running or finished. -/
theorem started_perm {n : Nat} {s : St} (h : Reach n s) : (s.done ++ s.running).Perm s.started := by
  induction h with
  | init =>
    simp only [init, St.running, List.nil_append]
    rw [show (List.replicate n ([] : List Frame)).flatMap Tasks.running = [] by
      simp [List.flatMap_eq_nil_iff, List.mem_replicate, Tasks.running]]
  | step _ hs ih =>
    cases hs with
    | add pre post st d h hm =>
      refine (List.Perm.of_eq ?_).trans ih
      simp only [St.running, h, running_mid]
      split <;> rfl
    | pop pre post st d q h hq =>
      simp only [St.running, h, running_mid, Tasks.running] at ih ⊢
      refine List.Perm.trans ?_ (ih.append_right [d])
      rw [List.append_assoc]
      refine List.Perm.append_left _ ?_
      rw [List.append_assoc]
      refine List.Perm.append_left _ ?_
      exact (List.perm_append_comm (l₁ := [d])).trans (by rfl)
    | stop pre post st h hq =>
      refine (List.Perm.of_eq ?_).trans ih
      simp only [St.running, h, running_mid, Tasks.running]
    | read pre post st d h =>
      refine (List.Perm.of_eq ?_).trans ih
      simp only [St.running, h, running_mid, Tasks.running]
    | write pre post st d v h =>
      simp only [St.running, h, running_mid, Tasks.running] at ih ⊢
      refine List.Perm.trans ?_ ih
      rw [List.append_assoc]
      refine List.Perm.append_left _ ?_
      simp only [List.cons_append, List.nil_append]
      exact List.perm_middle.symm

/-- Somebody takes care of a non-empty queue. -/
theorem drained {n : Nat} {s : St} (h : Reach n s) (hq : s.queue ≠ []) : ∃ st ∈ s.stacks, Frame.drain ∈ st := by
  induction h with
  | init => exact absurd rfl hq
  | step _ hs ih =>
    cases hs with
    | add pre post st d h hm =>
      rename_i s _
      by_cases he : s.queue = []
      · exact ⟨.drain :: st, by simp [he], by simp⟩
      · obtain ⟨x, hx, hd⟩ := ih he
        rw [h] at hx
        refine ⟨x, ?_, hd⟩
        simpa [he] using hx
    | pop pre post st d q h hq' => exact ⟨.run d none :: .drain :: st, by simp, by simp⟩
    | stop pre post st h hq' => exact absurd hq' hq
    | read pre post st d h =>
      rename_i s _
      obtain ⟨x, hx, hd⟩ := ih hq
      rw [h] at hx
      simp only [List.mem_append, List.mem_cons] at hx
      rcases hx with hx | rfl | hx
      · exact ⟨x, by simp [hx], hd⟩
      · exact ⟨.run d (some s.mem) :: st, by simp, by simpa using hd⟩
      · exact ⟨x, by simp [hx], hd⟩
    | write pre post st d v h =>
      obtain ⟨x, hx, hd⟩ := ih hq
      rw [h] at hx
      simp only [List.mem_append, List.mem_cons] at hx
      rcases hx with hx | rfl | hx
      · exact ⟨x, by simp [hx], hd⟩
      · exact ⟨st, by simp, by simpa using hd⟩
      · exact ⟨x, by simp [hx], hd⟩

/-- **C10, exactly once.** In every interleaving: once all goroutines have left the queue, the tasks executed to the end are
exactly the tasks added, each once. -/
theorem C10_exactly_once {n : Nat} {s : St} (h : Reach n s) (hq : Quiet s) : s.done.Perm s.added := by
  have h1 : s.queue = [] := by
    apply Classical.byContradiction
    intro hne
    obtain ⟨st, hst, hd⟩ := drained h hne
    rw [hq st hst] at hd
    cases hd
  have h2 : s.running = [] := by
    rw [St.running, List.flatMap_eq_nil_iff]
    intro st hst
    rw [hq st hst]; rfl
  have h3 := started_perm h
  rw [h2, List.append_nil] at h3
  have h4 := C10_fifo h
  rw [h1, List.append_nil] at h4
  rwa [h4] at h3

/-- **C10, no blocking.** As long as some goroutine is in the queue, the tasks can go on without new calls. -/
theorem C10_progress (s : St) (hq : ¬ Quiet s) : ∃ s', Step s s' ∧ s'.added = s.added := by
  have : ∃ st ∈ s.stacks, st ≠ [] := by
    apply Classical.byContradiction
    intro hx
    exact hq fun st hst => Classical.byContradiction fun hne => hx ⟨st, hst, hne⟩
  obtain ⟨st, hst, hne⟩ := this
  obtain ⟨pre, post, h⟩ := List.append_of_mem hst
  cases st with
  | nil => exact absurd rfl hne
  | cons f st =>
    cases f with
    | drain =>
      cases hq : s.queue with
      | nil => exact ⟨_, .stop s pre post st h hq, rfl⟩
      | cons d q => exact ⟨_, .pop s pre post st d q h hq, rfl⟩
    | run d r =>
      cases r with
      | none => exact ⟨_, .read s pre post st d h, rfl⟩
      | some v => exact ⟨_, .write s pre post st d v h, rfl⟩

/-! ### One at a time: violated -/

/-- **C10**, second part of the claim. -/
def C10_mutex_statement : Prop := ∀ (n : Nat) (s : St), Reach n s → s.running.length ≤ 1

/-- **C10**, third part of the claim: after everything is done the counter is the sum of the changes. -/
def C10_counter_statement : Prop := ∀ (n : Nat) (s : St), Reach n s → Quiet s → s.mem = s.added.sum

/-- The interleaving: the first goroutine takes its only task out of the queue and releases the mutex; the second finds
the queue empty and starts `doTasks` as well. Both read the counter before either writes it. -/
def race0 : St := { stacks := [[.run 1 none, .drain], []], added := [1], started := [1] }
def race1 : St := { stacks := [[.run 1 none, .drain], [.run 1 none, .drain]], added := [1, 1], started := [1, 1] }
def race2 : St := { stacks := [[], []], mem := 1, added := [1, 1], started := [1, 1], done := [1, 1] }

theorem reach_race1 : Reach 2 race1 := by
  have s1 : Reach 2 { stacks := [[.drain], []], queue := [1], added := [1] } :=
    .step .init (.add _ [] [[]] [] 1 rfl trivial)
  have s2 : Reach 2 race0 := .step s1 (.pop _ [] [[]] [] 1 [] rfl rfl)
  have s3 : Reach 2 { stacks := [[.run 1 none, .drain], [.drain]], queue := [1], added := [1, 1], started := [1] } :=
    .step s2 (.add _ [[.run 1 none, .drain]] [] [] 1 rfl trivial)
  exact .step s3 (.pop _ [[.run 1 none, .drain]] [] [] 1 [] rfl rfl)

theorem reach_race2 : Reach 2 race2 := by
  have s5 := Reach.step reach_race1 (.read _ [] [[.run 1 none, .drain]] [.drain] 1 rfl)
  have s6 := Reach.step s5 (.read _ [[.run 1 (some 0), .drain]] [] [.drain] 1 rfl)
  have s7 := Reach.step s6 (.write _ [] [[.run 1 (some 0), .drain]] [.drain] 1 0 rfl)
  have s8 := Reach.step s7 (.write _ [[.drain]] [] [.drain] 1 0 rfl)
  have s9 := Reach.step s8 (.stop _ [] [[.drain]] [] rfl rfl)
  exact Reach.step s9 (.stop _ [[]] [] [] rfl rfl)

/-- **C10, violated**: two tasks are executed at the same time. -/
theorem C10_violated_mutex : Reach 2 race1 ∧ race1.running.length = 2 := ⟨reach_race1, by decide⟩

theorem C10_mutex_statement_false : ¬ C10_mutex_statement := by
  intro h
  have := h 2 _ C10_violated_mutex.1
  rw [C10_violated_mutex.2] at this
  omega

/-- **C10, violated**: two increments, the counter is 1. -/
theorem C10_violated_counter : Reach 2 race2 ∧ Quiet race2 ∧ race2.mem = 1 ∧ race2.added.sum = 2 :=
  ⟨reach_race2, by simp [Quiet, race2], rfl, by decide⟩

theorem C10_counter_statement_false : ¬ C10_counter_statement := by
  intro h
  have := h 2 _ C10_violated_counter.1 C10_violated_counter.2.1
  rw [C10_violated_counter.2.2.1, C10_violated_counter.2.2.2] at this
  omega

/-- Runs in which at every moment at most one task is being executed. -/
inductive Reach1 (n : Nat) : St → Prop where
  | init : Reach1 n (init n)
  | step {s s' : St} : Reach1 n s → Step s s' → s'.running.length ≤ 1 → Reach1 n s'

theorem Reach1.reach {n : Nat} {s : St} (h : Reach1 n s) : Reach n s := by
  induction h with
  | init => exact .init
  | step _ hs _ ih => exact .step ih hs

/-- The values read by the tasks being executed are the value of the counter. -/
def Fresh (s : St) : Prop := ∀ st ∈ s.stacks, ∀ d v, Frame.run d (some v) ∈ st → v = s.mem

theorem running_mem {st : List Frame} {d : Int} {r : Option Int} (h : Frame.run d r ∈ st) : Tasks.running st ≠ [] := by
  induction st with
  | nil => cases h
  | cons f st ih =>
    cases f with
    | drain => simp only [List.mem_cons, reduceCtorEq, false_or] at h; exact ih h
    | run d' r' => simp [Tasks.running]

/-- **C10, what holds for the counter**: in every run in which no two tasks overlap the counter is the sum of the finished
changes, so nothing is lost. -/
theorem C10_counter_partial {n : Nat} {s : St} (h : Reach1 n s) : s.mem = s.done.sum := by
  suffices Fresh s ∧ s.running.length ≤ 1 ∧ s.mem = s.done.sum from this.2.2
  induction h with
  | init =>
    refine ⟨?_, ?_, rfl⟩
    · intro st hst d v hx
      simp only [init, List.mem_replicate] at hst
      rw [hst.2] at hx; cases hx
    · simp only [init, St.running]
      rw [show (List.replicate n ([] : List Frame)).flatMap Tasks.running = [] by
        simp [List.flatMap_eq_nil_iff, List.mem_replicate, Tasks.running]]
      simp
  | step _ hs h1 ih =>
    obtain ⟨hf, hl, hm⟩ := ih
    cases hs with
    | add pre post st d h hma =>
      refine ⟨?_, h1, hm⟩
      intro x hx d' v hr
      simp only [List.mem_append, List.mem_cons] at hx
      rcases hx with hx | rfl | hx
      · exact hf x (by simp [h, hx]) d' v hr
      · refine hf st (by simp [h]) d' v ?_
        split at hr
        · simpa using hr
        · exact hr
      · exact hf x (by simp [h, hx]) d' v hr
    | pop pre post st d q h hq =>
      refine ⟨?_, h1, hm⟩
      intro x hx d' v hr
      simp only [List.mem_append, List.mem_cons] at hx
      rcases hx with hx | rfl | hx
      · exact hf x (by simp [h, hx]) d' v hr
      · exact hf (.drain :: st) (by simp [h]) d' v (by simpa using hr)
      · exact hf x (by simp [h, hx]) d' v hr
    | stop pre post st h hq =>
      refine ⟨?_, h1, hm⟩
      intro x hx d' v hr
      simp only [List.mem_append, List.mem_cons] at hx
      rcases hx with hx | rfl | hx
      · exact hf x (by simp [h, hx]) d' v hr
      · exact hf (.drain :: x) (by simp [h]) d' v (by simp [hr])
      · exact hf x (by simp [h, hx]) d' v hr
    | read pre post st d h =>
      refine ⟨?_, h1, hm⟩
      intro x hx d' v hr
      simp only [List.mem_append, List.mem_cons] at hx
      rcases hx with hx | rfl | hx
      · exact hf x (by simp [h, hx]) d' v hr
      · simp only [List.mem_cons, Frame.run.injEq, Option.some.injEq] at hr
        rcases hr with ⟨_, rfl⟩ | hr
        · rfl
        · exact hf (.run d none :: st) (by simp [h]) d' v (by simp [hr])
      · exact hf x (by simp [h, hx]) d' v hr
    | write pre post st d v h =>
      -- no other task is being executed
      simp only [St.running, h, running_mid, Tasks.running, List.length_append, List.length_cons] at hl
      have hst : Tasks.running st = [] := List.eq_nil_of_length_eq_zero (by omega)
      have hpre : pre.flatMap Tasks.running = [] := List.eq_nil_of_length_eq_zero (by omega)
      have hpost : post.flatMap Tasks.running = [] := List.eq_nil_of_length_eq_zero (by omega)
      rw [List.flatMap_eq_nil_iff] at hpre hpost
      have hv : v = _ := hf (.run d (some v) :: st) (by simp [h]) d v (by simp)
      refine ⟨?_, h1, by simp [hv, hm]⟩
      intro x hx d' v' hr
      simp only [List.mem_append, List.mem_cons] at hx
      rcases hx with hx | rfl | hx
      · exact absurd (hpre x hx) (running_mem hr)
      · exact absurd hst (running_mem hr)
      · exact absurd (hpost x hx) (running_mem hr)

/-- A run with two goroutines one after the other. -/
example : Reach1 2 { stacks := [[], []], mem := 1, added := [1], started := [1], done := [1] } := by
  have s1 : Reach1 2 { stacks := [[.drain], []], queue := [1], added := [1] } :=
    .step .init (.add _ [] [[]] [] 1 rfl trivial) (by decide)
  have s2 : Reach1 2 race0 := .step s1 (.pop _ [] [[]] [] 1 [] rfl rfl) (by decide)
  have s3 := Reach1.step s2 (.read _ [] [[]] [.drain] 1 rfl) (by decide)
  have s4 := Reach1.step s3 (.write _ [] [[]] [.drain] 1 0 rfl) (by decide)
  exact Reach1.step s4 (.stop _ [] [[]] [] rfl rfl) (by decide)

end Verif.Glob.Tasks
