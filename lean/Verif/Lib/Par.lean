/-!
# C07: parallel fan-out (`src/Lib/par.go`)

`GenericParallel` starts one goroutine per call, each with its own unbuffered channel, and receives as
many values as there are channels with `reflect.Select`, combining them with `reconciliation`. A
goroutine that has sent stays a possible sender: its channel remains among the select cases.
-/

namespace Verif.Lib.Par

/-- The state of `genericSelect` (src/Lib/par.go:62-86): for every channel the values its goroutine is still going to
send, in order; the accumulated result; the number of receptions to come. -/
structure St (T : Type u) where
  pending : List (List T)
  res : T
  remaining : Nat

/-- One iteration (src/Lib/par.go:74-83): a value of any channel that has one. All values have the type of the
channel, so the type test never fails. -/
inductive Step {T : Type u} (rec : T → T → T) : St T → St T → Prop where
  | recv (pre post : List (List T)) (v : T) (vs : List T) (res : T) (n : Nat) :
      Step rec ⟨pre ++ (v :: vs) :: post, res, n + 1⟩ ⟨pre ++ vs :: post, rec res v, n⟩

/-- Any number of iterations. -/
inductive Steps {T : Type u} (rec : T → T → T) : St T → St T → Prop where
  | refl (s : St T) : Steps rec s s
  | step {a b c : St T} : Step rec a b → Steps rec b c → Steps rec a c

/-- The start (src/Lib/par.go:48-60, 67-72): the goroutine of channel `i` sends the values `calls[i]`. -/
def start {T : Type u} (calls : List (List T)) (neutral : T) : St T := ⟨calls, neutral, calls.length⟩

/-- `GenericParallel` returns `r`. -/
def Returns {T : Type u} (rec : T → T → T) (calls : List (List T)) (neutral : T) (r : T) : Prop :=
  ∃ p, Steps rec (start calls neutral) ⟨p, r, 0⟩

/-! ### Specification: a fold over the answers in the order of the calls -/

/-- The answers combined from left to right. -/
def combine {T : Type u} (rec : T → T → T) (neutral : T) (answers : List T) : T := answers.foldl rec neutral

variable {T : Type u} {rec : T → T → T}

theorem foldl_mid (hc : ∀ r a b, rec (rec r a) b = rec (rec r b) a) (r v : T) (l m : List T) :
    (l ++ v :: m).foldl rec r = (l ++ m).foldl rec (rec r v) := by
  induction l generalizing r with
  | nil => rfl
  | cons a l ih => simp only [List.cons_append, List.foldl_cons]; rw [ih, hc]

/-- Every iteration keeps the result of combining everything that is left. -/
theorem step_inv (hc : ∀ r a b, rec (rec r a) b = rec (rec r b) a) {s s' : St T} (h : Step rec s s') :
    s'.pending.flatten.foldl rec s'.res = s.pending.flatten.foldl rec s.res := by
  cases h with
  | recv pre post v vs res n =>
    simp only [List.flatten_append, List.flatten_cons, List.cons_append]
    exact (foldl_mid hc res v _ _).symm

theorem steps_inv (hc : ∀ r a b, rec (rec r a) b = rec (rec r b) a) {s s' : St T} (h : Steps rec s s') :
    s'.pending.flatten.foldl rec s'.res = s.pending.flatten.foldl rec s.res := by
  induction h with
  | refl => rfl
  | step h _ ih => rw [ih, step_inv hc h]

/-- The receptions to come and the values to come are equally many. -/
theorem steps_count {s s' : St T} (h : Steps rec s s') (hs : s.pending.flatten.length = s.remaining) :
    s'.pending.flatten.length = s'.remaining := by
  induction h with
  | refl => exact hs
  | step h _ ih =>
    apply ih
    cases h
    simp only [List.flatten_append, List.flatten_cons, List.length_append, List.length_cons] at hs ⊢
    omega

theorem flatten_one (answers : List T) : (answers.map fun v => [v]).flatten = answers := by
  induction answers with
  | nil => rfl
  | cons a l ih => simp [ih]

/-- **C07.** Every goroutine answers once; `rec` may be applied in any order. Then whatever the order of arrival the
result is the combination of all answers, each counted once. -/
theorem C07_result_independent_of_schedule (hc : ∀ r a b, rec (rec r a) b = rec (rec r b) a) (answers : List T)
    (neutral r : T) (h : Returns rec (answers.map fun v => [v]) neutral r) : r = combine rec neutral answers := by
  obtain ⟨p, h⟩ := h
  have h1 := steps_inv hc h
  have h2 := steps_count h (by simp [start, flatten_one])
  have h3 : p.flatten = [] := List.eq_nil_of_length_eq_zero h2
  simpa [start, h3, flatten_one, combine] using h1

/-- The same for an associative and commutative operation. -/
theorem C07_result_assoc_comm (ha : ∀ a b c, rec (rec a b) c = rec a (rec b c)) (hcm : ∀ a b, rec a b = rec b a)
    (answers : List T) (neutral r : T) (h : Returns rec (answers.map fun v => [v]) neutral r) :
    r = combine rec neutral answers :=
  C07_result_independent_of_schedule (fun r a b => by rw [ha, ha, hcm a b]) answers neutral r h

/-- **C07, progress.** The loop never blocks: as long as receptions are to come some goroutine has a value. -/
theorem C07_no_deadlock (answers : List T) (neutral : T) (s : St T)
    (h : Steps rec (start (answers.map fun v => [v]) neutral) s) (hr : s.remaining ≠ 0) : ∃ s', Step rec s s' := by
  have h2 := steps_count h (by simp [start, flatten_one])
  obtain ⟨p, r, n⟩ := s
  simp only at h2 hr
  have : ∃ l ∈ p, l ≠ [] := by
    apply Classical.byContradiction
    intro hx
    have : p.flatten = [] := List.flatten_eq_nil_iff.2 fun l hl =>
      Classical.byContradiction fun hne => hx ⟨l, hl, hne⟩
    rw [this] at h2
    exact hr h2.symm
  obtain ⟨l, hl, hne⟩ := this
  obtain ⟨pre, post, rfl⟩ := List.append_of_mem hl
  cases l with
  | nil => exact absurd rfl hne
  | cons v vs =>
    cases n with
    | zero => exact absurd rfl hr
    | succ n => exact ⟨_, .recv pre post v vs r n⟩

/-- Every run can be completed, in any order: the answers in the order of the calls for example. -/
theorem C07_returns (answers : List T) (neutral : T) :
    Returns rec (answers.map fun v => [v]) neutral (combine rec neutral answers) := by
  suffices ∀ (pre : List (List T)) (res : T), ∃ p,
      Steps rec ⟨pre ++ answers.map (fun v => [v]), res, answers.length⟩ ⟨p, answers.foldl rec res, 0⟩ by
    simpa [Returns, start, combine] using this [] neutral
  induction answers with
  | nil => exact fun pre res => ⟨_, .refl _⟩
  | cons v l ih =>
    intro pre res
    obtain ⟨p, hp⟩ := ih (pre ++ [[]]) (rec res v)
    refine ⟨p, .step (.recv pre (l.map fun v => [v]) v [] res l.length) ?_⟩
    simpa using hp

/-- The use in the type checker (src/Typing/rules.go:288-292): conjunction, neutral `true`. The verdict is `true`
exactly if all goroutines answered `true`. -/
theorem C07_typing_verdict (answers : List Bool) (r : Bool)
    (h : Returns (fun x y => x && y) (answers.map fun v => [v]) true r) : r = true ↔ ∀ a ∈ answers, a = true := by
  rw [C07_result_assoc_comm (rec := fun x y => x && y) (by intro a b c; cases a <;> simp) (by intro a b; cases a <;> cases b <;> rfl)
    answers true r h]
  have : ∀ (l : List Bool) (b : Bool), l.foldl (fun x y => x && y) b = true ↔ b = true ∧ ∀ a ∈ l, a = true := by
    intro l
    induction l with
    | nil => simp
    | cons a l ih => intro b; simp [ih, and_assoc]
  simp [combine, this]

example : Returns (fun x y => x && y) ([true, false, true].map fun v => [v]) true false :=
  C07_returns (rec := fun x y => x && y) [true, false, true] true

/-- The condition that every goroutine sends once is needed: the channel of a goroutine that has answered stays
among the cases, so a second value is taken for the answer of another goroutine, which is then lost. Here
the calls send `true, true` and `false`; the combined result can be `true`. -/
theorem C07_second_answer_hides_first :
    Returns (fun x y => x && y) [[true, true], [false]] true true ∧
    Returns (fun x y => x && y) [[true, true], [false]] true false := by
  constructor
  · exact ⟨[[], [false]], .step (.recv [] [[false]] true [true] true 1) (.step (.recv [] [[false]] true [] true 0) (.refl _))⟩
  · exact ⟨[[true], []], .step (.recv [] [[false]] true [true] true 1) (.step (.recv [[true]] [] false [] true 0) (.refl _))⟩

/-- And an operation for which the order matters gives different results. -/
theorem C07_order_matters : Returns (fun x y : Nat => 2 * x + y) [[1], [3]] 0 5 ∧
    Returns (fun x y : Nat => 2 * x + y) [[1], [3]] 0 7 := by
  constructor
  · exact ⟨[[], []], .step (.recv [] [[3]] 1 [] 0 1) (.step (.recv [[]] [] 3 [] 1 0) (.refl _))⟩
  · exact ⟨[[], []], .step (.recv [[1]] [] 3 [] 0 1) (.step (.recv [] [[]] 1 [] 3 0) (.refl _))⟩

end Verif.Lib.Par
