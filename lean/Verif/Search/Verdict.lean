/-!
# Rounds of the search and the verdict (`src/Search/destructive.go`, `src/Search/search.go`, `src/main.go`)

The outcome of a round is a parameter: `outcome k` is the result of the `k`-th call of `doOneStep`. The limits are
machine integers: `Int64` as on all 64-bit platforms.
-/

namespace Verif.Search.Verdict

/-- What the program prints: the lines of `PrintSearchResult` (src/Search/search.go:87-114). -/
inductive Status where
  | theorem | unsatisfiable | counterSatisfiable | satisfiable
deriving DecidableEq

structure Line where
  valid : Bool
  status : Status
deriving DecidableEq

/-- `PrintSearchResult` (src/Search/search.go:87-114). -/
def printResult (conj res : Bool) : Line :=
  if res then ⟨true, if conj then .theorem else .unsatisfiable⟩
  else ⟨false, if conj then .counterSatisfiable else .satisfiable⟩

/-- The options. -/
structure Opts where
  proof : Bool
  oneStep : Bool

/-- `doOneStep` (src/Search/destructive.go:98-154) as far as result, limit and verdict are concerned. -/
def oneStep (o : Opts) (conj : Bool) (result : Bool) (limit : Int64) : Bool × Int64 × List Line :=
  (result, 2 * limit, if result && o.proof then [printResult conj result] else [])

/-- The state of the loop of `Search` after a round. -/
structure St where
  round : Nat
  limit : Int64
  limits : List Int64
  printed : List Line
  finished : Option Bool

/-- One iteration of the loop of `Search` with its condition and the final print
(src/Search/destructive.go:82-96). -/
def iter (o : Opts) (conj : Bool) (bound : Int64) (outcome : Nat → Bool) (s : St) : St :=
  match s.finished with
  | some _ => s
  | none =>
    let r := oneStep o conj (outcome s.round) s.limit
    let s' := { s with round := s.round + 1, limit := r.2.1, limits := s.limits ++ [s.limit],
                       printed := s.printed ++ r.2.2 }
    if !r.1 && decide (0 < bound) && !o.oneStep then s'
    else { s' with finished := some r.1
                   printed := s'.printed ++ if !r.1 || !o.proof then [printResult conj r.1] else [] }

def start (bound : Int64) : St := ⟨0, bound, [], [], none⟩

def after (o : Opts) (conj : Bool) (bound : Int64) (outcome : Nat → Bool) : Nat → St
  | 0 => start bound
  | n + 1 => iter o conj bound outcome (after o conj bound outcome n)

/-- `Search` returns `res` having printed `printed`, and having used the given limits. -/
def Returns (o : Opts) (conj : Bool) (bound : Int64) (outcome : Nat → Bool) (res : Bool) (s : St) : Prop :=
  ∃ n, after o conj bound outcome n = s ∧ s.finished = some res

/-! ### Statements of the problem file -/

/-- The roles of statements (src/Core/statement.go). -/
inductive Role where
  | axiom | conjecture | negatedConjecture | type
deriving DecidableEq

/-- The flag set by `doConjectureStatement` (src/main.go:359-362), called for both roles
(src/main.go:283-299) in `StatementListToFormula`. -/
def conjectureFound (rs : List Role) : Bool := rs.any (fun r => decide (r = .conjecture ∨ r = .negatedConjecture))

/-! ### The invariant of the loop -/

theorem iter_finished {o : Opts} {conj : Bool} {bound : Int64} {outcome : Nat → Bool} {s : St} {b : Bool}
    (h : s.finished = some b) : iter o conj bound outcome s = s := by simp [iter, h]

/-- The `n`-th limit. -/
def limitAt (bound : Int64) : Nat → Int64
  | 0 => bound
  | n + 1 => 2 * limitAt bound n

structure Inv (o : Opts) (conj : Bool) (bound : Int64) (outcome : Nat → Bool) (s : St) : Prop where
  limits : s.limits = (List.range s.round).map (limitAt bound)
  limit : s.limit = limitAt bound s.round
  running : s.finished = none → s.printed = [] ∧ (∀ k < s.round, outcome k = false) ∧
    (s.round ≠ 0 → 0 < bound ∧ o.oneStep = false)
  done : ∀ b, s.finished = some b → ∃ n, s.round = n + 1 ∧ outcome n = b ∧ (∀ k < n, outcome k = false) ∧
    s.printed = [printResult conj b] ∧ (b = true ∨ ¬ 0 < bound ∨ o.oneStep = true) ∧
    (n ≠ 0 → 0 < bound ∧ o.oneStep = false)

theorem inv_start (o : Opts) (conj : Bool) (bound : Int64) (outcome : Nat → Bool) :
    Inv o conj bound outcome (start bound) :=
  ⟨rfl, rfl, fun _ => ⟨rfl, by simp [start], by simp [start]⟩, by simp [start]⟩

theorem inv_iter {o : Opts} {conj : Bool} {bound : Int64} {outcome : Nat → Bool} {s : St}
    (h : Inv o conj bound outcome s) : Inv o conj bound outcome (iter o conj bound outcome s) := by
  cases hf : s.finished with
  | some b => rw [iter_finished hf]; exact h
  | none =>
    obtain ⟨hp, ho, hb⟩ := h.running hf
    have hl : s.limits ++ [s.limit] = (List.range (s.round + 1)).map (limitAt bound) := by
      rw [List.range_succ, List.map_append, h.limits, h.limit]; rfl
    have hlim : 2 * s.limit = limitAt bound (s.round + 1) := by rw [h.limit]; rfl
    unfold iter
    simp only [hf, oneStep]
    cases hr : outcome s.round with
    | false =>
      simp only [Bool.false_and, Bool.false_eq_true, if_false, Bool.not_false, Bool.true_and, List.append_nil]
      split
      · rename_i hc
        simp only [Bool.and_eq_true, decide_eq_true_eq, Bool.not_eq_true'] at hc
        refine ⟨hl, hlim, fun _ => ⟨hp, ?_, fun _ => hc⟩, by simp [hf]⟩
        intro k hk
        rcases Nat.lt_succ_iff_lt_or_eq.1 hk with hk | rfl
        · exact ho k hk
        · exact hr
      · rename_i hc
        refine ⟨hl, hlim, by simp, ?_⟩
        intro b hb'
        simp only [Option.some.injEq] at hb'
        subst hb'
        refine ⟨s.round, rfl, hr, ho, by simp [hp], Or.inr ?_, hb⟩
        simp only [Bool.and_eq_true, decide_eq_true_eq, Bool.not_eq_true', not_and, Bool.not_eq_false] at hc
        by_cases h0 : 0 < bound
        · exact Or.inr (hc h0)
        · exact Or.inl h0
    | true =>
      simp only [Bool.not_true, Bool.false_and, Bool.false_eq_true, if_false, Bool.true_and, Bool.false_or]
      refine ⟨hl, hlim, by simp, ?_⟩
      intro b hb'
      simp only [Option.some.injEq] at hb'
      subst hb'
      refine ⟨s.round, rfl, hr, ho, ?_, Or.inl rfl, hb⟩
      cases o.proof <;> simp [hp]

theorem inv_after (o : Opts) (conj : Bool) (bound : Int64) (outcome : Nat → Bool) (n : Nat) :
    Inv o conj bound outcome (after o conj bound outcome n) := by
  induction n with
  | zero => exact inv_start o conj bound outcome
  | succ n ih => exact inv_iter ih

/-! ### C35 -/

/-- The verdict a problem deserves: the kind of the claim depends on whether the file states a conjecture to be
proved. -/
def deserved (hasConjecture closed : Bool) : Line :=
  match hasConjecture, closed with
  | true, true => ⟨true, .theorem⟩
  | true, false => ⟨false, .counterSatisfiable⟩
  | false, true => ⟨true, .unsatisfiable⟩
  | false, false => ⟨false, .satisfiable⟩

/-- C35 in full: when the search returns, exactly one verdict has been printed, the one that the result of the last
round and the presence of a conjecture demand. -/
def C35_statement : Prop :=
  ∀ (rs : List Role) (o : Opts) (bound : Int64) (outcome : Nat → Bool) (res : Bool) (s : St),
    Returns o (conjectureFound rs) bound outcome res s →
      s.printed = [deserved (decide (Role.conjecture ∈ rs)) res] ∧ ∃ n, s.round = n + 1 ∧ outcome n = res

theorem printResult_eq (conj res : Bool) : printResult conj res = deserved conj res := by
  cases conj <;> cases res <;> rfl

/-- **C35 for problems without `negated_conjecture`.** (Missing: problems with a `negated_conjecture`, where it is
false.) -/
theorem C35_verdict_partial (rs : List Role) (hrs : Role.negatedConjecture ∉ rs) (o : Opts) (bound : Int64)
    (outcome : Nat → Bool) (res : Bool) (s : St) (h : Returns o (conjectureFound rs) bound outcome res s) :
    s.printed = [deserved (decide (Role.conjecture ∈ rs)) res] ∧ ∃ n, s.round = n + 1 ∧ outcome n = res := by
  obtain ⟨n, rfl, hf⟩ := h
  obtain ⟨m, h1, h2, _, h3, _⟩ := (inv_after o (conjectureFound rs) bound outcome n).done res hf
  refine ⟨?_, m, h1, h2⟩
  rw [h3, printResult_eq]
  congr 2
  rw [Bool.eq_iff_iff]
  simp only [conjectureFound, List.any_eq_true, decide_eq_true_eq]
  constructor
  · rintro ⟨r, hr, rfl | rfl⟩
    · exact hr
    · exact absurd hr hrs
  · exact fun hr => ⟨_, hr, Or.inl rfl⟩

/-- **C35, the verdict line.** For all problems: when the search returns, exactly one verdict has been printed, and it
says VALID exactly if the last round found a closed tableau. -/
theorem C35_valid_iff_closed (conj : Bool) (o : Opts) (bound : Int64) (outcome : Nat → Bool) (res : Bool) (s : St)
    (h : Returns o conj bound outcome res s) :
    ∃ l n, s.printed = [l] ∧ s.round = n + 1 ∧ (l.valid = true ↔ outcome n = true) ∧
      (l.valid = true ↔ l.status = .theorem ∨ l.status = .unsatisfiable) := by
  obtain ⟨n, rfl, hf⟩ := h
  obtain ⟨m, h1, h2, _, h3, _⟩ := (inv_after o conj bound outcome n).done res hf
  refine ⟨_, m, h3, h1, ?_, ?_⟩
  · rw [h2]; cases conj <;> cases res <;> simp [printResult]
  · cases conj <;> cases res <;> simp [printResult]

/-- **C35 is violated** by a problem given by axioms and a `negated_conjecture` (as clausal problems are): the verdict
is Theorem, though the file states no conjecture and a closed tableau shows that the given formulas are
unsatisfiable. -/
theorem C35_violated : ∃ s, Returns ⟨false, false⟩ (conjectureFound [.axiom, .negatedConjecture]) 1 (fun _ => true) true s ∧
    s.printed = [⟨true, .theorem⟩] ∧ deserved (decide (Role.conjecture ∈ [Role.axiom, .negatedConjecture])) true =
      ⟨true, .unsatisfiable⟩ :=
  ⟨_, ⟨1, rfl, rfl⟩, rfl, rfl⟩

theorem C35_statement_false : ¬ C35_statement := by
  intro h
  obtain ⟨s, h1, h2, h3⟩ := C35_violated
  have := (h _ _ _ _ _ _ h1).1
  rw [h2, h3] at this
  exact absurd this (by decide)

example : ∃ s, Returns ⟨true, false⟩ (conjectureFound [.axiom, .conjecture]) 3 (fun k => decide (k = 2)) true s ∧
    s.printed = [⟨true, .theorem⟩] ∧ s.limits = [3, 6, 12] := ⟨_, ⟨3, rfl, rfl⟩, rfl, rfl⟩

/-! ### C48 -/

/-- C48 in full. -/
def C48_statement : Prop :=
  ∀ (o : Opts) (conj : Bool) (bound : Int64) (outcome : Nat → Bool) (n : Nat),
    let s := after o conj bound outcome n
    (∀ (k : Nat) (a b : Int64), s.limits[k]? = some a → s.limits[k + 1]? = some b → a < b) ∧
    (∀ res, s.finished = some res → ∃ m, s.round = m + 1 ∧ outcome m = res ∧ (∀ k < m, outcome k = false) ∧
      (res = true ∨ ¬ 0 < bound ∨ o.oneStep = true)) ∧
    (s.round ≠ 0 → s.finished = none → 0 < bound ∧ o.oneStep = false)

theorem limitAt_toInt (bound : Int64) (n : Nat) (h0 : 0 < bound) (h : bound.toInt * 2 ^ n < 2 ^ 63) :
    (limitAt bound n).toInt = bound.toInt * 2 ^ n := by
  have hb : 0 < bound.toInt := by simpa [Int64.lt_iff_toInt_lt] using h0
  induction n with
  | zero => simp [limitAt]
  | succ n ih =>
    have h' : bound.toInt * 2 ^ n * 2 < 2 ^ 63 := by rw [Int.mul_assoc, ← Int.pow_succ]; exact h
    have hp : 0 < bound.toInt * 2 ^ n := Int.mul_pos hb (Int.pow_pos (by decide))
    have ih := ih (by omega)
    simp only [limitAt]
    rw [Int64.toInt_mul, ih, Int.pow_succ]
    have e2 : (2 : Int64).toInt = 2 := rfl
    have e64 : ((2 ^ 64 : Nat) : Int) = 18446744073709551616 := by decide
    have e : bound.toInt * (2 ^ n * 2) = 2 * (bound.toInt * 2 ^ n) := by
      rw [← Int.mul_assoc, Int.mul_comm]
    rw [e, e2]
    generalize bound.toInt * 2 ^ n = x at h' hp
    rw [Int.bmod_def]
    have hm : 2 * x % ((2 ^ 64 : Nat) : Int) = 2 * x := Int.emod_eq_of_lt (by omega) (by rw [e64]; omega)
    rw [hm, if_pos (by rw [e64]; omega)]

/-- **C48 as long as the limit is representable.** The limits of the rounds are `bound`, `2 * bound`, `4 * bound`, …,
each strictly larger; the result is that of the last round and all earlier rounds failed; the search ends after a
failed round only in one-step mode or without a positive bound. (Missing: beyond the range of machine integers it is
false.) -/
theorem C48_deepening_partial (o : Opts) (conj : Bool) (bound : Int64) (outcome : Nat → Bool) (n : Nat)
    (hn : bound.toInt * 2 ^ n < 2 ^ 63) :
    let s := after o conj bound outcome n
    (∀ (k : Nat) (a b : Int64), s.limits[k]? = some a → s.limits[k + 1]? = some b → a < b ∧ b.toInt = 2 * a.toInt) ∧
    (∀ res, s.finished = some res → ∃ m, s.round = m + 1 ∧ outcome m = res ∧ (∀ k < m, outcome k = false) ∧
      (res = true ∨ ¬ 0 < bound ∨ o.oneStep = true)) ∧
    (s.round ≠ 0 → s.finished = none → 0 < bound ∧ o.oneStep = false) := by
  intro s
  have hinv := inv_after o conj bound outcome n
  have hround : ∀ n, (after o conj bound outcome n).round ≤ n := by
    intro n
    induction n with
    | zero => exact Nat.le_refl 0
    | succ n ih =>
      simp only [after]
      unfold iter
      split
      · omega
      · simp only
        split <;> simp <;> omega
  have hr := hround n
  refine ⟨?_, ?_, fun h0 hf => (hinv.running hf).2.2 h0⟩
  · intro k a b ha hb
    have e : s.limits = (List.range s.round).map (limitAt bound) := hinv.limits
    rw [e, List.getElem?_map] at ha hb
    simp only [Option.map_eq_some_iff] at ha hb
    obtain ⟨i, h1, rfl⟩ := ha
    obtain ⟨j, h2, rfl⟩ := hb
    have h1' := List.getElem?_eq_some_iff.1 h1
    have h2' := List.getElem?_eq_some_iff.1 h2
    obtain ⟨h1, e1⟩ := h1'
    obtain ⟨h2, e2⟩ := h2'
    simp only [List.length_range] at h1 h2
    simp only [List.getElem_range] at e1 e2
    subst e1 e2
    have hpos : 0 < bound ∧ o.oneStep = false := by
      cases hf : s.finished with
      | none => exact (hinv.running hf).2.2 (by show s.round ≠ 0; omega)
      | some b =>
        obtain ⟨m, hm, _, _, _, _, h⟩ := hinv.done b hf
        exact h (by
          have : s.round = m + 1 := hm
          omega)
    have hb : 0 < bound.toInt := by simpa [Int64.lt_iff_toInt_lt] using hpos.1
    have hle : ∀ k, k ≤ n → bound.toInt * 2 ^ k < 2 ^ 63 := by
      intro k hk
      refine Int.lt_of_le_of_lt (Int.mul_le_mul_of_nonneg_left ?_ (Int.le_of_lt hb)) hn
      exact_mod_cast Nat.pow_le_pow_right (by decide : 0 < 2) hk
    have e1 := limitAt_toInt bound k hpos.1 (hle k (by show k ≤ n; have : s.round ≤ n := hr; omega))
    have e2 := limitAt_toInt bound (k + 1) hpos.1 (hle (k + 1) (by have : s.round ≤ n := hr; omega))
    have hp : 0 < bound.toInt * 2 ^ k := Int.mul_pos hb (Int.pow_pos (by decide))
    rw [Int.pow_succ, ← Int.mul_assoc] at e2
    refine ⟨?_, by omega⟩
    rw [Int64.lt_iff_toInt_lt]
    omega
  · intro res hf
    obtain ⟨m, h1, h2, h3, _, h4, _⟩ := hinv.done res hf
    exact ⟨m, h1, h2, h3, h4⟩

/-- **C48, no end without a proof.** If no round finds a closed tableau, the search never returns (and nothing is ever
printed), unless in one-step mode or without a positive bound: even for a problem without quantifiers. -/
theorem C48_never_returns (o : Opts) (conj : Bool) (bound : Int64) (outcome : Nat → Bool)
    (h : ∀ k, outcome k = false) (h0 : 0 < bound) (h1 : o.oneStep = false) (n : Nat) :
    (after o conj bound outcome n).finished = none ∧ (after o conj bound outcome n).printed = [] ∧
    (after o conj bound outcome n).round = n := by
  induction n with
  | zero => exact ⟨rfl, rfl, rfl⟩
  | succ n ih =>
    obtain ⟨h2, h3, h4⟩ := ih
    simp only [after]
    unfold iter
    simp [h2, h3, h4, oneStep, h, h0, h1]

/-- **C48 is violated** in the sixty-fourth round: the limit is then smaller than before. -/
theorem C48_violated : ∃ (a b : Int64),
    (after ⟨false, false⟩ true 1 (fun _ => false) 64).limits[62]? = some a ∧
    (after ⟨false, false⟩ true 1 (fun _ => false) 64).limits[63]? = some b ∧ b < a := by
  refine ⟨limitAt 1 62, limitAt 1 63, ?_, ?_, by decide +kernel⟩
  all_goals
    have e := (inv_after ⟨false, false⟩ true 1 (fun _ => false) 64).limits
    have hr := (C48_never_returns ⟨false, false⟩ true 1 (fun _ => false) (fun _ => rfl) (by decide) rfl 64).2.2
    rw [e, hr]
    simp

theorem C48_statement_false : ¬ C48_statement := by
  intro h
  obtain ⟨a, b, ha, hb, hlt⟩ := C48_violated
  have := (h ⟨false, false⟩ true 1 (fun _ => false) 64).1 62 a b ha hb
  rw [Int64.lt_iff_toInt_lt] at this hlt
  omega

end Verif.Search.Verdict
