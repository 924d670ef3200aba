import Verif.AST.Syntax
/-!
# Symbol makers (`src/AST/maker.go`) and C12

The package-level counter `cpt_term` and tables are the record `Maker`. Every maker first reads a
table under the lock, releases the lock, and then, if the name was missing, takes the lock again
to create the symbol (src/AST/maker.go:90-145): these are two separate atomic steps.
-/

namespace Verif.AST

/-- Global state of src/AST/maker.go:47-52. -/
structure Maker where
  cpt : Nat
  ids : String → Option Nat
  vars : String → Option Nat
  occ : String → Option Nat

/-- State after `Reset` (src/AST/maker.go:76). -/
def Maker.reset : Maker := ⟨0, fun _ => none, fun _ => none, fun _ => none⟩

def setKey (t : String → Option Nat) (s : String) (i : Nat) : String → Option Nat :=
  fun x => if x = s then some i else t x

/-- `MakerNewId` (src/AST/maker.go:101). -/
def Maker.newId (m : Maker) (s : String) : Nat × Maker :=
  (m.cpt, { m with ids := setKey m.ids s m.cpt, cpt := m.cpt + 1 })

/-- `MakerId` run without interference (src/AST/maker.go:90). -/
def Maker.id (m : Maker) (s : String) : Nat × Maker :=
  match m.ids s with
  | some i => (i, m)
  | none => m.newId s

/-- `MakerNewVar` (src/AST/maker.go:122). -/
def Maker.newVar (m : Maker) (s : String) : Nat × Maker :=
  (m.cpt, { m with vars := setKey m.vars s m.cpt, cpt := m.cpt + 1 })

/-- `MakerVar` (src/AST/maker.go:111); `MakerTypedVar` (typed-vars.go:93) and `MakerTyBV`
(ty-syntax.go:322) follow the same steps on the same table. -/
def Maker.var (m : Maker) (s : String) : Nat × Maker :=
  match m.vars s with
  | some i => (i, m)
  | none => m.newVar s

/-- Second half of `MakerMeta` (src/AST/maker.go:136-149), given the value `i` read in the first. -/
def Maker.metaStep (m : Maker) (s : String) (i : Option Nat) : Nat × Maker :=
  (m.cpt, { m with occ := setKey m.occ s (match i with | some i => i + 1 | none => 1), cpt := m.cpt + 1 })

/-- `MakerMeta` run without interference (src/AST/maker.go:132). -/
def Maker.mkMeta (m : Maker) (s : String) : Nat × Maker := m.metaStep s (m.occ s)

/-! ### Interleaved execution -/

inductive Call where
  | id (s : String)
  | newId (s : String)
  | var (s : String)
  | newVar (s : String)
  | mv (s : String)
deriving DecidableEq

/-- A goroutine: calls still to be made; `pend` is the value read by the first atomic step of the
first call of the list, if this step has been done. -/
structure Thread where
  todo : List Call
  pend : Option (Option Nat)

/-- A completed call: the call, the identity returned and whether the call created it. -/
structure Event where
  call : Call
  index : Nat
  created : Bool
deriving DecidableEq

/-- One atomic step (one critical section of `lock_term`) of a goroutine. -/
def Thread.step (t : Thread) (m : Maker) : Thread × Maker × List Event :=
  match t.todo with
  | [] => (t, m, [])
  | .newId s :: r => (⟨r, none⟩, (m.newId s).2, [⟨.newId s, (m.newId s).1, true⟩])
  | .newVar s :: r => (⟨r, none⟩, (m.newVar s).2, [⟨.newVar s, (m.newVar s).1, true⟩])
  | .id s :: r =>
    match t.pend with
    | none =>
      match m.ids s with
      | some i => (⟨r, none⟩, m, [⟨.id s, i, false⟩])
      | none => (⟨t.todo, some none⟩, m, [])
    | some _ => (⟨r, none⟩, (m.newId s).2, [⟨.id s, (m.newId s).1, true⟩])
  | .var s :: r =>
    match t.pend with
    | none =>
      match m.vars s with
      | some i => (⟨r, none⟩, m, [⟨.var s, i, false⟩])
      | none => (⟨t.todo, some none⟩, m, [])
    | some _ => (⟨r, none⟩, (m.newVar s).2, [⟨.var s, (m.newVar s).1, true⟩])
  | .mv s :: r =>
    match t.pend with
    | none => (⟨t.todo, some (m.occ s)⟩, m, [])
    | some i => (⟨r, none⟩, (m.metaStep s i).2, [⟨.mv s, (m.metaStep s i).1, true⟩])

/-- Runs the goroutines `ts`; each element of the schedule gives the goroutine that performs the
next atomic step. Returns the completed calls in order. -/
def runSched : List Nat → List Thread → Maker → List Event
  | [], _, _ => []
  | k :: ks, ts, m =>
    match ts[k]? with
    | none => runSched ks ts m
    | some t =>
      let r := t.step m
      r.2.2 ++ runSched ks (ts.set k r.1) r.2.1

/-! ### C12 -/

theorem Thread.step_cpt (t : Thread) (m : Maker) :
    m.cpt ≤ (t.step m).2.1.cpt ∧
    ∀ e ∈ (t.step m).2.2, e.created = true → m.cpt ≤ e.index ∧ e.index < (t.step m).2.1.cpt := by
  unfold Thread.step
  split
  · simp
  · simp [Maker.newId]
  · simp [Maker.newVar]
  · split
    · split <;> simp
    · simp [Maker.newId]
  · split
    · split <;> simp
    · simp [Maker.newVar]
  · split
    · simp
    · simp [Maker.metaStep]

theorem Thread.step_events_length (t : Thread) (m : Maker) : (t.step m).2.2.length ≤ 1 := by
  unfold Thread.step
  split
  · simp
  · simp
  · simp
  · split
    · split <;> simp
    · simp
  · split
    · split <;> simp
    · simp
  · split <;> simp

theorem runSched_created_ge (ks : List Nat) (ts : List Thread) (m : Maker) :
    ∀ e ∈ runSched ks ts m, e.created = true → m.cpt ≤ e.index := by
  induction ks generalizing ts m with
  | nil => simp [runSched]
  | cons k ks ih =>
    simp only [runSched]
    cases h : ts[k]? with
    | none => simpa using ih ts m
    | some t =>
      simp only [List.mem_append]
      rintro e (he | he) hc
      · exact ((t.step_cpt m).2 e he hc).1
      · exact Nat.le_trans (t.step_cpt m).1 (ih _ _ e he hc)

/-- **C12 (freshness).** In every interleaving of any number of goroutines, any two completed calls
that created a symbol (of any kind: function or predicate, variable, metavariable) created symbols
with different identities, and never reused an identity below the initial counter. -/
theorem C12_fresh_distinct (ts : List Thread) (m : Maker) (ks : List Nat) :
    ((runSched ks ts m).filter Event.created).Pairwise (fun e e' => e.index < e'.index) ∧
    ∀ e ∈ runSched ks ts m, e.created = true → m.cpt ≤ e.index := by
  refine ⟨?_, runSched_created_ge ks ts m⟩
  induction ks generalizing ts m with
  | nil => simp [runSched]
  | cons k ks ih =>
    simp only [runSched]
    cases h : ts[k]? with
    | none => simpa using ih ts m
    | some t =>
      simp only [List.filter_append, List.pairwise_append]
      refine ⟨?_, ih _ _, ?_⟩
      · have := t.step_events_length m
        match hh : (t.step m).2.2, this with
        | [], _ => simp
        | [a], _ => by_cases hc : a.created = true <;> simp [List.filter, hc]
      · intro e he e' he'
        simp only [List.mem_filter] at he he'
        have h1 := ((t.step_cpt m).2 e he.1 he.2).2
        have h2 := runSched_created_ge _ _ _ e' he'.1 he'.2
        exact Nat.lt_of_lt_of_le h1 h2

/-- Full statement of the second half of C12: as long as nobody asks for a *new* symbol of that
name, all answers to a request for the symbol named `s` are the same. -/
def C12_named_statement : Prop :=
  ∀ (ts : List Thread) (m : Maker) (ks : List Nat) (s : String),
    (∀ t ∈ ts, t.pend = none) →
    (∀ e ∈ runSched ks ts m, e.call ≠ .newId s) →
    ∀ e ∈ runSched ks ts m, ∀ e' ∈ runSched ks ts m, e.call = .id s → e'.call = .id s →
      e.index = e'.index

/-- **C12 is false of the code under concurrency**: two goroutines that ask for the symbol `a` at
the same time both find it missing and both create it (src/AST/maker.go:90-99). -/
theorem C12_named_race :
    runSched [0, 1, 0, 1] [⟨[.id "a"], none⟩, ⟨[.id "a"], none⟩] Maker.reset =
      [⟨.id "a", 0, true⟩, ⟨.id "a", 1, true⟩] := by decide

theorem C12_named_statement_false : ¬ C12_named_statement := by
  intro h
  have := h [⟨[.id "a"], none⟩, ⟨[.id "a"], none⟩] Maker.reset [0, 1, 0, 1] "a"
    (by simp) (by decide) ⟨.id "a", 0, true⟩ (by decide) ⟨.id "a", 1, true⟩ (by decide) rfl rfl
  revert this; decide

/-- Same race on variables (`MakerVar`, `MakerTypedVar`). -/
theorem C12_named_race_var :
    runSched [0, 1, 0, 1] [⟨[.var "X"], none⟩, ⟨[.var "X"], none⟩] Maker.reset =
      [⟨.var "X", 0, true⟩, ⟨.var "X", 1, true⟩] := by decide

/-- No goroutine is going to create, or is in the middle of creating, the symbol `s`. -/
def NoCreation (s : String) (t : Thread) : Prop :=
  (∀ c ∈ t.todo, c ≠ .newId s) ∧ (t.todo.head? = some (.id s) → t.pend = none)

theorem step_registered {s : String} {i : Nat} {t : Thread} {m : Maker} (hm : m.ids s = some i)
    (ht : NoCreation s t) :
    (t.step m).2.1.ids s = some i ∧ NoCreation s (t.step m).1 ∧
    ∀ e ∈ (t.step m).2.2, e.call = .id s → e.index = i := by
  obtain ⟨todo, pend⟩ := t
  obtain ⟨h1, h2⟩ := ht
  cases todo with
  | nil => simp [Thread.step, hm, NoCreation]
  | cons c r =>
    have hr : ∀ c ∈ r, c ≠ .newId s := fun c hc => h1 c (by simp [hc])
    cases c with
    | newId s' =>
      have hne : s ≠ s' := by rintro rfl; exact h1 _ (by simp) rfl
      simp [Thread.step, Maker.newId, setKey, hne, hm, NoCreation]; exact hr
    | newVar s' => simp [Thread.step, Maker.newVar, hm, NoCreation]; exact hr
    | id s' =>
      by_cases hs : s' = s
      · subst hs
        have hp : pend = none := h2 rfl
        subst hp
        simp only [Thread.step, hm, NoCreation]
        exact ⟨trivial, ⟨hr, by simp⟩, by simp⟩
      · cases pend with
        | none =>
          cases hh : m.ids s' with
          | some j => simp [Thread.step, hh, hm, NoCreation, hs]; exact hr
          | none => simp [Thread.step, hh, hm, NoCreation, hs]; exact hr
        | some p =>
          simp [Thread.step, Maker.newId, setKey, Ne.symm hs, hm, NoCreation, hs]; exact hr
    | var s' =>
      cases pend with
      | none =>
        cases hh : m.vars s' with
        | some j => simp [Thread.step, hh, hm, NoCreation]; exact hr
        | none => simp [Thread.step, hh, hm, NoCreation]; exact hr
      | some p => simp [Thread.step, Maker.newVar, hm, NoCreation]; exact hr
    | mv s' =>
      cases pend with
      | none => simp [Thread.step, hm, NoCreation]; exact hr
      | some p => simp [Thread.step, Maker.metaStep, hm, NoCreation]; exact hr

/-- **C12 (names, partial).** If the symbol named `s` already exists, then in every interleaving
of goroutines none of which explicitly creates a new symbol of that name, all requests for `s`
return that symbol. Missing: concurrent *first* requests, for which the claim is false. -/
theorem C12_named_partial (ts : List Thread) (m : Maker) (ks : List Nat) (s : String) (i : Nat)
    (hm : m.ids s = some i) (ht : ∀ t ∈ ts, NoCreation s t) :
    ∀ e ∈ runSched ks ts m, e.call = .id s → e.index = i := by
  induction ks generalizing ts m with
  | nil => simp [runSched]
  | cons k ks ih =>
    simp only [runSched]
    cases h : ts[k]? with
    | none => exact ih ts m hm ht
    | some t =>
      have htm : t ∈ ts := List.mem_of_getElem? h
      obtain ⟨h1, h2, h3⟩ := step_registered hm (ht t htm)
      simp only [List.mem_append]
      rintro e (he | he) hc
      · exact h3 e he hc
      · refine ih _ _ h1 ?_ e he hc
        intro t' ht'
        rcases List.mem_or_eq_of_mem_set ht' with h | rfl
        · exact ht t' h
        · exact h2

/-- Two goroutines asking for a registered symbol while a third creates other symbols. -/
example : runSched [0, 1, 2, 0, 2, 1]
    [⟨[.id "a"], none⟩, ⟨[.id "a"], none⟩, ⟨[.mv "X", .newId "b"], none⟩] (Maker.reset.newId "a").2 =
    [⟨.id "a", 0, false⟩, ⟨.id "a", 0, false⟩, ⟨.mv "X", 1, true⟩] := by decide

/-- **C12 (names, one goroutine).** Without concurrency, asking for a named symbol and asking
again later, with any calls in between except explicit creations of a new symbol with that name,
gives the same symbol. -/
theorem C12_named_sequential (m : Maker) (s : String) (between : List Call) (ks : List Nat)
    (hb : ∀ c ∈ between, c ≠ .newId s) :
    ∀ e ∈ runSched ks [⟨between, none⟩] (m.id s).2, e.call = .id s → e.index = (m.id s).1 := by
  apply C12_named_partial
  · unfold Maker.id
    cases h : m.ids s with
    | some i => simpa using h
    | none => simp [Maker.newId, setKey]
  · intro t ht
    simp only [List.mem_singleton] at ht
    subst ht
    exact ⟨hb, fun _ => rfl⟩

end Verif.AST
