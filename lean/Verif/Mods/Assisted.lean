import Verif.Search.Main
/-!
# C91: the assisted mode (`src/Mods/assisted`, option `-assisted`)

The user is to be asked for a state of the search, a rule and a formula, and the rule is to be applied. The states and the rules are those
of `Verif.Search.Main`; the search itself is the same up to `applyRules`, which is replaced (src/options.go:323-330).

Simplifications. What is typed is taken to be valid (`selectStatus`, `selectRule`, `selectFormula`, `selectSubstitution` and `selectReintro`,
src/Mods/assisted/assistant.go:167-184, 277-416, ask until it is). Rewriting and equality are off; the first step of the search has one formula
only, so that equality reasoning has nothing to close there. Proofs are left out.
-/

namespace Verif.Assisted
open Verif.AST Verif.Search Verif.Search.Main Verif.Unif

/-! ### The counter -/

/-- `SyncCounter` (src/Glob/syncCounter.go:39-45): the value, and the function to call when it gets to 0, if there is one. -/
structure Counter (α : Type) where
  value : Int
  whenFinished : Option α

/-- `NewEmptySyncCounter` (src/Glob/syncCounter.go:47-49). -/
def Counter.empty {α : Type} : Counter α := ⟨0, none⟩

/-- `Increment` (src/Glob/syncCounter.go:57-59, 69-71). -/
def Counter.inc {α : Type} (c : Counter α) : Counter α := { c with value := c.value + 1 }

/-- `Decrement` (src/Glob/syncCounter.go:61-67, 73-75): the counter and the function called, if any; `none`: a nil function is called. -/
def Counter.dec {α : Type} (c : Counter α) : Option (Counter α × Option α) :=
  if c.value - 1 = 0 then c.whenFinished.map fun f => ({ c with value := c.value - 1 }, some f)
  else some ({ c with value := c.value - 1 }, none)

/-! ### Rules -/

/-- The rules the user may choose, but for closure. -/
inductive Rule where
  | alpha
  | beta
  | delta
  | gamma
  | reintro
deriving DecidableEq

/-- The formulas shown for a rule (`getFormulaeFromRule`, `selectReintro`, src/Mods/assisted/assistant.go:310-331, 394-416). -/
def shown (d : Data) : Rule → List FT
  | .alpha => d.alpha
  | .beta => d.beta
  | .delta => d.delta
  | .gamma => d.gamma
  | .reintro => d.metaGen.map (·.1)

/-- `applyAlphaRule`, `applyBetaRule`, `applyDeltaRule`, `applyGammaRule` and `applyReintroductionRule` (src/Mods/assisted/rules.go:125-268) for the
formula numbered `i`. `none`: the program stops. -/
def apply (e : Env) (w : Now) (d : Data) (i : Nat) : Rule → Option Out
  | .alpha => (d.alpha[i]?).map fun h => .again { d with alpha := d.alpha.eraseIdx i, lf := (applyAlpha h.form).map fun f => ⟨f, h.terms⟩ }
  | .beta => (d.beta[0]?).map fun h => .split d ((applyBeta h.form).map fun fs =>
      { d.copy with beta := d.beta.tail, lf := fs.map fun f => ⟨f, h.terms⟩ })
  | .delta => (d.delta[i]?).bind fun h => (skolemize w.sk (e.sko (uni d.mm d.mc) h.form) h.form).map fun f =>
      .again { d with delta := d.delta.eraseIdx i, lf := [⟨f, (uni d.mm d.mc).map .mv⟩] }
  | .gamma => (d.gamma[i]?).bind fun h =>
      let (k, gen) := genIndex h d.metaGen
      let new := if firstIsTerm h.form then [w.m] else []
      (instantiate w.m k h.form).map fun f =>
        .again { d with gamma := d.gamma.eraseIdx i, metaGen := gen, lf := [⟨f, h.terms ++ new.map .mv⟩], mc := uni d.mc new, n := d.n - 1 }
  | .reintro => match Reintro.reintroduce (d.metaGen.map (·.2)) (some i) d.n.toNat with
      | some (j, cs) => (d.metaGen[j]?).map fun g => .again { d with lf := [g.1], metaGen := (d.metaGen.map (·.1)).zip cs }
      | none => none

/-- `applyAtomicRule` (src/Mods/assisted/rules.go:73-123): whether a literal closes the branch, and the substitutions among which the user chooses
if the closure needs the metavariables of other branches; `none`: the program stops. -/
def closing (e : Env) (time : Nat) (d : Data) : List FT → Option (Bool × Bool × List Subst)
  | [] => some (false, true, [])
  | f :: l => match closure e time (posAtoms d.atomic) (negAtoms d.atomic) f.form, closing e time d l with
    | some none, r => r
    | some (some substs), some (_, fin, l) => match close e d substs with
      | some (.answer _ need d') => some (true, need && fin, if need then d'.found ++ l else l)
      | _ => none
    | _, _ => none

/-- The substitutions `selectSubstitution` shows (src/Mods/assisted/assistant.go:360-372). -/
def offered (l : List Subst) : List Subst := l.foldl Clean.addNew []

/-- The one that is applied when the user types `c` (src/Mods/assisted/rules.go:112-115). -/
def taken (l : List Subst) (c : Nat) : Option Subst := l[c]?

/-! ### The goroutines -/

/-- A goroutine of the search: in `ProofSearch`, or in `ApplyRulesAssisted` before the state is offered to the user. -/
inductive Work where
  | search (d : Data)
  | rules (d : Data)

/-- All goroutines. `awake` is what was sent last through `nextStep` and is not yet answered: the assistant waits for it (src/Mods/assisted/assistant.go:114-123). -/
structure Sys where
  counter : Counter Unit
  work : List Work
  status : List Data
  awake : Option Bool
  asked : Nat
  printed : Option Bool

/-- `startSearch` (src/main.go:107-126), `InitAssisted` (src/Mods/assisted/assistant.go:97-105) and the first `ProofSearch`
(src/Search/destructive.go:98-134). -/
def begin (limit : Nat) (f : Form) : Sys :=
  ⟨Counter.empty.inc, [.search { n := limit, lf := [⟨f, []⟩] }], [], none, 0, none⟩

/-- `ProofSearch` up to the rules (src/Search/destructive.go:264-403), where closure by other literals is not looked for (210, 236). `none`: a literal closes
the branch obviously; then nothing is sent to anyone (1104-1106). -/
def prepare (d : Data) : Option Data :=
  let (d1, new, obv) := dispatchLF d.lf d []
  if obv then none else some (new.foldl Data.dispatch d1)

/-- A step of one of the goroutines; `none`: the program crashes. -/
inductive Step (e : Env) : Sys → Option Sys → Prop
  /-- `ProofSearch` goes on to the rules. -/
  | search {s l d r d'} : s.work = l ++ .search d :: r → prepare d = some d' → Step e s (some { s with work := l ++ .rules d' :: r })
  /-- `ProofSearch` ends. -/
  | closed {s l d r} : s.work = l ++ .search d :: r → prepare d = none → Step e s (some { s with work := l ++ r })
  /-- The beginning of `ApplyRulesAssisted` (src/Mods/assisted/rules.go:45-52): the state is offered. -/
  | offer {s l d r c o} : s.work = l ++ .rules d :: r → s.counter.dec = some (c, o) →
      Step e s (some { s with work := l ++ r, status := s.status ++ [d], counter := c })
  | crash {s l d r} : s.work = l ++ .rules d :: r → s.counter.dec = none → Step e s none
  /-- The user is asked (src/Mods/assisted/assistant.go:125-165) and chooses a rule that gives one new state; the counter goes up, after
  gamma down (src/Mods/assisted/rules.go:141, 205, 237, 266). -/
  | again {s l d r w i rule d' c} : s.awake = some true → s.status = l ++ d :: r → apply e w d i rule = some (.again d') →
      (if rule = .gamma then s.counter.dec = some (c, none) else c = s.counter.inc) →
      Step e s (some { s with status := l ++ r, work := s.work ++ [Work.search d'], awake := none, asked := s.asked + 1, counter := c })
  /-- The same for several new states. -/
  | split {s l d r w i rule d' kids} : s.awake = some true → s.status = l ++ d :: r → apply e w d i rule = some (.split d' kids) →
      Step e s (some { s with status := l ++ r, work := s.work ++ kids.map Work.search, awake := none, asked := s.asked + 1, counter := ⟨s.counter.value + kids.length, s.counter.whenFinished⟩ })
  /-- The user chooses closure, and no literal closes the branch (src/Mods/assisted/rules.go:98-105). -/
  | stay {s l d r time fin ss} : s.awake = some true → s.status = l ++ d :: r → closing e time d d.atomic = some (false, fin, ss) →
      Step e s (some { s with status := l ++ r, work := s.work ++ [Work.search d], awake := none, asked := s.asked + 1, counter := s.counter.inc })
  /-- The branch closes; the substitution chosen is applied to the states that wait
  (merging with those chosen before, assistant.go:107-112, is left out; src/Mods/assisted/rules.go:106-122). -/
  | close {s l d r time fin ss st} : s.awake = some true → s.status = l ++ d :: r → closing e time d d.atomic = some (true, fin, ss) →
      (∃ c sub, ss ≠ [] ∧ fin = true ∧ taken ss c = some sub ∧ st.length = (l ++ r).length ∧
          ∀ (k : Nat) (d1 d2 : Data), (l ++ r)[k]? = some d1 → st[k]? = some d2 → d1.apply e.fuel sub = some d2) ∨ (¬ (ss ≠ [] ∧ fin = true) ∧ st = l ++ r) →
      Step e s (some { s with status := st, awake := some (!(l ++ r).isEmpty), asked := s.asked + 1 })
  /-- The assistant has finished (src/Mods/assisted/assistant.go:121-122, src/main.go:120). -/
  | finish {s} : s.awake = some false → s.printed = none → Step e s (some { s with awake := none, printed := some true })

/-- Any number of steps. -/
inductive Steps (e : Env) : Sys → Sys → Prop
  | refl (s) : Steps e s s
  | tail {s t u} : Steps e s t → Step e t (some u) → Steps e s u

end Verif.Assisted
