import Verif.Search.Incremental
import Verif.Search.IncrSubs
import Verif.Unif.IndexGround
import Verif.AST.Metas
/-!
# C62, C64: the incremental search as a whole (`src/Search/incremental`)

Nodes are numbered in the order of their creation; the father of a node has a smaller number, the root is its own
father. The goroutines are tasks in an agenda; one execution of `doSearch` or `doKeepGoing` is one step, and the
scheduler takes any task of the agenda. The Go code interleaves these executions more finely; what is shown to go wrong
here needs no finer interleaving. `searchNodeCounter` is 0 exactly when the agenda is empty. The index of
the negated atoms is an oracle `U`; `Faithful` says that it answers as the model of the index does (`Verif.Unif.Search`),
in an order that may change from call to call. Predicates and functions have no type arguments here.
-/

namespace Verif.Search.Incr
open Verif.AST Verif.Search Verif.Unif

/-! ### Which rules are gamma rules for the Go type system -/

/-- A method: its name and the types of its parameters and results, as written in the code. -/
structure Sig where
  name : String
  params : List String
  results : List String
deriving DecidableEq

/-- `Rule` (src/Search/incremental/rules.go:27-34). -/
def ruleInterface : List Sig :=
  [⟨"apply", [], ["[]RuleList"]⟩, ⟨"GetForm", [], ["AST.Form"]⟩, ⟨"GetTerms", [], ["Lib.List[AST.Term]"]⟩,
   ⟨"ToFormula", [], ["Core.FormAndTerms"]⟩, ⟨"Equals", ["any"], ["bool"]⟩, ⟨"GetRuleStrings", [], ["string", "string"]⟩]

/-- `GammaRule` (src/Search/incremental/rules.go:376-381). -/
def gammaInterface : List Sig := ruleInterface ++
  [⟨"Copy", [], ["GammaRule"]⟩, ⟨"getGeneratedMetas", [], ["Lib.List[AST.Meta]"]⟩, ⟨"getVarList", [], ["[]AST.Var"]⟩]

/-- The methods of `*GammaForall` and `*GammaNotExists` (src/Search/incremental/rules.go:383-422, 424-461), with those promoted from
`AnyRule` (45-74). The other rules have the methods of `Rule` only. -/
def gammaMethods : List Sig := ruleInterface ++
  [⟨"Copy", [], ["GammaRule"]⟩, ⟨"getGeneratedMetas", [], ["Lib.List[AST.Meta]"]⟩, ⟨"getVarList", [], ["Lib.List[AST.TypedVar]"]⟩]

/-- The methods of the type `makeCorrectRule` gives a formula (src/Search/incremental/rules.go:76-148). -/
def methodsOf (f : Form) : List Sig := if showKind f = .gamma then gammaMethods else ruleInterface

/-- A type implements an interface if it has all its methods with these types (Go language). -/
def implements (methods interface : List Sig) : Bool := interface.all fun s => methods.contains s

/-- Whether the case `GammaRule` of a type switch or assertion is taken (src/Search/incremental/rulesManager.go:127-131, 240-244,
searchNode.go:146-149). -/
def isGammaRule (f : Form) : Bool := implements (methodsOf f) gammaInterface

/-! ### Managers -/

/-- `RulesManager` (src/Search/incremental/rulesManager.go:11-25) with `ReintroRuleList` (reintroList.go:9-12) as pairs. -/
structure Mgr where
  rm : RM
  reintro : List (Rule × Nat) := []
  metas : List Nat := []

/-- `AddReintro` (src/Search/incremental/reintroList.go:14-19). -/
def addReintro (l : List (Rule × Nat)) (r : Rule) : List (Rule × Nat) :=
  if l.any (fun p => decide (p.1 = r)) then l else l ++ [(r, 0)]

/-- The category `applyNonClosureRule` takes (src/Search/incremental/rulesManager.go:97-120). -/
def RM.next (rm : RM) : List Rule :=
  if rm.alpha ≠ [] then rm.alpha else if rm.delta ≠ [] then rm.delta else if rm.beta ≠ [] then rm.beta else rm.gamma

/-- What is known after a rule was applied: the rule, the managers of the branches and the own manager. -/
structure Applied where
  rule : Rule
  branches : List Mgr
  own : Mgr

/-- `tryToApply` (src/Search/incremental/rulesManager.go:229-252). `none`: no rule, or the crash of a quantifier without variables. -/
def Mgr.tryToApply (m sk : Nat) (g : Mgr) : List Rule → Option Applied
  | [] => none
  | r :: _ => (r.apply m sk r.form.metaElems).map fun bs =>
    let re := if isGammaRule r.form && !bs.isEmpty then addReintro g.reintro r else g.reintro
    ⟨r, bs.map fun b => ⟨(g.rm.remove r).insertAll b, re, g.metas ++ (if isGammaRule r.form then [m] else [])⟩,
      { g with reintro := re }⟩

/-- The first of the least amounts (src/Search/incremental/reintroList.go:34-44). -/
def least : List (Rule × Nat) → Option Nat
  | [] => none
  | p :: l => match least l with
    | none => some 0
    | some k => match l[k]? with
      | none => some 0
      | some q => if p.2 ≤ q.2 then some 0 else some (k + 1)

/-- `TryToApply` and `applyReintroductionRule` (src/Search/incremental/reintroList.go:33-57, rulesManager.go:122-134).
Outer `none`: crash; inner `none`: no success. -/
def Mgr.reintroduce (m sk : Nat) (g : Mgr) : Option (Option Applied) :=
  match least g.reintro with
  | none => some none
  | some k => match g.reintro[k]? with
    | none => some none
    | some (best, _) =>
      let c : Mgr := ⟨g.rm.insert best, g.reintro.modify k (fun p => (p.1, p.2 + 1)), g.metas⟩
      match c.tryToApply m sk c.rm.gamma with
      | none => none
      | some a => some (some { a with own :=
          { g with metas := g.metas ++ (if isGammaRule a.rule.form then [m] else []),
                   reintro := if isGammaRule a.rule.form then addReintro g.reintro a.rule else g.reintro } })

/-! ### Closure -/

mutual
/-- The machine term of a term (src/Unif/parsing.go:184-217 keeps metavariables and function terms). -/
def utOf : Term → UT
  | .var i => .fn i []
  | .mv i => .mv i
  | .fn p _ args => .fn p (utOfL args)
def utOfL : List Term → List UT
  | [] => []
  | t :: l => utOf t :: utOfL l
end

/-- The atoms of a list of literals (`getAtomicsWithoutTopOrBottom`, src/Search/incremental/rulesManager.go:209-227). -/
def atomsOf : List Rule → List Atom
  | [] => []
  | r :: l => match r.form with
    | .pred p _ args => ⟨p, utOfL args⟩ :: atomsOf l
    | .neg (.pred p _ args) => ⟨p, utOfL args⟩ :: atomsOf l
    | _ => atomsOf l

/-- The answers of the index built from the negated atoms to a positive atom; the first argument numbers the steps. `none`: the
search panics or does not end. -/
abbrev Oracle := Nat → List Atom → Atom → Option (List Subst)

/-- The oracle answers as the model of the index does (`MakeDataStruct`, `Unify`: src/Unif/code-trees.go:129-139, matching.go:71-82). -/
def Faithful (U : Oracle) : Prop := ∀ time neg pos l, U time neg pos = some l →
  ∃ n t out, [neg].foldlM (fun n l => Verif.Unif.Node.addAtoms n l) Verif.Unif.Node.empty = some t ∧
    Verif.Unif.Search (addUnif false n) n t { terms := [pos.term] } out ∧ l = out.map (·.2)

/-- `tryTrivialClosureRules` (src/Search/incremental/rulesManager.go:152-168). -/
def RM.trivial (rm : RM) : Bool := rm.atomic.any (fun r => decide (r.form = .bot)) || rm.atomicNot.any fun r => decide (r.form = .neg .top)

def isPred : Form → Bool
  | .pred _ _ _ => true
  | _ => false

/-- `tryComplementaryClosureRules` (src/Search/incremental/rulesManager.go:170-185). -/
def RM.complementary (rm : RM) : Bool :=
  rm.atomic.any fun p => isPred p.form && rm.atomicNot.any fun q => decide (q.form = .neg p.form)

/-- `trySubstitutionClosureRules` (src/Search/incremental/rulesManager.go:187-207). -/
def RM.substClosure (U : Oracle) (time : Nat) (rm : RM) : Option (List Sub) :=
  ((atomsOf rm.atomic).mapM fun p => U time (atomsOf rm.atomicNot) p).map fun ls => ls.flatten.map Sub.ofSubst

/-- `tryClosureRules` (src/Search/incremental/rulesManager.go:136-150). Outer `none`: crash; inner `none`: no closure. -/
def RM.closure (U : Oracle) (time : Nat) (rm : RM) : Option (Option (List Sub)) :=
  if rm.trivial || rm.complementary then some (some [Sub.theJoker])
  else (rm.substClosure U time).map fun l => if l = [] then none else some l

/-! ### The tree -/

/-- `SearchNode` (src/Search/incremental/searchNode.go:11-22) with its managers: `SimpleSubsManager`,
`BranchingSubsManager` (subsManager.go:43-50, 125-131) and `SimpleClosureManager` (closureManager.go:16-23). -/
structure Node where
  mgr : Mgr
  father : Nat
  childNb : Nat := 0
  children : List Nat := []
  branching : Bool := false
  slots : List (List Sub) := [[]]
  counter : Int := 0
  done : List Sub := []
  isClosed : Bool := false
  finished : Bool := false
  closing : List Sub := []

/-- A goroutine in `doSearch` or `doKeepGoing` (src/Search/incremental/searchNode.go:95-113). -/
inductive Task where
  | search (i : Nat)
  | keep (i : Nat)
deriving DecidableEq

/-- The state of the search; `impossible` is `treeImpossible` (src/Search/incremental/closureManager.go:14); `m` and `sk` are the next
metavariable and Skolem symbol. -/
structure St where
  nodes : List Node
  agenda : List Task
  m : Nat
  sk : Nat
  time : Nat := 0
  impossible : Bool := false

def St.upd (s : St) (i : Nat) (f : Node → Node) : St := { s with nodes := s.nodes.modify i f }

/-- `AppendIfNotContains` with several substitutions (src/Search/incremental/substitutionList.go:15-23). -/
def addSubs (l subs : List Sub) : List Sub := subs.foldl addSub l

/-- `getCompatibleSubs` (src/Search/incremental/subsManager.go:80-90, 168-173). -/
def Node.compat (n : Node) : List Sub := addMissing (compatibleSubs n.slots) n.mgr.metas

/-- `keepGoing` (src/Search/incremental/searchNode.go:187-196) with `tryingAgain` (subsManager.go:99-101, 175-182, closureManager.go:46-49). The first
argument bounds the depth of the tree. -/
def St.keepGoing : Nat → St → Nat → St
  | 0, s, _ => s
  | k + 1, s, i => match s.nodes[i]? with
    | none => s
    | some n =>
      if n.children ≠ [] then
        n.children.foldl (St.keepGoing k) (s.upd i fun n => { n with
          slots := List.replicate n.slots.length [], counter := if n.branching then n.children.length else n.counter,
          isClosed := false, finished := false })
      else { s with agenda := s.agenda ++ [.keep i] }

/-- `sendClosingSubsToFather` (src/Search/incremental/subsManager.go:70-78, 154-166); `up` is `AddClosingSubsForFather` at the node. -/
def St.sendWith (up : St → List Sub → St) (s : St) (i : Nat) : St :=
  match s.nodes[i]? with
  | none => s
  | some n =>
    if n.compat ≠ [] then (if n.father = i then s else up s n.compat)
    else if n.branching then
      n.children.foldl (St.keepGoing s.nodes.length) (s.upd i fun n => { n with counter := n.counter + n.children.length })
    else s

/-- `AddClosingSubsForFather` at node `i` (src/Search/incremental/subsManager.go:60-63) with `addClosingSubs` of the father's
manager (65-68, 145-152) and `decrement` (src/Glob/syncCounter.go:61-67). The first argument bounds the distance to the root. -/
def St.addFor : Nat → St → Nat → List Sub → St
  | 0, s, _, _ => s
  | k + 1, s, i, subs => match s.nodes[i]? with
    | none => s
    | some n =>
      let s := (s.upd i fun n => { n with done := addSubs n.done subs }).upd n.father fun f =>
        { f with slots := f.slots.modify n.childNb (addSubs · subs), counter := if f.branching then f.counter - 1 else f.counter }
      match s.nodes[n.father]? with
      | none => s
      | some f => if f.branching && decide (f.counter ≠ 0) then s
          else s.sendWith (fun s c => St.addFor k s n.father c) n.father

/-- `sendClosingSubsToFather` at node `i`. -/
def St.send (s : St) (i : Nat) : St := s.sendWith (fun s c => s.addFor (s.nodes.length + 1) i c) i

/-- `hasNewSubs` (src/Search/incremental/subsManager.go:111-123). -/
def hasNew (done subs : List Sub) : Bool := done.isEmpty || subs.any fun x => !containsSub done x

/-- `setNothingToDo` (src/Search/incremental/closureManager.go:38-44, 63-65). -/
def St.nothingToDo (s : St) (i : Nat) : St :=
  { s.upd i (fun n => { n with finished := true, isClosed := false }) with
    impossible := s.impossible || (match s.nodes[i]? with
      | some n => n.mgr.reintro.isEmpty
      | none => false) }

/-- `continueSearch` without closure (src/Search/incremental/searchNode.go:145-171) with `NewChildSearchNode` (72-79). -/
def St.expand (s : St) (i : Nat) (a : Applied) : St :=
  match s.nodes[i]? with
  | none => s
  | some n =>
    let fdone := (s.nodes[n.father]?.map (·.done)).getD []
    let n1 : Node := { n with mgr := a.own }
    let n2 : Node := if isGammaRule a.rule.form then { n1 with branching := false, slots := [[]], done := fdone }
      else if showKind a.rule.form = .beta then
        { n1 with branching := true, slots := List.replicate a.branches.length [], counter := a.branches.length, done := fdone }
      else n1
    let ids := (List.range a.branches.length).map (s.nodes.length + ·)
    let n3 : Node := { n2 with isClosed := false, closing := [], children := ids }
    { s with
      nodes := (s.nodes.set i n3) ++ a.branches.mapIdx fun k g => { mgr := g, father := i, childNb := k, done := n2.done }
      agenda := s.agenda ++ ids.map Task.search
      m := s.m + 1, sk := s.sk + 1 }

/-- `nonClosureSearch`, `processAppliedRule`, `tryReintroduction` (src/Search/incremental/searchNode.go:120-143). `none`: crash. -/
def St.nonClosure (s : St) (i : Nat) : Option St :=
  match s.nodes[i]? with
  | none => some s
  | some n =>
    if n.mgr.rm.next = [] then
      match n.mgr.reintroduce s.m s.sk with
      | none => none
      | some none => some (s.nothingToDo i)
      | some (some a) => some (s.expand i a)
    else match n.mgr.tryToApply s.m s.sk n.mgr.rm.next with
      | none => none
      | some a => if a.branches = [] then some ((s.upd i fun n => { n with mgr := a.own }).nothingToDo i) else some (s.expand i a)

/-- `search` (src/Search/incremental/searchNode.go:115-118) with `applyCorrectRule` (rulesManager.go:84-95), and `continueSearch` with closure
(searchNode.go:155-160, closureManager.go:30-36). -/
def St.searchNode (U : Oracle) (s : St) (i : Nat) : Option St :=
  match s.nodes[i]? with
  | none => some s
  | some n => match n.mgr.rm.closure U s.time with
    | none => none
    | some none => s.nonClosure i
    | some (some subs) =>
      let s' := s.upd i fun n => { n with isClosed := true, closing := subs }
      if hasNew n.done subs then some (s'.addFor (s.nodes.length + 1) i subs) else s'.nonClosure i

/-- `shouldKeepGoing` looks at the first closing substitution (src/Search/incremental/closureManager.go:55-61). -/
def Node.jokerClosed (n : Node) : Bool := match n.closing with
  | s :: _ => s.joker
  | [] => false

/-- `doSearch`, `doKeepGoing` (src/Search/incremental/searchNode.go:95-113, closureManager.go:51-61). -/
def St.doTask (U : Oracle) (s : St) : Task → Option St
  | .search i => match s.nodes[i]? with
    | none => some s
    | some n => if !n.isClosed && !n.finished && !s.impossible then s.searchNode U i else some (s.send i)
  | .keep i => match s.nodes[i]? with
    | none => some s
    | some n => if (!n.jokerClosed || !n.isClosed) && !s.impossible then s.nonClosure i else some (s.send i)

/-- One step: the `j`-th task of the agenda. -/
def St.step (U : Oracle) (s : St) (j : Nat) : Option St :=
  match s.agenda[j]? with
  | none => none
  | some t => ({ s with agenda := s.agenda.eraseIdx j, time := s.time + 1 } : St).doTask U t

/-- A run for a schedule. -/
def St.run (U : Oracle) : List Nat → St → Option St
  | [], s => some s
  | j :: js, s => match s.step U j with
    | none => none
    | some s' => s'.run U js

/-- `isTreeClosed` (src/Search/incremental/closureManager.go:71-82). The first argument bounds the depth. -/
def St.treeClosed (s : St) : Nat → Nat → Bool
  | 0, _ => false
  | k + 1, i => match s.nodes[i]? with
    | none => false
    | some n => if n.children ≠ [] then n.children.all (s.treeClosed k) else n.isClosed

/-- `newRootSearchNode`, `Search` (src/Search/incremental/searchNode.go:43-52, search.go:24-30). `m` and `sk` are numbers not in use. -/
def St.init (f : Form) (m sk : Nat) : St :=
  { nodes := [{ mgr := { rm := RM.root f }, father := 0 }], agenda := [.search 0], m := m, sk := sk }

/-- `getResult` (src/Search/incremental/searchNode.go:194-212) waits until no task is left. -/
def Verdict (U : Oracle) (f : Form) (m sk : Nat) (b : Bool) : Prop :=
  ∃ sched s, (St.init f m sk).run U sched = some s ∧ s.agenda = [] ∧ s.treeClosed (s.nodes.length + 1) 0 = b

/-! ### An executable oracle -/

/-- The index searched with its children in order, calls of the unification bounded. -/
def realU (n : Nat) : Oracle := fun _ neg pos =>
  (([neg].foldlM (fun n l => Verif.Unif.Node.addAtoms n l) Verif.Unif.Node.empty).bind fun t =>
    Verif.Unif.Sample.seq (addUnif false n) n n t { terms := [pos.term] }).map fun out => out.map (·.2)

theorem realU_faithful (n : Nat) : Faithful (realU n) := by
  intro time neg pos l h
  unfold realU at h
  rw [Option.map_eq_some_iff] at h
  obtain ⟨out, h, rfl⟩ := h
  rw [Option.bind_eq_some_iff] at h
  obtain ⟨t, h1, h2⟩ := h
  exact ⟨n, t, out, h1, Verif.Unif.Sample.seq_search h2, rfl⟩

end Verif.Search.Incr
