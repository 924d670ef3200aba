import Verif.Mods.Gs3Terms
/-!
# The GS3 proof (`src/Mods/gs3/proof.go`, `src/Mods/gs3/sequent.go`)

The translation of the proof found by the search (a list of steps whose last step may have children)
into a tree of sequents that the Rocq, Lambdapi and TPTP outputs follow. Sequents are Go pointers that
are shared and overwritten (`*parent = *seq`), so they live in a heap here: a list of sequents, an
address being a position.

Simplifications:
* deduction modulo theory is off: no `REWRITE` step, and the translation starts with an empty list of
  formulas;
* a step carries its rule, not the name of the rule (`proofStructRuleToGS3Rule`, sequent.go:259-280, is
  a bijection on the rules used here);
* `strings.Contains(name, "sko")` (proof.go:273) is a parameter of the model: a set of symbols;
* the slices of the Go structures are values: the only places where a slice is shortened in place are
  modelled with their effect (`removeFromDeltaHisto`), the other shared slices are replaced before they
  are read again.
-/

namespace Verif.Gs3
open Verif.AST

/-- Results: `panic` is a Go panic or `Glob.Anomaly` (which ends the program), `out` means that the
number of calls given to the model has been used up. -/
inductive R (α : Type) where
  | ok (a : α)
  | panic
  | out
deriving DecidableEq

def R.bind {α β : Type} : R α → (α → R β) → R β
  | .ok a, f => f a
  | .panic, _ => .panic
  | .out, _ => .out

/-- An `Option` whose `none` is a panic. -/
def R.ofOpt {α : Type} : Option α → R α
  | some a => .ok a
  | none => .panic

theorem R.bind_ok {α β : Type} {x : R α} {f : α → R β} {b : β} :
    x.bind f = .ok b ↔ ∃ a, x = .ok a ∧ f a = .ok b := by
  cases x <;> simp [R.bind]

/-- `Rule` (src/Mods/gs3/sequent.go:55-77); `NOT`, which is never used, and `REWRITE` are left out. -/
inductive Rule where
  | ax | w | imp | and | or | equ | ex | all | nnot | nimp | nand | nor | nequ | nex | nall | r
deriving DecidableEq, Repr

/-- `IsGammaRule` (src/Mods/gs3/sequent.go:86-88). -/
def Rule.isGamma : Rule → Bool
  | .all | .nex => true
  | _ => false

/-- `IsDeltaRule` (src/Mods/gs3/sequent.go:90-92). -/
def Rule.isDelta : Rule → Bool
  | .nall | .ex => true
  | _ => false

/-- `IsBetaRule` (src/Mods/gs3/sequent.go:94-96). -/
def Rule.isBeta : Rule → Bool
  | .nand | .nequ | .imp | .equ | .or => true
  | _ => false

/-- `IsAlphaRule` (src/Mods/gs3/sequent.go:98-100). -/
def Rule.isAlpha : Rule → Bool
  | .and | .nor | .nimp | .nnot => true
  | _ => false

/-- `ProofStruct` (src/Search/proof.go:55-63): formula, node, rule, result formulas, children. -/
inductive PS where
  | mk (form : Form) (node : Int) (rule : Rule) (results : List (List Form)) (children : List (List PS))

def PS.form : PS → Form
  | .mk f _ _ _ _ => f
def PS.node : PS → Int
  | .mk _ n _ _ _ => n
def PS.rule : PS → Rule
  | .mk _ _ r _ _ => r
def PS.results : PS → List (List Form)
  | .mk _ _ _ r _ => r
def PS.children : PS → List (List PS)
  | .mk _ _ _ _ c => c

/-- `GS3Proof` (src/Mods/gs3/proof.go:98-105). The term of a dependency or of an entry of the history of
delta rules may be nil. -/
structure GS where
  dep : List (Option Term × List Form) := []
  branch : List Form := []
  rules : List (Rule × PS) := []
  last : Option Nat := none
  beta : List (Nat × Int) := []
  delta : List (Option Term × Form × Int) := []

/-- `GS3Sequent` (src/Mods/gs3/sequent.go:43-53) and `MakeNewSequent` (79-84) as default values. -/
structure Seq where
  hyps : List Form := []
  rule : Rule := .ax
  appliedOn : Nat := 0
  term : Option Term := none
  forms : List (List Form) := []
  children : List Nat := []
  proof : GS := {}
  node : Int := 0

/-- The sequents allocated so far. -/
abbrev Heap := List Seq

/-- What the translation reads from the rest of the program: the symbols whose name contains "sko",
`Glob.IsPreInnerSko`, and the equality symbol of `AST.EmptyPredEq`. -/
structure Cfg where
  sko : Nat → Bool
  preInner : Bool
  eq : Nat

/-- `IsEmpty` (src/Mods/gs3/sequent.go:140-142). -/
def Seq.isEmpty (s : Seq) : Bool := s.hyps.isEmpty

/-- `dependencyMap.Copy` (src/Mods/gs3/proof.go:53-62). -/
def depCopy (d : List (Option Term × List Form)) : List (Option Term × List Form) :=
  d.filter fun p => p.1.isSome

/-- `dependencyMap.Get` (src/Mods/gs3/proof.go:64-71); comparing with a nil term answers false. -/
def depGet (d : List (Option Term × List Form)) (t : Option Term) : Option (List Form) :=
  match t with
  | none => none
  | some t => (d.find? fun p => p.1 = some t).map (·.2)

/-- The loop of `dependencyMap.Add` (src/Mods/gs3/proof.go:76-82). -/
def depAddLoop (t : Option Term) : List (Option Term × List Form) → List Form → Bool →
    List (Option Term × List Form) × List Form × Bool
  | [], fl, found => ([], fl, found)
  | (k, v) :: d, fl, found =>
    if k.isSome && t.isSome && k = t then
      let fl' := fl ++ v
      let r := depAddLoop t d fl' true
      ((t, fl') :: r.1, r.2)
    else
      let r := depAddLoop t d fl found
      ((k, v) :: r.1, r.2)

/-- `dependencyMap.Add` (src/Mods/gs3/proof.go:73-87). -/
def depAdd (d : List (Option Term × List Form)) (t : Option Term) (f : Form) :
    List (Option Term × List Form) :=
  let r := depAddLoop t d [f] false
  if r.2.2 then r.1 else r.1 ++ [(t, [f])]

/-- `GS3Proof.Copy` (src/Mods/gs3/proof.go:129-138). -/
def GS.copy (gs : GS) : GS := { gs with dep := depCopy gs.dep, last := none }

mutual
/-- `getDepFromTerm` (src/Mods/gs3/proof.go:271-287) for a term that is not nil. -/
def depTerms (cfg : Cfg) : Term → List Term
  | .fn p tys args => if cfg.sko p then [.fn p tys args] else depTermsL cfg args
  | t => [t]
def depTermsL (cfg : Cfg) : List Term → List Term
  | [] => []
  | a :: l => depTerms cfg a ++ depTermsL cfg l
end

/-- `getDepFromTerm` (src/Mods/gs3/proof.go:271-287). -/
def depFromTerm (cfg : Cfg) : Option Term → List (Option Term)
  | none => [none]
  | some t => (depTerms cfg t).map some

/-- `EmptyPredEq` (src/AST/maker.go:70). -/
def emptyEq (cfg : Cfg) : Form := .pred cfg.eq [] []

/-- `setHypotheses` (src/Mods/gs3/sequent.go:180-186) on a new sequent. -/
def withHyps (cfg : Cfg) (forms : List Form) : Seq := { hyps := forms ++ [emptyEq cfg] }

/-- `setAppliedOn` (src/Mods/gs3/sequent.go:192-209); the missing hypothesis is an `Anomaly`. -/
def setAppliedOn (s : Seq) (f : Form) : R Seq :=
  match s.hyps.findIdx? (fun g => f = g) with
  | some i => .ok { s with appliedOn := i }
  | none => .panic

/-- A new sequent in the heap. -/
def alloc (h : Heap) (s : Seq) : Nat × Heap := (h.length, h ++ [s])

/-- `addChild` (src/Mods/gs3/sequent.go:215-217). -/
def addChild (h : Heap) (a b : Nat) : Heap :=
  h.modify a fun s => { s with children := s.children ++ [b] }

/-- `*parent = *seq`. -/
def store (h : Heap) (a : Nat) (s : Seq) : Heap := h.set a s

def isEmptyAt (h : Heap) (a : Nat) : Bool :=
  match h[a]? with
  | some s => s.isEmpty
  | none => true

mutual
/-- `GetSubTerms` of a term (src/AST/termsDef.go:238,284,351), with repetitions. -/
def subTermsT : Term → List Term
  | .fn p tys args => .fn p tys args :: subTermsTL args
  | t => [t]
def subTermsTL : List Term → List Term
  | [] => []
  | a :: l => subTermsT a ++ subTermsTL l
end

mutual
/-- `GetSubTerms` of a formula (src/AST/formsDef.go:231,352,508,623,686,947,1020,1048 and
quantifiers.go:109), with repetitions. -/
def subTerms : Form → List Term
  | .pred _ _ args => subTermsTL args
  | .top => []
  | .bot => []
  | .neg f => subTerms f
  | .and fs => subTermsL fs
  | .or fs => subTermsL fs
  | .imp f g => subTerms f ++ subTerms g
  | .equ f g => subTerms f ++ subTerms g
  | .all _ f => subTerms f
  | .ex _ f => subTerms f
def subTermsL : List Form → List Term
  | [] => []
  | f :: fs => subTerms f ++ subTermsL fs
end

/-- `form.GetSubTerms().Contains(term, AST.TermEquals)`: with a nil term the first comparison is a call
of a method on a nil interface (src/Lib/list.go:183-190, src/AST/term.go:84-86). -/
def containsTerm (f : Form) : Option Term → R Bool
  | some t => .ok (t ∈ subTerms f)
  | none => if (subTerms f).isEmpty then .ok false else .panic

/-- `getOffspringsOf` (src/Mods/gs3/proof.go:408-416). -/
def offspringsOf (t : Option Term) : List Form → R (List Form)
  | [] => .ok []
  | f :: fs => (containsTerm f t).bind fun b =>
    (offspringsOf t fs).bind fun r => .ok (if b then f :: r else r)

/-- `getRulesAppliedInOrder` (src/Mods/gs3/proof.go:395-406). -/
def rulesInOrder (gs : GS) (t : Option Term) (depForms : List Form) (deltaForm : Form) :
    R (List (Rule × PS) × List Form) :=
  (offspringsOf t gs.branch).bind fun offs =>
    .ok (gs.rules.filter fun r => decide (r.2.form ≠ deltaForm ∧ (r.2.form ∈ offs ∨ r.2.form ∈ depForms)), offs)

/-- `weakenAllFormsRelatedToTheTerm` (src/Mods/gs3/proof.go:700-717). -/
def relatedTo (t : Option Term) (rules : List (Rule × PS)) : List Form → R (List Form × List (Rule × PS))
  | [] => .ok ([], [])
  | f :: fs => (containsTerm f t).bind fun b =>
    (relatedTo t rules fs).bind fun r =>
      .ok (if b then (f :: r.1, rules.filter (fun p => p.2.form = f) ++ r.2) else r)

/-- `removeHypothesis` (src/Mods/gs3/proof.go:465-473): a missing hypothesis is only a warning. -/
def removeHyp (l : List Form) (f : Form) : List Form := l.erase f

/-- `removeRuleAppliedOn` (src/Mods/gs3/proof.go:492-499). -/
def removeRuleOn (f : Form) : List (Rule × PS) → List (Rule × PS)
  | [] => []
  | r :: l => if r.2.form = f then l else r :: removeRuleOn f l

/-- `removeDependency` (src/Mods/gs3/proof.go:475-490): the result of `RemoveAt` is dropped, so that each
entry is replaced by the list of the first entry with the same term. -/
def removeDep (d : List (Option Term × List Form)) : List (Option Term × List Form) :=
  d.map fun p => match depGet d p.1 with
    | some fl => (p.1, fl)
    | none => p

/-- `weakenForm` (src/Mods/gs3/proof.go:434-447). -/
def weakenForm (cfg : Cfg) (gs : GS) (f : Form) : R (Seq × GS) :=
  (setAppliedOn { withHyps cfg gs.branch with rule := .w } f).bind fun s =>
    let gs := { gs with branch := removeHyp gs.branch f, dep := removeDep gs.dep,
                        rules := removeRuleOn f gs.rules }
    .ok ({ s with proof := gs.copy }, gs)

/-- `weakenForms` (src/Mods/gs3/proof.go:418-432); `first` is the test `i == 0`. -/
def weakenForms (cfg : Cfg) (parent : Nat) : Bool → List Form → GS → Heap → R (GS × Heap)
  | _, [], gs, h => .ok (gs, h)
  | first, f :: fs, gs, h =>
    (weakenForm cfg gs f).bind fun r =>
      let s := r.1
      let gs := r.2
      if first && isEmptyAt h parent then
        weakenForms cfg parent false fs { gs with last := some parent } (store h parent s)
      else
        let p := alloc h s
        let h := match gs.last with
          | some l => addChild p.2 l p.1
          | none => p.2
        weakenForms cfg parent false fs { gs with last := some p.1 } h

/-- `removeFromDeltaHisto` (src/Mods/gs3/proof.go:693-699). The loop goes over the positions of the old
slice, in the array that `append` shifts in place: `arr` is the array, `len` the length of the new
slice, `i` the position, `n` the number of positions that remain. -/
def removeDelta (t : Option Term) : Nat → Nat → List (Option Term × Form × Int) → Nat →
    R (List (Option Term × Form × Int))
  | 0, _, arr, len => .ok (arr.take len)
  | n + 1, i, arr, len =>
    match arr[i]? with
    | none => .panic
    | some p =>
      if p.1.isSome && p.1 = t then
        if i + 1 > len then .panic
        else removeDelta t n (i + 1) (arr.take i ++ (arr.take len).drop (i + 1) ++ arr.drop (len - 1)) (len - 1)
      else removeDelta t n (i + 1) arr len

/-- `weakenTerm` (src/Mods/gs3/proof.go:449-463). -/
def weakenTerm (cfg : Cfg) (gs : GS) (t : Option Term) (h : Heap) : R (GS × Heap) :=
  (removeDelta t gs.delta.length 0 gs.delta gs.delta.length).bind fun delta =>
    let gs := { gs with delta := delta }
    let s : Seq := { withHyps cfg gs.branch with rule := .w, term := t }
    let p := alloc h { s with proof := gs.copy }
    let h := match gs.last with
      | some l => addChild p.2 l p.1
      | none => p.2
    .ok ({ gs with last := some p.1 }, h)

/-- `makeProofStructFrom` (src/Mods/gs3/proof.go:376-388). -/
def psFrom (f nf : Form) (rule : Rule) : PS := .mk f (-1) rule [[nf]] []

/-- `applyDeltaRule` (src/Mods/gs3/proof.go:501-516). -/
def applyDelta (cfg : Cfg) (gs : GS) (f result : Form) (rule : Rule) (t : Option Term) (node : Int) :
    R (Seq × GS) :=
  (setAppliedOn { withHyps cfg gs.branch with rule := rule } f).bind fun s =>
    let gs := { gs with branch := gs.branch ++ [result], delta := gs.delta ++ [(t, result, node)],
                        rules := gs.rules ++ [(rule, psFrom f result rule)] }
    .ok ({ s with term := t, forms := [[result]], proof := gs.copy }, gs)

/-- `findInDeltaHisto` (src/Mods/gs3/proof.go:682-691). -/
def findDelta (gs : GS) (t : Option Term) (forms : List Form) : List Form × Bool :=
  match gs.delta.find? (fun p => p.1.isSome && p.1 = t) with
  | some p => (forms ++ [p.2.1], true)
  | none => (forms, false)

/-- `termHasBeenIntroducedByBranch` (src/Mods/gs3/proof.go:719-729): a method call on the term of the
entry, which may be nil. -/
def introducedByBranch (t : Option Term) (node : Int) : List (Option Term × Form × Int) → R Bool
  | [] => .ok true
  | p :: l =>
    match p.1 with
    | none => .panic
    | some u => if some u = t then .ok (p.2.2 = node) else introducedByBranch t node l

/-- `getCurrentBranchChildId`, `findInBetaHist` (src/Mods/gs3/proof.go:563-570,649-656); `none` is -1. -/
def branchChild (gs : GS) (node : Int) : Option Nat :=
  (gs.beta.find? fun p => p.2 = node).map (·.1)

/-- `equalRulePair` (src/Mods/gs3/proof.go:611-613). -/
def equalRulePair (a b : Rule × PS) : Bool := a.1 = b.1 ∧ a.2.form = b.2.form

/-- `getFirstRuleAppliedAfter` (src/Mods/gs3/proof.go:590-597): the test `i < len(rulesApplied)` is
always true. The inner `none` is the zero pair. -/
def firstAfter (first : Rule × PS) : List (Rule × PS) → R (Option (Rule × PS))
  | [] => .ok none
  | r :: l => if equalRulePair r first then R.ofOpt (l.head?.map some) else firstAfter first l

/-- `getIntersectionBetweenResultAndBranchForms` (src/Mods/gs3/proof.go:599-609). -/
def inBranch (gs : GS) (forms : List (List Form)) : List Form :=
  forms.flatten.filter fun f => decide (f ∈ gs.branch)

/-- The loop of `getFormsToWeaken` (src/Mods/gs3/proof.go:576-586). -/
def toWeakenLoop (cfg : Cfg) (gs : GS) (rule : Rule × PS) : Bool → List (Rule × PS) → List Form
  | _, [] => []
  | can, r :: l =>
    let can := can || equalRulePair r rule
    (if can && (!cfg.preInner || !rule.1.isDelta) then inBranch gs rule.2.results else []) ++
      toWeakenLoop cfg gs rule can l

/-- `getFormsToWeaken` (src/Mods/gs3/proof.go:572-588). Nothing equals the zero pair (its formula is
nil). -/
def toWeaken (cfg : Cfg) (gs : GS) (first : Rule × PS) : R (List Form) :=
  (firstAfter first gs.rules).bind fun rule =>
    match rule with
    | none => .ok []
    | some rule => .ok (toWeakenLoop cfg gs rule false gs.rules)

/-- `makeWeakeningProofStructs` (src/Mods/gs3/proof.go:615-627). -/
def weakenings (forms : List Form) : List PS := forms.map fun f => .mk f (-1) .w [] []

/-- The loop over the children of a beta rule in `rebuildProof` (src/Mods/gs3/proof.go:537-552): `mine` is
the result for the current branch. -/
def rebuildChildren (cur : Option Nat) (mine : List PS) (weak : R (List Form)) :
    Nat → List (List PS) → R (List (List PS))
  | _, [] => .ok []
  | j, c :: cs =>
    if cur = some j then (rebuildChildren cur mine weak (j + 1) cs).bind fun r => .ok (mine :: r)
    else weak.bind fun fs =>
      (rebuildChildren cur mine weak (j + 1) cs).bind fun r => .ok ((weakenings fs ++ c) :: r)

/-- `rebuildProof` (src/Mods/gs3/proof.go:529-561). The recursive call is made once, for the child of the
current branch; here it is made before the loop, and only if there is such a child. -/
def rebuild (cfg : Cfg) (gs : GS) : List (Rule × PS) → R (List PS × List Nat)
  | [] => .ok ([], [])
  | r :: rest =>
    if r.1.isBeta then
      let cur := branchChild gs r.2.node
      let hasCur := match cur with
        | some j => decide (j < r.2.children.length)
        | none => false
      (if hasCur && !rest.isEmpty then rebuild cfg gs rest else .ok ([], [])).bind fun sub =>
        (rebuildChildren cur sub.1 (toWeaken cfg gs r) 0 r.2.children).bind fun cs =>
          .ok ([.mk r.2.form r.2.node r.2.rule r.2.results cs],
               (match cur with
                | some j => if hasCur then j :: sub.2 else []
                | none => []))
    else
      (rebuild cfg gs rest).bind fun sub => .ok (r.2 :: sub.1, sub.2)

/-- `getLastSequent` (src/Mods/gs3/proof.go:629-647): the address of the leaf. -/
def lastSequent (gs : GS) (h : Heap) : Nat → Nat → List Nat → R Nat
  | 0, _, _ => .out
  | n + 1, a, idx =>
    match h[a]? with
    | none => .panic
    | some s =>
      if s.children.isEmpty then .ok a
      else if s.rule.isBeta then
        match branchChild gs s.node with
        | some j => (R.ofOpt s.children[j]?).bind fun b => lastSequent gs h n b idx
        | none => match idx with
          | [] => .panic
          | j :: idx => (R.ofOpt s.children[j]?).bind fun b => lastSequent gs h n b idx
      else (R.ofOpt s.children[0]?).bind fun b => lastSequent gs h n b idx

/-- `applyRulesBack` with `getLastSequent` (src/Mods/gs3/proof.go:322-326,349-353,518-527): the rebuilt
proof is translated below `under`; the new state is the one stored in the last sequent. `mk` is
`makeProof`. -/
def rulesBack (cfg : Cfg) (mk : GS → List PS → Heap → R (Nat × Heap)) (gs : GS) (under : Nat)
    (rules : List (Rule × PS)) (h : Heap) : R (Nat × GS × Heap) :=
  (rebuild cfg gs rules).bind fun pr =>
    (mk { gs with last := none } pr.1 h).bind fun r =>
      let h := addChild r.2 under r.1
      (lastSequent gs h (h.length + 1) r.1 pr.2).bind fun l =>
        match h[l]? with
        | none => .panic
        | some s => .ok (l, s.proof, h)

/-- `*parent = *seq; seq = parent` when the parent is empty, a new sequent otherwise. -/
def place (h : Heap) (parent : Nat) (s : Seq) : Nat × Heap :=
  if isEmptyAt h parent then (parent, store h parent s) else alloc h s

/-- `manageDeltaStep` (src/Mods/gs3/proof.go:290-359). -/
def deltaStep (cfg : Cfg) (mk : GS → List PS → Heap → R (Nat × Heap)) (step : PS) (parent : Nat)
    (gs : GS) (h : Heap) : R (GS × Heap) :=
  (R.ofOpt (step.results.head?.bind (·.head?))).bind fun result =>
  (R.ofOpt (deltaTerm step.form result)).bind fun t =>
  (if cfg.preInner then introducedByBranch t step.node gs.delta else .ok true).bind fun intro =>
  if !intro then .ok (gs, h)
  else
    let prev := gs.rules
    let dep := depGet gs.dep t
    (rulesInOrder gs t (dep.getD []) result).bind fun ro =>
    if dep.isSome && !ro.1.isEmpty then
      let fd := findDelta gs t ro.2
      (weakenForms cfg parent true fd.1 gs h).bind fun w =>
      (if fd.2 then weakenTerm cfg w.1 t w.2 else .ok w).bind fun w =>
      (applyDelta cfg w.1 step.form result step.rule t step.node).bind fun d =>
      (if isEmptyAt w.2 parent then R.ok (parent, store w.2 parent d.1)
       else
        match d.2.last with
        | none => R.panic
        | some l =>
          let p := alloc w.2 d.1
          R.ok (p.1, addChild p.2 l p.1)).bind fun p =>
      let prev := prev ++ [(step.rule, psFrom step.form result step.rule)]
      let gs := { d.2 with last := some p.1, branch := d.2.branch ++ [result] }
      (rulesBack cfg mk gs p.1 ro.1 p.2).bind fun rb =>
      .ok ({ rb.2.1 with last := some rb.1, rules := prev }, rb.2.2)
    else
      (relatedTo t gs.rules gs.branch).bind fun rel =>
      (weakenForms cfg parent true rel.1 gs h).bind fun w =>
      (if (findDelta w.1 t rel.1).2 then
        (weakenTerm cfg w.1 t w.2).bind fun w =>
          if isEmptyAt w.2 parent then
            match w.1.last.bind (fun l => w.2[l]?) with
            | some s => .ok ({ w.1 with last := some parent }, store w.2 parent s)
            | none => .panic
          else .ok w
       else .ok w).bind fun w =>
      (applyDelta cfg w.1 step.form result step.rule t step.node).bind fun d =>
      let p := place w.2 parent d.1
      let h := match d.2.last with
        | some l => addChild p.2 l p.1
        | none => p.2
      if rel.2.isEmpty then .ok ({ d.2 with last := some p.1, rules := prev }, h)
      else
        (rulesBack cfg mk d.2 p.1 rel.2 h).bind fun rb =>
        .ok ({ rb.2.1 with last := some rb.1, rules := prev }, rb.2.2)

/-- `postTreatment` (src/Mods/gs3/proof.go:361-374): the result formulas. -/
def postForms (step : PS) : List (List Form) :=
  step.results.map fun fs =>
    if step.rule = .nor ∨ step.rule = .nimp ∨ step.rule = .and ∨ step.rule = .equ then
      match fs with
      | [f] => [f, f]
      | _ => fs
    else fs

/-- The end of `makeProofOneStep` for a sequent that is not empty (src/Mods/gs3/proof.go:216-238): link to
the last node, result formulas, new branch formulas, copy of the state. -/
def finish (step : PS) (a : Nat) (gs : GS) (h : Heap) : R (GS × Heap) :=
  let h := match gs.last with
    | some l => addChild h l a
    | none => h
  let forms := postForms step
  let gs := { gs with last := some a, rules := gs.rules ++ [(step.rule, step)] }
  let h := h.modify a fun s => { s with forms := forms }
  (if step.rule.isAlpha || step.rule.isGamma || step.rule.isDelta then
    (R.ofOpt forms.head?).bind fun fs => .ok { gs with branch := gs.branch ++ fs }
   else .ok gs).bind fun gs => .ok (gs, h.modify a fun s => { s with proof := gs.copy })

/-- `makeProofOneStep` (src/Mods/gs3/proof.go:182-241), with `manageGammaStep` (243-269). -/
def oneStep (cfg : Cfg) (mk : GS → List PS → Heap → R (Nat × Heap)) (step : PS) (parent : Nat)
    (gs : GS) (h : Heap) : R (GS × Heap) :=
  match step.rule with
  | .nnot | .nor | .nimp | .and | .nand | .nequ | .or | .imp | .equ | .ax =>
    (setAppliedOn { withHyps cfg gs.branch with rule := step.rule, node := step.node } step.form).bind fun s =>
      let p := place h parent s
      finish step p.1 gs p.2
  | .all | .nex =>
    (R.ofOpt (step.results.head?.bind (·.head?))).bind fun result =>
    (R.ofOpt (gammaTerm step.form result)).bind fun t =>
    let gs := { gs with dep := (depFromTerm cfg t).foldl (fun d u => depAdd d u step.form) gs.dep }
    (setAppliedOn { withHyps cfg gs.branch with rule := step.rule } step.form).bind fun s =>
      let p := place h parent { s with term := t }
      finish step p.1 gs p.2
  | .nall | .ex =>
    (deltaStep cfg mk step parent gs h).bind fun r =>
      let gs := { r.1 with rules := r.1.rules ++ [(step.rule, step)] }
      (R.ofOpt (postForms step).head?).bind fun fs => .ok ({ gs with branch := gs.branch ++ fs }, r.2)
  | .w =>
    (weakenForm cfg gs step.form).bind fun r =>
      let p := alloc h r.1
      finish step p.1 r.2 p.2
  | .r => .ok ({ gs with rules := gs.rules ++ [(step.rule, step)] }, h)

/-- The loop of `makeProof` over the steps (src/Mods/gs3/proof.go:158-160). -/
def steps (cfg : Cfg) (mk : GS → List PS → Heap → R (Nat × Heap)) (parent : Nat) :
    List PS → GS → Heap → R (GS × Heap)
  | [], gs, h => .ok (gs, h)
  | s :: l, gs, h => (oneStep cfg mk s parent gs h).bind fun r => steps cfg mk parent l r.1 r.2

/-- The loop of `makeProof` over the children of the last step (src/Mods/gs3/proof.go:163-176). -/
def childLoop (mk : GS → List PS → Heap → R (Nat × Heap)) (gs : GS) (node : Int)
    (results : List (List Form)) : Nat → List (List PS) → Heap → R Heap
  | _, [], h => .ok h
  | i, c :: cs, h =>
    (R.ofOpt results[i]?).bind fun fs =>
    (mk { gs with dep := depCopy gs.dep, branch := gs.branch ++ fs, last := none,
                  beta := gs.beta ++ [(i, node)] } c h).bind fun r =>
    match gs.last with
    | none => .panic
    | some l => childLoop mk gs node results (i + 1) cs (addChild r.2 l r.1)

/-- `makeProof` (src/Mods/gs3/proof.go:145-179). The first argument bounds the depth of the calls. -/
def makeProof (cfg : Cfg) : Nat → GS → List PS → Heap → R (Nat × Heap)
  | 0, _, _, _ => .out
  | _ + 1, gs, [], h => .ok (alloc h { proof := gs.copy })
  | n + 1, gs, s :: l, h =>
    let root := alloc h {}
    let gs := if gs.branch.isEmpty then { gs with branch := [s.form] } else gs
    (steps cfg (makeProof cfg n) root.1 (s :: l) gs root.2).bind fun r =>
      let last := (s :: l).getLast (by simp)
      (childLoop (makeProof cfg n) r.1 last.node (postForms last) 0 last.children r.2).bind fun h =>
        .ok (root.1, h)

/-- `MakeGS3Proof` (src/Mods/gs3/proof.go:113-127) without deduction modulo theory. -/
def makeGS3 (cfg : Cfg) (n : Nat) (proof : List PS) : R (Nat × Heap) := makeProof cfg n {} proof []

end Verif.Gs3
