import Verif.Equality.BseTree
import Verif.Equality.LPOProps
/-!
# Equality reasoning by rigid basic superposition (`src/Mods/equality/bse`)

Model of the equality module that is used by default. A problem is a list of equalities `E`, a goal `s = t` and constraints. A rule
replaces a subterm `l'` of one side of the goal (right rule) or of an equality (left rule) by `r`, for an equality `l = r` of which
`l` unifies with `l'`, provided the constraints `r ≺ l`, `t ≺ s` and `l ≃ l'` are consistent with those collected before.

Terms are those of `Verif.Unif`; a symbol stands for an identifier. `pr` is the order of identifiers
(`CompareWith`, see `C38_precedence`), `au` is `AddUnification` with `n` bounding its depth. Maps keyed by printed terms are keyed by
terms. `Glob.Fatal` and `Glob.Anomaly` (which end the program) are `Res.panic`, or the absence of a result.

The goroutines of a problem do not share data: a problem copies what it needs. The only nondeterminism left is which child
answers first and the order of the answers of the index; both are modelled by relations.
-/

namespace Verif.Equality.Bse

open Verif.Unif Verif.Equality.LPO

variable (pr : Nat → Nat → Ordering) (au : AU)

/-! ### Constraints -/

/-- `ConstraintStruct` (src/Mods/equality/bse/constraints_struct.go:46-50). -/
structure CStr where
  all : List Con := []
  subst : Subst := []
  prec : List Con := []
deriving DecidableEq

/-- A substitution, pair by pair (`ApplySubstitutionOnTerm`, src/Core/substitutions_search.go:230-246). -/
def applyS (σ : Subst) (t : UT) : UT := σ.foldl (fun u p => u.sub p.1 p.2) t

/-- `Constraint.applySubstitution` (src/Mods/equality/bse/constraints_type.go:91-98). -/
def applyC (σ : Subst) : Con → Con
  | .prec s t => .prec (applyS σ s) (applyS σ t)
  | .eq s t => .eq (applyS σ s) (applyS σ t)

/-- `isConsistantWithSubst` (src/Mods/equality/bse/constraints_list.go:90-117). -/
def consistentSubst (σ : Subst) : List Con → Res Bool
  | [] => .ok true
  | c :: cs => (checkLPO pr (applyC σ c)).bind fun r =>
    if r.1.2 && !r.1.1 then .ok false else consistentSubst σ cs

/-- `appendToMapAndCheck` (src/Mods/equality/bse/constraints_type.go:130-153); the map is the list of its entries: key, number of the
list, term. -/
def addEntry (m : List (UT × Nat × UT)) (k : UT) (i : Nat) (t : UT) : Option (List (UT × Nat × UT)) :=
  if (m ++ [(k, i, t)]).any (fun e => decide (e.1 = k) && decide (e.2.1 ≠ i) && decide (e.2.2 = t)) then none
  else some (m ++ [(k, i, t)])

/-- One iteration of `checkConstraintList` (src/Mods/equality/bse/constraints_list.go:127-145). -/
def addCon (m : List (UT × Nat × UT)) : Con → Option (List (UT × Nat × UT))
  | .prec s t => (addEntry m s 1 t).bind fun m => addEntry m t 2 s
  | .eq s t => (addEntry m s 0 t).bind fun m => addEntry m t 0 s

/-- `checkConstraintList` (src/Mods/equality/bse/constraints_list.go:124-148). -/
def checkList (cl : List Con) : Bool := (cl.foldlM addCon []).isSome

/-- `isConsistantWith` (src/Mods/equality/bse/constraints_struct.go:118-206): `none` when the constraint is not consistent, otherwise
the updated structure. -/
def consistentWith (c : CStr) : Con → Res (Option CStr)
  | .prec s t => (checkLPO pr (applyC c.subst (.prec s t))).bind fun r =>
    if r.1.2 then .ok (if r.1.1 then some c else none)
    else if checkList (c.prec ++ [.prec s t]) then
      .ok (some { c with prec := c.prec ++ [.prec s t], all := c.all ++ [.prec s t] })
    else .ok none
  | .eq s t =>
    match au s t [] with
    | .ok [] => .ok (some c)
    | .ok (_ :: _) =>
      match au s t c.subst with
      | .ok [] => .ok (some c)
      | .ok (p :: σ) => (consistentSubst pr (p :: σ) c.prec).bind fun b =>
        .ok (if b then some { c with subst := p :: σ, all := c.all ++ [.eq s t] } else none)
      | .fail => .ok none
      | .panic => .panic
      | .out => .out
    | .fail => .ok none
    | .panic => .panic
    | .out => .out

/-- `appendIfConsistant` (src/Mods/equality/bse/constraints_struct.go:94-115). -/
def appendIf (c : CStr) (k : Con) : Res (Option CStr) :=
  if k ∈ c.all then .ok (some c) else consistentWith pr au c k

/-! ### Problems and rules -/

/-- `EqualityProblem` (src/Mods/equality/bse/equality_problem.go:50-56). The tree and the map are computed from the equalities
(`makeEqualityProblem`, lines 133-135). -/
structure Prob where
  E : List (UT × UT)
  s : UT
  t : UT
  c : CStr := {}

mutual
/-- `ReplaceSubTermBy` (src/AST/termsDef.go:195-206 and 342-347). -/
def repl (o v : UT) : UT → UT
  | .mv x => if UT.mv x = o then v else .mv x
  | .fn p l => if UT.fn p l = o then v else .fn p (replL o v l)
/-- `replaceFirstOccurrenceTermList` (src/AST/term-list.go:60-82): only the first argument that changes is replaced. -/
def replL (o v : UT) : List UT → List UT
  | [] => []
  | a :: l => if repl o v a ≠ a then repl o v a :: l else a :: replL o v l
end

/-- `List.Add`: only what is not there yet. -/
def addNew (l : List UT) (t : UT) : List UT := if t ∈ l then l else l ++ [t]

mutual
/-- `GetSubTerms` (src/AST/termsDef.go:238-247 and 351-353). -/
def subs : UT → List UT
  | .mv x => [.mv x]
  | .fn p l => subsL [.fn p l] l
def subsL (acc : List UT) : List UT → List UT
  | [] => acc
  | a :: l => subsL ((subs a).foldl addNew acc) l
end

/-- `E_map[l]` (`makeEQMapFromEqualities`, src/Mods/equality/bse/equality_problem.go:147-173). For an equality `l = l` the second
assignment overwrites the first. -/
def eMap (E : List (UT × UT)) (l : UT) : List UT :=
  E.flatMap fun e =>
    if e.1 = e.2 then (if e.1 = l then [e.1] else [])
    else (if e.1 = l then [e.2] else []) ++ (if e.2 = l then [e.1] else [])

/-- `ruleStruct` (src/Mods/equality/bse/rule_struct.go:50-55). `left` is the index of the equality a left rule modifies, `none` for a
right rule; `l'` is `l_prime`. -/
structure Rule where
  left : Option Nat
  l : UT
  r : UT
  l' : UT
  s : UT
  t : UT
  sMod : Bool
deriving DecidableEq

/-- `EqualsModulo` (src/Mods/equality/eqStruct/term_pair.go:88-92). -/
def sameEq (s t l r : UT) : Bool := (decide (s = l) && decide (t = r)) || (decide (s = r) && decide (t = l))

/-- `connectLAndR` (src/Mods/equality/bse/equality_rules_try_apply.go:132-175), with the fields set by `tryApplyRuleAux` (82-91). -/
def connect (E : List (UT × UT)) (s t : UT) (left : Option Nat) (sMod : Bool) (ps : List (UT × UT)) : List Rule :=
  ps.flatMap fun p => ((eMap E p.2).filter fun r => !sameEq s t p.2 r || left.isNone).map fun r => ⟨left, p.2, r, p.1, s, t, sMod⟩

/-- `searchUnifBewteenListAndEq` with `checkUnifInTree` (src/Mods/equality/bse/equality_rules_try_apply.go:178-239): the pairs of a
subterm that is no metavariable and a term unifying with it found in the tree. -/
inductive Pairs (n : Nat) (T : Node Instr UT) : List UT → List (UT × UT) → Prop where
  | nil : Pairs n T [] []
  | mv {x : Nat} {l : List UT} {ps : List (UT × UT)} (h : Pairs n T l ps) : Pairs n T (.mv x :: l) ps
  | fn {p : Nat} {args l out : List UT} {ps : List (UT × UT)} (hf : Finds au n T { terms := [.fn p args] } out) (h : Pairs n T l ps) :
      Pairs n T (.fn p args :: l) (out.map (fun u => (.fn p args, u)) ++ ps)

/-- `tryApplyRuleCompute` with `tryApplyRuleAux` (src/Mods/equality/bse/equality_rules_try_apply.go:82-129). -/
def RulesFor (n : Nat) (ep : Prob) (s t : UT) (left : Option Nat) (sMod : Bool) (rs : List Rule) : Prop :=
  ∃ T ps, tree ep.E = some T ∧ Pairs au n T (subs s) ps ∧ rs = connect ep.E s t left sMod ps

/-- `tryApplyRightRules` (src/Mods/equality/bse/equality_rules_try_apply.go:68-79). -/
def RightRules (n : Nat) (ep : Prob) (rs : List Rule) : Prop :=
  ∃ a b, RulesFor au n ep ep.s ep.t none true a ∧ RulesFor au n ep ep.t ep.s none false b ∧ rs = a ++ b

/-- The loop of `tryApplyLeftRules` (src/Mods/equality/bse/equality_rules_try_apply.go:54-60), from equality `i` on, of which `es` are the
remaining ones. -/
inductive LeftLoop (n : Nat) (ep : Prob) : Nat → List (UT × UT) → List Rule → Prop where
  | nil {i : Nat} : LeftLoop n ep i [] []
  | cons {i : Nat} {e : UT × UT} {es : List (UT × UT)} {a b rs : List Rule} (ha : RulesFor au n ep e.1 e.2 (some i) true a)
      (hb : RulesFor au n ep e.2 e.1 (some i) false b) (h : LeftLoop n ep (i + 1) es rs) : LeftLoop n ep i (e :: es) (a ++ b ++ rs)

/-- `tryApplyLeftRules` (src/Mods/equality/bse/equality_rules_try_apply.go:49-65). -/
def LeftRules (n : Nat) (ep : Prob) (begin : Nat) (rs : List Rule) : Prop := LeftLoop au n ep begin (ep.E.drop begin) rs

/-- `applyEQRule` (src/Mods/equality/bse/equality_rules_apply.go:131-157): the constraints after the rule, if they are consistent. -/
def applyEQ (r : Rule) (c : CStr) : Res (Option CStr) :=
  (appendIf pr au c (.prec r.r r.l)).bind fun o => match o with
    | none => .ok none
    | some c => (appendIf pr au c (.prec r.t r.s)).bind fun o => match o with
      | none => .ok none
      | some c => appendIf pr au c (.eq r.l r.l')

/-- `applyLeftRule` and `applyRightRule` (src/Mods/equality/bse/equality_rules_apply.go:69-122): the new problem, `none` if the
constraints are not consistent. The side that is not modified is taken from `rs.getT()` in the first case, from `rs.getS()` in the second,
though `rs.s` always is the modified side. -/
def next (ep : Prob) (r : Rule) : Res (Option Prob) :=
  (applyEQ pr au r ep.c).bind fun o => match o with
    | none => .ok none
    | some c =>
      let new := repl r.l' r.r r.s
      match r.left with
      | some i => .ok (some { ep with E := ep.E.set i (if r.sMod then (new, r.t) else (r.s, new)), c := c })
      | none => .ok (some (if r.sMod then { ep with s := new, t := r.t, c := c } else { ep with s := r.s, t := new, c := c }))

/-- `checkUnif` (src/Mods/equality/bse/equality_rules_utils.go:77-112). -/
def checkUnif (ep : Prob) : Res (List Subst) :=
  match au ep.s ep.t [] with
  | .ok _ => match au ep.s ep.t ep.c.subst with
    | .ok σ => (consistentSubst pr σ ep.c.prec).bind fun b => .ok (if b then [σ] else [])
    | .fail => .ok []
    | .panic => .panic
    | .out => .out
  | .fail => .ok []
  | .panic => .panic
  | .out => .out

/-- The first part of `equalityReasoningProblem` (src/Mods/equality/bse/equality_solve_reasoning_problem.go:84-94): after a left rule the
sides are not unified. -/
def check (ep : Prob) (last : Option Nat) : Res (List Subst) :=
  match last with
  | none => checkUnif pr au ep
  | some _ => .ok []

/-- `Substitutions.Equals` (src/Unif/substitutions_type.go:85-112). -/
def substEq (s t : Subst) : Bool := decide (s.length = t.length) && s.all fun p => decide (p ∈ t)

/-- `AppendIfNotContainsSubst` (src/Unif/substitutions_type.go:197-203). -/
def addSubst (l : List Subst) (s : Subst) : List Subst := if l.any (fun x => substEq s x) then l else l ++ [s]

/-- A goroutine: `tryEqualityReasoningProblem`, with the index of the equality the last rule modified if that was a left rule, or
`applyRule`. -/
inductive Job where
  | prob (ep : Prob) (last : Option Nat)
  | rule (ep : Prob) (r : Rule)

/-- `equalityReasoningProblem` with `manageRLRules`, `manageRule` and `selectAnswerEP`
(src/Mods/equality/bse/equality_solve_reasoning_problem.go:58-243), for a goroutine that gets no kill order: the answer it can send to
its father. The right rules are all launched; the first child that answers with a solution wins, and its substitutions are taken
over; if all children answer without one, the left rules are launched in the same way, beginning with the equality the last left rule
modified. -/
inductive Runs (n : Nat) : Job → Bool → List Subst → Prop where
  | stop {ep : Prob} {last : Option Nat} {us : List Subst} (h : ep.s = ep.t) (hu : check pr au ep last = .ok us) :
      Runs n (.prob ep last) true us
  | right {ep : Prob} {last : Option Nat} {us ss : List Subst} {rs : List Rule} {r : Rule} (h : ep.s ≠ ep.t)
      (hu : check pr au ep last = .ok us) (hr : RightRules au n ep rs) (hm : r ∈ rs) (hc : Runs n (.rule ep r) true ss) :
      Runs n (.prob ep last) true (us ++ ss.foldl addSubst [])
  | left {ep : Prob} {last : Option Nat} {us ss : List Subst} {rs ls : List Rule} {r : Rule} {f : Rule → List Subst} (h : ep.s ≠ ep.t)
      (hu : check pr au ep last = .ok us) (hr : RightRules au n ep rs) (hf : ∀ r ∈ rs, Runs n (.rule ep r) false (f r))
      (hl : LeftRules au n ep (last.getD 0) ls) (hm : r ∈ ls) (hc : Runs n (.rule ep r) true ss) :
      Runs n (.prob ep last) true (us ++ ss.foldl addSubst [])
  | none {ep : Prob} {last : Option Nat} {us : List Subst} {rs ls : List Rule} {f g : Rule → List Subst} (h : ep.s ≠ ep.t)
      (hu : check pr au ep last = .ok us) (hr : RightRules au n ep rs) (hf : ∀ r ∈ rs, Runs n (.rule ep r) false (f r))
      (hl : LeftRules au n ep (last.getD 0) ls) (hg : ∀ r ∈ ls, Runs n (.rule ep r) false (g r)) :
      Runs n (.prob ep last) (!us.isEmpty) us
  | refused {ep : Prob} {r : Rule} (h : next pr au ep r = .ok none) : Runs n (.rule ep r) false []
  | applied {ep ep' : Prob} {r : Rule} {b : Bool} {ss : List Subst} (h : next pr au ep r = .ok (some ep'))
      (hc : Runs n (.prob ep' r.left) b ss) : Runs n (.rule ep r) b ss

/-- `launchEqualityReasoningProblem` (src/Mods/equality/bse/equality_solve_reasoning_problem.go:50-55): only the substitutions are used. -/
def Launch (n : Nat) (ep : Prob) (ss : List Subst) : Prop := ∃ b, Runs pr au n (.prob ep none) b ss

/-! ### Lists of goals -/

/-- `EqualityProblem.applySubstitution` (src/Mods/equality/bse/equality_problem.go:92-110), for a problem without constraints. -/
def Prob.applyS (σ : Subst) (ep : Prob) : Prob :=
  { E := ep.E.map fun e => (Bse.applyS σ e.1, Bse.applyS σ e.2), s := Bse.applyS σ ep.s, t := Bse.applyS σ ep.t }

/-- The second result of `MergeSubstitutions` (src/Unif/substitutions_tree.go:250-287): a key of the second substitution is bound in the
first one (or bound twice). -/
def sameKey (s1 s2 : Subst) : Bool :=
  if s1.isEmpty || s2.isEmpty then false
  else (s2.foldl (fun (r : List Nat × Bool) p => (p.1 :: r.1, r.2 || decide (p.1 ∈ r.1))) (s1.keys, false)).2

/-- The inner loop of `manageEqualityReasoningProblem` (src/Mods/equality/bse/equality_rules_reasoning.go:191-203); both anomalies end the
program. -/
def mergeAll (n : Nat) (σ : Subst) : List Subst → Res (List Subst)
  | [] => .ok []
  | τ :: l =>
    if sameKey σ τ then .panic
    else match merge au n σ τ with
      | .ok ρ => (mergeAll n σ l).bind fun rs => .ok (ρ :: rs)
      | .fail => .panic
      | .panic => .panic
      | .out => .out

/-- The loop of `manageEqualityReasoningProblem` (src/Mods/equality/bse/equality_rules_reasoning.go:188-204). -/
inductive Under (n : Nat) (ep : Prob) : List Subst → List Subst → Prop where
  | nil : Under n ep [] []
  | cons {σ : Subst} {l ss out rest : List Subst} (h : Launch pr au n (ep.applyS σ) ss) (hm : mergeAll au n σ ss = .ok out)
      (hr : Under n ep l rest) : Under n ep (σ :: l) (out ++ rest)

/-- `manageEqualityReasoningProblem` (src/Mods/equality/bse/equality_rules_reasoning.go:178-207): there is a solution when the result is
not empty. -/
def Manage (n : Nat) (ep : Prob) (sl out : List Subst) : Prop :=
  if sl.isEmpty then Launch pr au n ep out else Under pr au n ep sl out

/-- `equalityReasoningList` (src/Mods/equality/bse/equality_rules_reasoning.go:149-175) on `makeEqualityProblemList`
(src/Mods/equality/bse/equality_problem.go:123-131); `none` when one of the goals has no solution. -/
inductive GoalList (n : Nat) (E : List (UT × UT)) : List (UT × UT) → List Subst → Option (List Subst) → Prop where
  | done {sl : List Subst} : GoalList n E [] sl (some sl)
  | step {g : UT × UT} {gs : List (UT × UT)} {sl out : List Subst} {res : Option (List Subst)} (h : Manage pr au n ⟨E, g.1, g.2, {}⟩ sl out)
      (hne : out ≠ []) (hr : GoalList n E gs out res) : GoalList n E (g :: gs) sl res
  | stuck {g : UT × UT} {gs : List (UT × UT)} {sl : List Subst} (h : Manage pr au n ⟨E, g.1, g.2, {}⟩ sl []) :
      GoalList n E (g :: gs) sl none

/-- `Solve` (src/Mods/equality/bse/equality_rules_reasoning.go:68-108) on assumptions `E`: whether one of the goals is solved, and the
substitutions. -/
inductive Solve (n : Nat) (E : List (UT × UT)) : List (List (UT × UT)) → List Subst → Bool → List Subst → Prop where
  | done {acc : List Subst} : Solve n E [] acc false acc
  | yes {g : List (UT × UT)} {gs : List (List (UT × UT))} {acc ss res : List Subst} {b : Bool} (h : GoalList pr au n E g [] (some ss))
      (hr : Solve n E gs (ss.foldl addSubst acc) b res) : Solve n E (g :: gs) acc true res
  | no {g : List (UT × UT)} {gs : List (List (UT × UT))} {acc res : List Subst} {b : Bool} (h : GoalList pr au n E g [] none)
      (hr : Solve n E gs acc b res) : Solve n E (g :: gs) acc b res

end Verif.Equality.Bse
