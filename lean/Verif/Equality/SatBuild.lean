import Verif.Equality.Congruence

/-!
# The SAT problem of the SAT-based equality module (`src/Mods/equality/sateq/satbuilder.go`, `satbuilder_mappings.go`, `subsgatherer.go`)

The classes, records and goals are those of `Verif.Equality.Congruence`. The SAT solver (`github.com/go-air/gini`) is not modelled: it is
taken to answer with an assignment that satisfies all clauses, any one, or that there is none. The maps of the code are iterated over in
an arbitrary order, so the list of classes is a parameter, and so are the choices that depend on such an order. Literals are the keys of
the maps they are stored in; `getIdAndRegister` (src/Mods/equality/sateq/satbuilder_mappings.go:46-55) gives every key its own literal.
-/

namespace Verif.Equality.Sat
open Verif.Unif Verif.Equality

/-- `termRecord` (src/Mods/equality/sateq/termrep.go:137-144): a function term, or a metavariable with its class. -/
inductive TR where
  | fn (r : Rec)
  | mv (x c : Nat)
deriving DecidableEq

/-- The keys of the maps from which literals are taken (src/Mods/equality/sateq/satbuilder_mappings.go:38-44). -/
inductive Var where
  | S (x c : Nat)
  | E (n a b : Nat)
  | R (c : Nat) (t : TR)
  | O (a b : Nat)
  | C (i : Nat)
  | Phi (n a b : Nat)
  | Psi (n a b : Nat)
  | F (n : Nat) (r s : Rec)
  | T (n a b c : Nat)
deriving DecidableEq

/-- `getVarFromSMapping` (src/Mods/equality/sateq/satbuilder_mappings.go:57-61). Metavariables are known by their index. -/
def vS (st : St) (x c : Nat) : Var := .S x (st.h.rep c)

/-- `getVarFromEMapping` and `makeUnorderedPair` (src/Mods/equality/sateq/satbuilder_mappings.go:63-71,
src/Mods/equality/sateq/termrep.go:53-58); classes are compared by their numbers. -/
def vE (st : St) (n a b : Nat) : Var :=
  if st.h.rep a < st.h.rep b then .E n (st.h.rep a) (st.h.rep b) else .E n (st.h.rep b) (st.h.rep a)

/-- `getVarFromRMapping` (src/Mods/equality/sateq/satbuilder_mappings.go:73-77). -/
def vR (st : St) (c : Nat) (t : TR) : Var := .R (st.h.rep c) t

/-- `getVarFromOMapping` (src/Mods/equality/sateq/satbuilder_mappings.go:79-83). -/
def vO (st : St) (a b : Nat) : Var := .O (st.h.rep a) (st.h.rep b)

/-- `getVarFromϕMapping` (src/Mods/equality/sateq/satbuilder_mappings.go:90-97). -/
def vPhi (st : St) (n a b : Nat) : Var :=
  if st.h.rep a < st.h.rep b then .Phi n (st.h.rep a) (st.h.rep b) else .Phi n (st.h.rep b) (st.h.rep a)

/-- `getVarFrom𝜓Mapping` (src/Mods/equality/sateq/satbuilder_mappings.go:99-106). -/
def vPsi (st : St) (n a b : Nat) : Var :=
  if st.h.rep a < st.h.rep b then .Psi n (st.h.rep a) (st.h.rep b) else .Psi n (st.h.rep b) (st.h.rep a)

/-- `getVarFromFMapping` (src/Mods/equality/sateq/satbuilder_mappings.go:108-116): two function records are compared by their symbol
(src/Mods/equality/sateq/termrep.go:177-187). -/
def vF (n : Nat) (r s : Rec) : Var := if r.sym < s.sym then .F n r s else .F n s r

/-- `getVarFromTMapping` (src/Mods/equality/sateq/satbuilder_mappings.go:118-126). -/
def vT (st : St) (n a b c : Nat) : Var :=
  if st.h.rep a < st.h.rep b then .T n (st.h.rep a) (st.h.rep b) (st.h.rep c) else .T n (st.h.rep b) (st.h.rep a) (st.h.rep c)

/-- A literal: a key and its sign. -/
abbrev Lit := Var × Bool

abbrev Clause := List Lit

/-- The pairs `(i, j)` of the double loops with `i < j` (src/Mods/equality/sateq/satbuilder.go:115-117, 126-128, 155-157). -/
def pairs : List Nat → List (Nat × Nat)
  | [] => []
  | a :: l => l.map (fun b => (a, b)) ++ pairs l

/-- `TermsInClass` (src/Mods/equality/sateq/problem.go:90-92): the index `partitionIndex` holds the records of a class. -/
def termsIn (st : St) (c : Nat) : List TR :=
  (st.p.funs.filter fun r => decide (st.h.rep r.cls = st.h.rep c)).map TR.fn ++
    (st.p.metas.filter fun e => decide (st.h.rep e.2 = st.h.rep c)).map fun e => TR.mv e.1 e.2

/-- The metavariables of a class. -/
def metasIn (st : St) (c : Nat) : List Nat :=
  (termsIn st c).filterMap fun | .mv x _ => some x | .fn _ => none

/-- The function terms of a class. -/
def funsIn (st : St) (c : Nat) : List Rec :=
  (termsIn st c).filterMap fun | .mv _ _ => none | .fn r => some r

/-- `buildMappingConstraints` (src/Mods/equality/sateq/satbuilder.go:113-123). -/
def mappingClauses (st : St) (ecs : List Nat) : List Clause :=
  st.p.metas.flatMap fun x => (pairs ecs).map fun p => [(vS st x.1 p.1, false), (vS st x.1 p.2, false)]

/-- `subsConstraint` and `buildSubsConstraints` (src/Mods/equality/sateq/satbuilder.go:125-151). -/
def subsClauses (st : St) (ecs : List Nat) : List Clause :=
  (pairs ecs).map fun p => (vE st 0 p.1 p.2, false) ::
    ((metasIn st p.1).map (fun x => (vS st x p.2, true)) ++ (metasIn st p.2).map (fun x => (vS st x p.1, true)))

/-- `ϕConstraint` (src/Mods/equality/sateq/satbuilder.go:175-193). -/
def phiClauses (st : St) (ecs : List Nat) (n a b : Nat) : List Clause :=
  let mid := ecs.filter fun c => decide (st.h.rep c ≠ st.h.rep a ∧ st.h.rep c ≠ st.h.rep b)
  mid.flatMap (fun c => [[(vT st n a b c, false), (vE st n a c, true)], [(vT st n a b c, false), (vE st n c b, true)]]) ++
    [(vPhi st n a b, false) :: mid.map fun c => (vT st n a b c, true)]

/-- The arguments of two records side by side (src/Mods/equality/sateq/satbuilder.go:206-211); `none`: index out of range. -/
def zipArgs : List Nat → List Nat → Option (List (Nat × Nat))
  | [], _ => some []
  | _ :: _, [] => none
  | a :: l, b :: m => (zipArgs l m).map fun r => (a, b) :: r

/-- The pairs of records of `𝜓Constraint` (src/Mods/equality/sateq/satbuilder.go:199-203): a term with arguments of the first class, and
any term with the same symbol that is not in the same class. The second class plays no part. -/
def psiPairs (st : St) (a : Nat) : List (Rec × Rec) :=
  ((funsIn st a).filter fun r => decide (r.args ≠ [])).flatMap fun r =>
    (st.p.funs.filter fun s => decide (s.sym = r.sym ∧ st.h.rep r.cls ≠ st.h.rep s.cls)).map fun s => (r, s)

/-- `𝜓Constraint` (src/Mods/equality/sateq/satbuilder.go:195-220). -/
def psiClauses (st : St) (n a b : Nat) : Option (List Clause) :=
  ((psiPairs st a).mapM fun q => (zipArgs q.1.args q.2.args).map fun z =>
      z.map fun p => [(vF n q.1 q.2, false), (vE st n p.1 p.2, true)]).map fun ls =>
    ls.flatten ++ [(vPsi st n a b, false) :: (psiPairs st a).map fun q => (vF n q.1 q.2, true)]

/-- `buildEConstraints` (src/Mods/equality/sateq/satbuilder.go:153-173); `n` is `index-1`. -/
def eClauses (st : St) (ecs : List Nat) (N : Nat) : Option (List Clause) :=
  ((List.range N).mapM fun n => ((pairs ecs).mapM fun p =>
    if st.h.rep p.1 ≠ st.h.rep p.2 then
      (psiClauses st n p.1 p.2).map fun ps =>
        [(vE st (n + 1) p.1 p.2, false), (vE st n p.1 p.2, true), (vPhi st n p.1 p.2, true), (vPsi st n p.1 p.2, true)] ::
          (phiClauses st ecs n p.1 p.2 ++ ps)
    else some []).map List.flatten).map List.flatten

/-- The conditions of the goals (src/Mods/equality/sateq/satbuilder.go:225-232); the first argument is the number of the goal. -/
def goalClauses (st : St) (N : Nat) : Nat → List (List (Nat × Nat)) → List Clause
  | _, [] => []
  | i, g :: l => g.map (fun p => [(Var.C i, false), (vE st N p.1 p.2, true)]) ++ goalClauses st N (i + 1) l

/-- The clause that some goal is reached (src/Mods/equality/sateq/satbuilder.go:223-228, 234). -/
def goalClause (n : Nat) : Clause := (List.range n).map fun i => (Var.C i, true)

/-- `buildRepresentedConstraint` (src/Mods/equality/sateq/satbuilder.go:237-247). -/
def representedClauses (st : St) (ecs : List Nat) : List Clause :=
  ecs.map fun c => (termsIn st c).map fun t => (vR st c t, true)

/-- `buildSubtermRelationConstraints` (src/Mods/equality/sateq/satbuilder.go:249-263). -/
def subtermClauses (st : St) (ecs : List Nat) : List Clause :=
  ecs.flatMap fun c => (funsIn st c).flatMap fun r => r.args.map fun a => [(vR st c (.fn r), false), (vO st a c, true)]

/-- `buildTransitivityConstraints` (src/Mods/equality/sateq/satbuilder.go:265-278). -/
def transClauses (st : St) (ecs : List Nat) : List Clause :=
  ecs.flatMap fun i => (ecs.filter fun j => decide (st.h.rep i ≠ st.h.rep j)).flatMap fun j =>
    (ecs.filter fun k => decide (st.h.rep j ≠ st.h.rep k)).map fun k => [(vO st j i, false), (vO st k j, false), (vO st k i, true)]

/-- `buildSubstitutionConstraints` (src/Mods/equality/sateq/satbuilder.go:280-296). -/
def substClauses (st : St) (ecs : List Nat) : List Clause :=
  st.p.metas.flatMap fun x => (ecs.filter fun i => decide (st.h.rep i ≠ st.h.rep x.2)).flatMap fun i => ecs.flatMap fun k =>
    [[(vS st x.1 i, false), (vR st x.2 (.mv x.1 x.2), false), (vO st k i, false), (vO st k x.2, true)],
      [(vS st x.1 i, false), (vR st x.2 (.mv x.1 x.2), false), (vO st x.2 k, false), (vO st i k, true)]]

/-- `buildAcyclicityConstraints` (src/Mods/equality/sateq/satbuilder.go:298-302). -/
def acyclicClauses (st : St) (ecs : List Nat) : List Clause := ecs.map fun c => [(vO st c c, false)]

/-- `numberOfPairs` (src/Mods/equality/sateq/satbuilder.go:79-80). -/
def numPairs (ecs : List Nat) : Nat := ecs.length * (ecs.length - 1) / 2

/-- `buildSAT` (src/Mods/equality/sateq/satbuilder.go:60-111). `addClause` ignores a clause without literals
(src/Mods/equality/sateq/satbuilder.go:88-96). -/
def build (st : St) (ecs : List Nat) : Option (List Clause) :=
  (eClauses st ecs (numPairs ecs)).map fun es =>
    (mappingClauses st ecs ++ subsClauses st ecs ++ es ++ goalClauses st (numPairs ecs) 0 st.p.goals ++ [goalClause st.p.goals.length] ++
      representedClauses st ecs ++ subtermClauses st ecs ++ transClauses st ecs ++ substClauses st ecs ++ acyclicClauses st ecs).filter
        fun c => !c.isEmpty

/-- An assignment satisfies clauses. -/
def Sat (m : Var → Bool) (cs : List Clause) : Prop := ∀ c ∈ cs, ∃ l ∈ c, m l.1 = l.2

/-- The literals registered while the clauses are built: each is put into some clause. -/
def Registered (cs : List Clause) (v : Var) : Prop := ∃ c ∈ cs, ∃ b, (v, b) ∈ c

/-- `getSubstitution` (src/Mods/equality/sateq/subsgatherer.go:48-58): a true literal of each metavariable that has one; the order in which
the map is iterated over decides which. -/
def IsSub (m : Var → Bool) (cs : List Clause) (sub : Nat → Option Nat) : Prop :=
  ∀ x, (∀ c, sub x = some c → Registered cs (.S x c) ∧ m (.S x c) = true) ∧
    (sub x = none → ∀ c, Registered cs (.S x c) → m (.S x c) = false)

/-- `getTranslation` (src/Mods/equality/sateq/subsgatherer.go:60-75): a true literal of each class that has one, in the same way. -/
def IsCorr (m : Var → Bool) (cs : List Clause) (corr : Nat → Option TR) : Prop :=
  ∀ c, (∀ t, corr c = some t → Registered cs (.R c t) ∧ m (.R c t) = true) ∧
    (corr c = none → ∀ t, Registered cs (.R c t) → m (.R c t) = false)

/-- `translate` (src/Mods/equality/sateq/subsgatherer.go:77-88). `none`: a record is missing (use of a nil pointer), or the recursion is
deeper than the first argument. -/
def translate (st : St) (corr : Nat → Option TR) : Nat → Nat → Option UT
  | 0, _ => none
  | k + 1, c =>
    match corr (st.h.rep c) with
    | none => none
    | some (.mv x _) => some (.mv x)
    | some (.fn r) => (r.args.mapM (translate st corr k)).map (UT.fn r.sym)

/-- `translateSub` (src/Mods/equality/sateq/subsgatherer.go:90-100) over the metavariables of the problem. -/
def translateSub (st : St) (corr : Nat → Option TR) (sub : Nat → Option Nat) (k : Nat) : List (Nat × Nat) → Option (List (Nat × UT))
  | [] => some []
  | x :: l =>
    match sub x.1 with
    | none => translateSub st corr sub k l
    | some c => (translate st corr k c).bind fun t => (translateSub st corr sub k l).map fun r => (x.1, t) :: r

/-- `EquivalenceClasses` (src/Mods/equality/sateq/problem.go:81-88): the classes that have records, in some order. The indices
`partitionIndex` and `supertermIndex` always have the same keys (src/Mods/equality/sateq/problem.go:140-142, 170-173). -/
def Enum (st : St) (ecs : List Nat) : Prop := ecs.Nodup ∧ ∀ c, c ∈ ecs ↔ (st.p.super c).isSome

/-- `Problem.Solve`, `findSolution`, `solve` and `gatherSubs` (src/Mods/equality/sateq/problem.go:224-262,
src/Mods/equality/sateq/subsgatherer.go:41-46). -/
inductive Solve (st : St) : List (List (Nat × UT)) → Bool → Prop where
  | trivial : hasTrivialGoals st = true → Solve st [[]] true
  | ground : hasTrivialGoals st = false → st.p.metas = [] → Solve st [] false
  | sat {ecs : List Nat} {cs : List Clause} {m : Var → Bool} {sub : Nat → Option Nat} {corr : Nat → Option TR} {k : Nat}
      {b : List (Nat × UT)} : hasTrivialGoals st = false → st.p.metas ≠ [] → Enum st ecs → build st ecs = some cs → Sat m cs →
      IsSub m cs sub → IsCorr m cs corr → translateSub st corr sub k st.p.metas = some b → Solve st [b] true
  | unsat {ecs : List Nat} {cs : List Clause} : hasTrivialGoals st = false → st.p.metas ≠ [] → Enum st ecs → build st ecs = some cs →
      (¬ ∃ m, Sat m cs) → Solve st [] false

/-- The state when the equations and the goals have been added (`format`, src/Mods/equality/sateq/problem.go:67-79). -/
abbrev problem (k : Nat) (E : List (UT × UT)) (gs : List (List (UT × UT))) : Option St := final k E gs

/-! ### Specification -/

/-- The bindings of a substitution as equations. -/
def eqsOf (b : List (Nat × UT)) : List (UT × UT) := b.map fun p => (.mv p.1, p.2)

/-- Every equation of some goal follows from the assumed equations and the bindings. -/
def Solved (E : List (UT × UT)) (gs : List (List (UT × UT))) (b : List (Nat × UT)) : Prop :=
  ∃ g ∈ gs, ∀ e ∈ g, Entails (E ++ eqsOf b) e.1 e.2

/-- Some terms satisfy all the bindings. -/
def Realised (b : List (Nat × UT)) : Prop := ∃ θ : Nat → UT, ∀ p ∈ b, θ p.1 = p.2.inst θ

/-- **C79.** A reported substitution solves a goal. -/
def C79_statement : Prop := ∀ (ar : Nat → Nat) (E : List (UT × UT)) (gs : List (List (UT × UT))) (k : Nat) (st : St)
  (subs : List (List (Nat × UT))), (∀ e ∈ E, PairAr ar e) → (∀ g ∈ gs, ∀ e ∈ g, PairAr ar e) → problem (k + 1) E gs = some st →
  Solve st subs true → ∀ b ∈ subs, Solved E gs b

/-- Terms occurring in a term. -/
inductive Sub (s : UT) : UT → Prop where
  | refl : Sub s s
  | arg {f : Nat} {args : List UT} {t : UT} : t ∈ args → Sub s t → Sub s (.fn f args)

/-- Terms occurring in the equations or the goals. -/
def Occurs (E : List (UT × UT)) (gs : List (List (UT × UT))) (s : UT) : Prop :=
  (∃ e ∈ E, Sub s e.1 ∨ Sub s e.2) ∨ ∃ g ∈ gs, ∃ e ∈ g, Sub s e.1 ∨ Sub s e.2

end Verif.Equality.Sat
