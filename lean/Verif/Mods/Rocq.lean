import Verif.Mods.Gs3Spec
/-!
# The Rocq output (`src/Mods/rocq`)

`follow` models how `followProofSteps` turns a tree of sequents into tactics. The tactics are the model's
abstract syntax for the strings that the Go code writes: a tactic of the script is a constructor of `Tac`
with the names and terms that are printed. The second half of the file is a small model of Rocq: what
each of these tactics does to the first goal. It accepts less than Rocq does (`auto` and `congruence` only
find a contradiction between two hypotheses), never more: `run_sound` in `Verif.Mods.RocqProps` proves
that a script which it accepts proves its statement.

Simplifications:
* distinct symbols have distinct printed names, and these are names that Rocq accepts; printing and the
  declarations before the theorem (src/Mods/rocq/context.go) are in `Verif.Mods.RocqContext`;
* no rewriting steps (`REWRITE`) and no axioms registered by the deduction modulo theory module;
* `strings.Contains(name, "sko")` (proof.go:400-402) is a parameter of the model: a set of symbols; names
  of variables and metavariables do not contain "sko";
* Rocq's typing of the arguments of declared symbols is not modelled.
-/

namespace Verif.Rocq
open Verif.AST
open Verif.Gs3 (Rule Tree)

/-- The symbols whose name contains "sko", the symbol of equality, the symbols printed as `x0`, `x1`, … and
`goeland_I`. -/
structure Cfg where
  sko : Nat → Bool
  eq : Nat
  dummy : Nat → Nat
  ind : Nat

/-- The lemmas of the preamble that the script uses (src/Mods/rocq/context.go:181-251), in their `_s`
variants. -/
inductive Lem where
  | and | notor | notimply | notand | notequiv | or | imply | equiv
deriving DecidableEq

/-- The names that the script introduces: hypotheses `H0`, `H1`, … and constants. -/
inductive Name where
  | hyp (i : Nat)
  | const (p : Nat)
deriving DecidableEq

/-- The tactics of the script. -/
inductive Tac where
  /-- `apply Hi.` -/
  | apply (i : Nat)
  /-- `apply (goeland_…_s _ _ Hi).` -/
  | lem (l : Lem) (i : Nat)
  /-- `apply (goeland_…_s _ _ Hi); [ intros … | intros … ].` -/
  | branch (l : Lem) (i : Nat) (names : List (List Name))
  /-- `intros ….` -/
  | intros (names : List Name)
  /-- `apply NNPP.` -/
  | nnpp
  /-- `elim Hi.` -/
  | elim (i : Nat)
  /-- `generalize (Hi t).` -/
  | generalize (i : Nat) (t : Term)
  /-- `exists t.` -/
  | exists_ (t : Term)
  /-- `clear ….` -/
  | clear (n : Name)
  /-- `auto.` -/
  | auto
  /-- `congruence.` -/
  | congruence
deriving DecidableEq

/-! ## The Go code -/

/-- `isPredEqual` (src/Mods/rocq/proof.go:306-314). -/
def isPredEqual (cfg : Cfg) : Form → Bool
  | .neg (.pred p _ _) => p == cfg.eq
  | .pred p _ _ => p == cfg.eq
  | _ => false

/-- `isGroundTerm` (src/Mods/rocq/proof.go:400-402). -/
def ground (cfg : Cfg) (t : Term) : Bool := t.funs.all fun p => !cfg.sko p

/-- `findInConstants` (src/Mods/rocq/proof.go:348-359) with `hasBeenCreated` (391-398); the created terms
are functions. -/
def findInConstants (cfg : Cfg) (created : List Term) (t : Term) : Term :=
  if t ∈ created then
    match t with
    | .fn p _ _ => .fn p [] []
    | t => t
  else if ground cfg t then t
  else .fn cfg.ind [] []

mutual
/-- `getRealConstantName` (src/Mods/rocq/proof.go:325-346) on a term; type arguments are not printed. -/
def realTerm (cfg : Cfg) (created : List Term) : Term → Term
  | .fn p tys args =>
    if cfg.sko p then findInConstants cfg created (.fn p tys args)
    else .fn p [] (realTermL cfg created args)
  | .var i => findInConstants cfg created (.var i)
  | .mv i => findInConstants cfg created (.mv i)
def realTermL (cfg : Cfg) (created : List Term) : List Term → List Term
  | [] => []
  | a :: l => realTerm cfg created a :: realTermL cfg created l
end

/-- `getRealConstantName` (src/Mods/rocq/proof.go:325-328): without a term, `goeland_I`. -/
def realName (cfg : Cfg) (created : List Term) : Option Term → Term
  | none => .fn cfg.ind [] []
  | some t => realTerm cfg created t

/-- `addTermGenerated` (src/Mods/rocq/proof.go:316-323): the name of the new constant, the created terms
and the counter of constants without a term. -/
def addTerm (cfg : Cfg) (created : List Term) (d : Nat) : Option Term → Option (Nat × List Term × Nat)
  | none => some (cfg.dummy d, created, d + 1)
  | some (.fn p tys args) => some (p, created ++ [.fn p tys args], d)
  | some _ => none

/-- `introduceList` (src/Mods/rocq/proof.go:283-289): the names of the new hypotheses. -/
def newNames (hs gs : List Form) : List Name := (List.range gs.length).map fun k => .hyp (hs.length + k)

/-- What a step gives: tactics, the hypotheses for each child, the created terms and the counter. -/
abbrev Out := List Tac × List (List Form) × List Term × Nat

/-- `alphaStep` (src/Mods/rocq/proof.go:181-186). -/
def alphaStep (forms : List (List Form)) (hs : List Form) (created : List Term) (d : Nat) (tac : Tac) :
    Option Out :=
  match forms[0]? with
  | none => none
  | some gs => some ([tac, .intros (newNames hs gs)], [hs ++ gs], created, d)

/-- The loop of `betaStep` over the children (src/Mods/rocq/proof.go:193-198). -/
def betaLoop (forms : List (List Form)) (hs : List Form) : List Nat → Option (List (List Name) × List (List Form))
  | [] => some ([], [])
  | i :: l =>
    match forms[i]?, betaLoop forms hs l with
    | some gs, some (ns, hss) => some (newNames hs gs :: ns, (hs ++ gs) :: hss)
    | _, _ => none

/-- `betaStep` (src/Mods/rocq/proof.go:188-201). -/
def betaStep (forms : List (List Form)) (children : Nat) (hs : List Form) (created : List Term) (d target : Nat)
    (l : Lem) : Option Out :=
  match betaLoop forms hs (List.range children) with
  | none => none
  | some (ns, hss) => some ([.branch l target ns], hss, created, d)

/-- `deltaStep` (src/Mods/rocq/proof.go:203-211); `before` and `after` are the tactics of the format around
the name. -/
def deltaStep (cfg : Cfg) (forms : List (List Form)) (t : Option Term) (hs : List Form) (created : List Term)
    (d : Nat) (before after : List Tac) : Option Out :=
  match forms[0]?, addTerm cfg created d t with
  | some gs, some (p, created', d') =>
    some (before ++ [.intros [.const p]] ++ after ++ [.intros (newNames hs gs)], [hs ++ gs], created', d')
  | _, _ => none

/-- `gammaStep` (src/Mods/rocq/proof.go:213-219). -/
def gammaStep (cfg : Cfg) (forms : List (List Form)) (t : Option Term) (hs : List Form) (created : List Term)
    (d : Nat) (tacs : Term → List Tac) : Option Out :=
  match forms[0]? with
  | none => none
  | some gs =>
    some (tacs (realName cfg created t) ++ [.intros (newNames hs gs)], [hs ++ gs], created, d)

/-- `Lib.ListIndexOf` (src/Lib/list.go:237-240). -/
def indexOf (f : Form) (hs : List Form) : Option Nat := hs.findIdx? fun g => decide (g = f)

/-- `cleanHypotheses` (src/Mods/rocq/proof.go:367-385) and the weakening case of `makeStep` (167-172). -/
def weakenStep (f : Form) (t : Option Term) (hs : List Form) (created : List Term) (d : Nat) : Option Out :=
  match t with
  | some (.fn p _ _) => some ([.clear (.const p)], [hs], created, d)
  | some _ => none
  | none =>
    match indexOf f hs with
    | none => none
    | some i => some ([.clear (.hyp i)], [hs.set i .top], created, d)

/-- `makeStep` (src/Mods/rocq/proof.go:101-179): `none` is an anomaly or a panic. Reintroductions have no case
in the code. -/
def makeStep (cfg : Cfg) (rule : Rule) (f : Form) (t : Option Term) (forms : List (List Form)) (children : Nat)
    (hs : List Form) (created : List Term) (d : Nat) : Option Out :=
  match (match indexOf f hs with
    | some i => some i
    | none => if isPredEqual cfg f then some 0 else none) with
  | none => none
  | some i =>
    match rule with
    | .ax => some ([if isPredEqual cfg f then .congruence else .auto], [hs], created, d)
    | .nnot => alphaStep forms hs created d (.apply i)
    | .and => alphaStep forms hs created d (.lem .and i)
    | .nor => alphaStep forms hs created d (.lem .notor i)
    | .nimp => alphaStep forms hs created d (.lem .notimply i)
    | .nand => betaStep forms children hs created d i .notand
    | .nequ => betaStep forms children hs created d i .notequiv
    | .or => betaStep forms children hs created d i .or
    | .imp => betaStep forms children hs created d i .imply
    | .equ => betaStep forms children hs created d i .equiv
    | .nall => deltaStep cfg forms t hs created d [.apply i] [.nnpp]
    | .ex => deltaStep cfg forms t hs created d [.elim i] []
    | .all => gammaStep cfg forms t hs created d fun u => [.generalize i u]
    | .nex => gammaStep cfg forms t hs created d fun u => [.apply i, .exists_ u, .nnpp]
    | .w => weakenStep f t hs created d
    | .r => some ([], [hs], created, d)

mutual
/-- `followProofSteps` (src/Mods/rocq/proof.go:80-94): the tactics and the counter. -/
def follow (cfg : Cfg) : Tree → List Form → List Term → Nat → Option (List Tac × Nat)
  | .hole cs, hs, created, d => followL cfg cs (cs.map fun _ => hs) created d
  | .node rule f t forms cs, hs, created, d =>
    match makeStep cfg rule f t forms cs.length hs created d with
    | none => none
    | some (tacs, hss, created', d') =>
      match followL cfg cs hss created' d' with
      | none => none
      | some (rest, d'') => some (tacs ++ rest, d'')
/-- The loop over the children (src/Mods/rocq/proof.go:86-92): a missing list of hypotheses is an index out
of range. -/
def followL (cfg : Cfg) : List Tree → List (List Form) → List Term → Nat → Option (List Tac × Nat)
  | [], _, _, d => some ([], d)
  | _ :: _, [], _, _ => none
  | c :: cs, hs :: hss, created, d =>
    match follow cfg c hs created d with
    | none => none
    | some (tacs, d') =>
      match followL cfg cs hss created d' with
      | none => none
      | some (rest, d'') => some (tacs ++ rest, d'')
end

/-- `processMainFormula` (src/Mods/rocq/proof.go:241-253): axioms and conjecture. The type assertion on the
last conjunct panics if it is no negation. -/
def processMain : Form → Option (List Form × Form)
  | .neg c => some ([], c)
  | .and fs =>
    match fs.getLast? with
    | some (.neg c) => some (fs.dropLast, c)
    | _ => none
  | f => some ([], f)

/-- `makeImpChain` (src/Mods/rocq/proof.go:267-274) on the axioms and a last formula. -/
def impChain : List Form → Form → Form
  | [], c => c
  | a :: l, c => .imp a (impChain l c)

/-- `makeRocqProofFromGS3` (src/Mods/rocq/proof.go:52-78): the statement of the theorem and its script. -/
def makeOutput (cfg : Cfg) : Tree → Option (Form × List Tac)
  | .hole _ => none
  | .node rule f t forms cs =>
    match processMain f with
    | none => none
    | some (axioms, c) =>
      let start : List Tac :=
        (if axioms.isEmpty then [] else [.intros (newNames [] axioms)]) ++ [.intros [.hyp axioms.length]]
      match (if axioms.isEmpty then some (Tree.node rule f t forms cs) else cs[0]?) with
      | none => none
      | some T =>
        match follow cfg T (axioms ++ [.neg c]) [] 0 with
        | none => none
        | some (tacs, _) => some (impChain axioms (.neg (.neg c)), start ++ tacs)

/-! ## Reading formulas in Rocq -/

/-- `a /\ b /\ c` is read as `a /\ (b /\ c)` (printing: src/AST/formsDef.go:378-383). -/
def andN : List Form → Form
  | [] => .and []
  | [a] => a
  | a :: b :: l => .and [a, andN (b :: l)]

/-- `a \/ b \/ c` is read as `a \/ (b \/ c)` (printing: src/AST/formsDef.go:254-259). -/
def orN : List Form → Form
  | [] => .or []
  | [a] => a
  | a :: b :: l => .or [a, orN (b :: l)]

mutual
/-- The term that stands for `t` when the symbols of `C` are constants of the context: a Skolem term is
the constant introduced for it. -/
def rocqTerm (C : List Nat) : Term → Term
  | .var i => .var i
  | .mv i => .mv i
  | .fn p tys args => if p ∈ C then .fn p [] [] else .fn p tys (rocqTermL C args)
def rocqTermL (C : List Nat) : List Term → List Term
  | [] => []
  | a :: l => rocqTerm C a :: rocqTermL C l
end

mutual
/-- The formula that stands for `f` in Rocq. -/
def rocqForm (C : List Nat) : Form → Form
  | .pred p tys args => .pred p tys (rocqTermL C args)
  | .top => .top
  | .bot => .bot
  | .neg f => .neg (rocqForm C f)
  | .and fs => andN (rocqFormL C fs)
  | .or fs => orN (rocqFormL C fs)
  | .imp f g => .imp (rocqForm C f) (rocqForm C g)
  | .equ f g => .equ (rocqForm C f) (rocqForm C g)
  | .all vs f => .all vs (rocqForm C f)
  | .ex vs f => .ex vs (rocqForm C f)
def rocqFormL (C : List Nat) : List Form → List Form
  | [] => []
  | f :: fs => rocqForm C f :: rocqFormL C fs
end

mutual
/-- No conjunction or disjunction of nothing (printed as an empty string) and no quantifier without
variable. -/
def parses : Form → Bool
  | .pred _ _ _ => true
  | .top => true
  | .bot => true
  | .neg f => parses f
  | .and fs => !fs.isEmpty && parsesL fs
  | .or fs => !fs.isEmpty && parsesL fs
  | .imp f g => parses f && parses g
  | .equ f g => parses f && parses g
  | .all vs f => !vs.isEmpty && parses f
  | .ex vs f => !vs.isEmpty && parses f
def parsesL : List Form → Bool
  | [] => true
  | f :: fs => parses f && parsesL fs
end

/-! ## Rocq -/

mutual
/-- Replacement of a variable in a term. -/
def putT (x : Nat) (u : Term) : Term → Term
  | .var i => if i = x then u else .var i
  | .mv i => .mv i
  | .fn p tys args => .fn p tys (putTL x u args)
def putTL (x : Nat) (u : Term) : List Term → List Term
  | [] => []
  | a :: l => putT x u a :: putTL x u l
end

mutual
/-- Replacement of the free occurrences of a variable by a term without variables. -/
def put (x : Nat) (u : Term) : Form → Form
  | .pred p tys args => .pred p tys (putTL x u args)
  | .top => .top
  | .bot => .bot
  | .neg f => .neg (put x u f)
  | .and fs => .and (putL x u fs)
  | .or fs => .or (putL x u fs)
  | .imp f g => .imp (put x u f) (put x u g)
  | .equ f g => .equ (put x u f) (put x u g)
  | .all vs f => if x ∈ vs.map TVar.index then .all vs f else .all vs (put x u f)
  | .ex vs f => if x ∈ vs.map TVar.index then .ex vs f else .ex vs (put x u f)
def putL (x : Nat) (u : Term) : List Form → List Form
  | [] => []
  | f :: fs => put x u f :: putL x u fs
end

/-- `forall x y, P` is `forall x, forall y, P`. -/
def allRest (vs : List TVar) (f : Form) : Form := if vs.isEmpty then f else .all vs f
def exRest (vs : List TVar) (f : Form) : Form := if vs.isEmpty then f else .ex vs f

/-- A goal: constants and hypotheses of the context, conclusion. -/
structure Goal where
  consts : List Nat
  hyps : List (Nat × Form)
  concl : Form

mutual
/-- The term is built from constants of the context, declared symbols and metavariables (which are declared
as parameters, src/Mods/rocq/context.go:173-179). -/
def inScope (G C : List Nat) : Term → Bool
  | .var _ => false
  | .mv _ => true
  | .fn p tys args =>
    if p ∈ C then tys.isEmpty && args.isEmpty
    else decide (p ∈ G) && inScopeL G C args
def inScopeL (G C : List Nat) : List Term → Bool
  | [] => true
  | a :: l => inScope G C a && inScopeL G C l
end

def lookup (g : Goal) (i : Nat) : Option Form := (g.hyps.find? fun e => e.1 == i).map (·.2)

/-- `intro n`: the name must be new. A hypothesis of the name of a constant, and a constant of the name of a
hypothesis, are never needed and refused. -/
def intro1 (n : Name) (g : Goal) : Option Goal :=
  match n, g.concl with
  | .hyp i, .imp a b => if i ∈ g.hyps.map (·.1) then none else some { g with hyps := g.hyps ++ [(i, a)], concl := b }
  | .hyp i, .neg a => if i ∈ g.hyps.map (·.1) then none else some { g with hyps := g.hyps ++ [(i, a)], concl := .bot }
  | .const p, .all (v :: vs) f =>
    if p ∈ g.consts ∨ p ∈ Form.funsL (g.hyps.map (·.2)) ∨ p ∈ g.concl.funs then none
    else some { g with consts := g.consts ++ [p], concl := put v.index (.fn p [] []) (allRest vs f) }
  | _, _ => none

def introsN : List Name → Goal → Option Goal
  | [], g => some g
  | n :: ns, g =>
    match intro1 n g with
    | none => none
    | some g' => introsN ns g'

/-- The premises of a lemma of the preamble for the conclusion `False`
(src/Mods/rocq/context.go:191-247). -/
def lemGoals : Lem → Form → Option (List Form)
  | .and, .and [p, q] => some [.imp p (.imp q .bot)]
  | .notor, .neg (.or [p, q]) => some [.imp (.neg p) (.imp (.neg q) .bot)]
  | .notimply, .neg (.imp p q) => some [.imp p (.imp (.neg q) .bot)]
  | .notand, .neg (.and [p, q]) => some [.imp (.neg p) .bot, .imp (.neg q) .bot]
  | .notequiv, .neg (.equ p q) => some [.imp (.neg p) (.imp q .bot), .imp p (.imp (.neg q) .bot)]
  | .or, .or [p, q] => some [.imp p .bot, .imp q .bot]
  | .imply, .imp p q => some [.imp (.neg p) .bot, .imp q .bot]
  | .equiv, .equ p q => some [.imp (.neg p) (.imp (.neg q) .bot), .imp p (.imp q .bot)]
  | _, _ => none

/-- Two hypotheses contradict each other or one is false. -/
def contradictory (fs : List Form) : Bool :=
  fs.any fun f => decide (f = .bot) || decide (f = .neg .top) || decide (Form.neg f ∈ fs)

def introsBranches : List Form → List (List Name) → Goal → Option (List Goal)
  | [], [], _ => some []
  | f :: fs, ns :: nss, g =>
    match introsN ns { g with concl := f }, introsBranches fs nss g with
    | some g', some gs => some (g' :: gs)
    | _, _ => none
  | _, _, _ => none

/-- The effect of a tactic on a goal; `G` are the declared symbols. `intros` without names lets Rocq choose
the names and is refused. -/
def tac (G : List Nat) (g : Goal) : Tac → Option (List Goal)
  | .apply i =>
    match lookup g i, g.concl with
    | some (.neg a), .bot => some [{ g with concl := a }]
    | _, _ => none
  | .lem l i =>
    match lookup g i, g.concl with
    | some f, .bot => (lemGoals l f).map fun fs => fs.map fun c => { g with concl := c }
    | _, _ => none
  | .branch l i nss =>
    match lookup g i, g.concl with
    | some f, .bot =>
      match lemGoals l f with
      | some fs => if nss.any List.isEmpty then none else introsBranches fs nss g
      | none => none
    | _, _ => none
  | .intros ns => if ns.isEmpty then none else (introsN ns g).map fun g' => [g']
  | .nnpp => some [{ g with concl := .neg (.neg g.concl) }]
  | .elim i =>
    match lookup g i, g.concl with
    | some (.ex (v :: vs) f), .bot => some [{ g with concl := .all [v] (.imp (exRest vs f) .bot) }]
    | _, _ => none
  | .generalize i t =>
    match lookup g i with
    | some (.all (v :: vs) f) =>
      if inScope G g.consts t then some [{ g with concl := .imp (put v.index t (allRest vs f)) g.concl }] else none
    | _ => none
  | .exists_ t =>
    match g.concl with
    | .ex (v :: vs) f =>
      if inScope G g.consts t then some [{ g with concl := put v.index t (exRest vs f) }] else none
    | _ => none
  | .clear (.hyp i) =>
    if i ∈ g.hyps.map (·.1) then some [{ g with hyps := g.hyps.filter fun e => e.1 != i }] else none
  | .clear (.const p) =>
    if p ∈ g.consts ∧ p ∉ Form.funsL (g.hyps.map (·.2)) ∧ p ∉ g.concl.funs then
      some [{ g with consts := g.consts.filter (· != p) }]
    else none
  | .auto => if g.concl = .bot ∧ contradictory (g.hyps.map (·.2)) then some [] else none
  | .congruence => if g.concl = .bot ∧ contradictory (g.hyps.map (·.2)) then some [] else none

/-- A script works on the first goal. -/
def run (G : List Nat) : List Tac → List Goal → Option (List Goal)
  | [], gs => some gs
  | _ :: _, [] => none
  | t :: ts, g :: gs =>
    match tac G g t with
    | none => none
    | some new => run G ts (new ++ gs)

/-- Rocq accepts the script as a proof of the statement (`Qed`: no goal is left). -/
def accepts (cfg : Cfg) (stmt : Form) (script : List Tac) : Bool :=
  parses stmt &&
  match run (cfg.ind :: stmt.funs) script [⟨[], [], rocqForm [] stmt⟩] with
  | some [] => true
  | _ => false

end Verif.Rocq
