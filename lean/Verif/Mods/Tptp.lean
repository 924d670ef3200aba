import Verif.Mods.RocqProps
/-!
# The TPTP output (`src/Mods/tptp`)

`follow` models how `followProofSteps` turns a tree of sequents into the steps of a derivation in the TPTP
format for sequents. A printed line `fof(name, plain, [Γ] --> [Δ], inference(rule, [status(thm), …], [premises])).`
is a `Line.step`. The second half of the file is a small checker for such derivations: what a step must look
like to be an instance of the rule that it names. Sequents are read as sets, the main formula of a step may be
kept or left out in the premises, conjunctions and disjunctions may have any number of components, and the
premises must be printed before the step that uses them. `check_sound` in `Verif.Mods.TptpProps` proves that a
derivation which it accepts proves its conclusion from the axioms.

Simplifications:
* distinct symbols have distinct printed names, and these are names that a reader of the format accepts;
  distinct axioms have distinct indices, so an axiom is named by its position here;
* no rewriting steps (`REWRITE`);
* an empty sequent with children, whose children would be printed under the number of their node in the
  tableau (proof.go:95-97), is not modelled; `makeProof` of the module gs3 makes no such sequent
  (src/Mods/gs3/proof.go:129-162);
* printed formulas are formulas.
-/

namespace Verif.Tptp
open Verif.AST
open Verif.Gs3 (Rule Tree)
open Verif.Rocq (put allRest exRest)

/-- The symbol of equality, the symbols printed as `sko_0`, `sko_1`, … and the symbol `Goeland_I`
(src/Mods/tptp/proof.go:58-63). -/
structure Cfg where
  eq : Nat
  sko : Nat → Nat
  dummy : Nat

/-- The names of the steps: `f7`, `f7ext2`, `f7ext2ext1`, `ac3`, and the axiom in position 3. -/
inductive Name where
  | f (n : Nat)
  | ext (n k : Nat)
  | extc (n k : Nat)
  | ac (i : Nat)
  | ax (i : Nat)
deriving DecidableEq

/-- The rules with their parameters. -/
inductive Inf where
  | leftHyp (i : Nat)
  | congruence
  | leftNotNot (i : Nat)
  | leftAnd (i : Nat)
  | leftNotOr (i : Nat)
  | leftNotImplies (i : Nat)
  | leftNotAnd (i : Nat)
  | leftOr (i : Nat)
  | leftImp2 (i : Nat)
  | leftIff (i : Nat)
  | leftNotIff (i : Nat)
  | leftNotAll (i : Nat) (c : Term)
  | leftExists (i : Nat) (c : Term)
  | leftForall (i : Nat) (t : Term)
  | leftNotEx (i : Nat) (t : Term)
  | leftWeaken (i : Nat)
  | hyp (i : Nat)
  | rightNot (i : Nat)
  | cut (i : Nat)
deriving DecidableEq

/-- A printed step. -/
structure Step where
  name : Name
  left : List Form
  right : List Form
  inf : Inf
  prems : List Name
deriving DecidableEq

/-- A printed line: a step, or `leftWeaken t`. -/
inductive Line where
  | step (s : Step)
  | junk (t : Term)
deriving DecidableEq

/-! ## The Go code -/

/-- `get` (src/Mods/tptp/proof.go:599-610): `none` is the anomaly. -/
def get (f : Form) (hs : List Form) : Option Nat := Rocq.indexOf f hs

/-- `isPredEqual` (src/Mods/tptp/proof.go:612-620). -/
def isPredEqual (cfg : Cfg) : Form → Bool
  | .neg (.pred p _ _) => p == cfg.eq
  | .pred p _ _ => p == cfg.eq
  | _ => false

/-- `findIndexPos` (src/Mods/tptp/proof.go:112-127). -/
def findIndexPos (f : Form) (hs : List Form) (target : Nat) : Option Nat :=
  match f with
  | .neg g => get g hs
  | _ => some target

/-- `Lib.ListAdd` (src/Lib/list.go:197-209): only new elements are added. -/
def add (hs : List Form) : List Form → List Form
  | [] => hs
  | f :: fs => if f ∈ hs then add hs fs else add (hs ++ [f]) fs

/-- `getCreatedFromOriginal` (src/Mods/tptp/proof.go:692-699) on the list of the terms for which constants
have been created, from position `k`: `none` is the call of a method of nil. -/
def created (cfg : Cfg) (k : Nat) (t : Term) : List (Option Term) → Option Term
  | [] => some t
  | none :: _ => none
  | some u :: l => if u = t then some (.fn (cfg.sko k) [] []) else created cfg (k + 1) t l

/-- `findInConstants` (src/Mods/tptp/proof.go:684-690). -/
def findInConstants (cfg : Cfg) (orig : List (Option Term)) : Option Term → Option Term
  | none => some (.fn cfg.dummy [] [])
  | some t => created cfg 0 t orig

/-- The formula in which the term has been replaced. -/
def repl (old new : Term) (f : Form) : Form := (f.replaceTermByTerm old new).1

mutual
/-- `updateSkolemSymbol` (src/Mods/tptp/proof.go:637-669): `none` is an index out of range, for an empty sequent
(`GetTargetForm`, src/Mods/gs3/sequent.go:106) or missing generated formulas (`GetResultFormulasOfChildren`,
src/Mods/gs3/sequent.go:126-134). -/
def update (old new : Term) : Tree → Option Tree
  | .hole _ => none
  | .node rule f t forms cs =>
    if forms.length < cs.length then none
    else
      match updateL old new cs with
      | none => none
      | some cs' =>
        some (.node rule (repl old new f) (t.map (Term.replaceSubTermBy old new))
          ((forms.take cs.length).map (·.map (repl old new))) cs')
def updateL (old new : Term) : List Tree → Option (List Tree)
  | [] => some []
  | c :: cs =>
    match update old new c, updateL old new cs with
    | some c', some cs' => some (c' :: cs')
    | _, _ => none
end

mutual
/-- No predicate of the formula has arguments: the replacement of a nil term does not call a method of it
(src/AST/formula.go:66-111). -/
def noArgs : Form → Bool
  | .pred _ _ args => args.isEmpty
  | .top => true
  | .bot => true
  | .neg f => noArgs f
  | .and fs => noArgsL fs
  | .or fs => noArgsL fs
  | .imp f g => noArgs f && noArgs g
  | .equ f g => noArgs f && noArgs g
  | .all _ f => noArgs f
  | .ex _ f => noArgs f
def noArgsL : List Form → Bool
  | [] => true
  | f :: fs => noArgs f && noArgsL fs
end

mutual
/-- The formulas that `updateSkolemSymbol` visits have no arguments. -/
def bare : Tree → Bool
  | .hole _ => true
  | .node _ f _ forms cs => noArgs f && (forms.take cs.length).all noArgsL && bareL cs
def bareL : List Tree → Bool
  | [] => true
  | c :: cs => bare c && bareL cs
end

/-- The global variables: `id_proof_step` and `original_term` (src/Mods/tptp/proof.go:55-59);
`constant_created` has the length of `original_term`. -/
structure St where
  cnt : Nat
  orig : List (Option Term)

/-- What `makeStep` gives: the printed lines, for each child the hypotheses and the number under which it is
printed (`none`: the number of its node in the tableau), the children and the globals. -/
structure Out where
  lines : List Line
  hyps : List (List Form)
  ids : List (Option Nat)
  children : List Tree
  st : St

/-- The numbers of `n` children (`incrByOne`, src/Mods/tptp/proof.go:622-629). -/
def childIds (s : St) (n : Nat) : List Nat := (List.range n).map fun k => s.cnt + 1 + k

def St.incr (s : St) (n : Nat) : St := { s with cnt := s.cnt + n }

/-- `alphaStep` (src/Mods/tptp/proof.go:207-227) and the end of `gammaStep` (276-281, 285-299). -/
def oneStep (id : Nat) (forms : List (List Form)) (cs : List Tree) (hs : List Form) (inf : Inf) (st : St) :
    Option Out :=
  match forms[0]? with
  | none => none
  | some gs =>
    let ids := childIds st cs.length
    some ⟨[.step ⟨.f id, hs, [], inf, ids.map .f⟩], [add hs gs], ids.map some, cs, st.incr cs.length⟩

/-- The loops of `betaStep`, `EquStep` and `NotEquStep` over the children (src/Mods/tptp/proof.go:231-238,
336-343, 430-437). -/
def branchHyps (forms : List (List Form)) (hs : List Form) (n : Nat) : Option (List (List Form)) :=
  (List.range n).mapM fun i => (forms[i]?).map (add hs)

/-- `betaStep` (src/Mods/tptp/proof.go:229-251). -/
def betaStep (id : Nat) (forms : List (List Form)) (cs : List Tree) (hs : List Form) (inf : Inf) (st : St) :
    Option Out :=
  match branchHyps forms hs cs.length with
  | none => none
  | some hss =>
    let ids := childIds st cs.length
    some ⟨[.step ⟨.f id, hs, [], inf, ids.map .f⟩], hss, ids.map some, cs, st.incr cs.length⟩

/-- `gammaStep` (src/Mods/tptp/proof.go:280-303). -/
def gammaStep (cfg : Cfg) (id : Nat) (t : Option Term) (forms : List (List Form)) (cs : List Tree) (hs : List Form)
    (inf : Term → Inf) (st : St) : Option Out :=
  match findInConstants cfg st.orig t with
  | none => none
  | some u => oneStep id forms cs hs (inf u) st

/-- `updateSkolemSymbol` for a new constant: a nil term panics on the first argument of a predicate and
otherwise changes nothing. -/
def updateNew (old : Option Term) (new : Term) (T : Tree) : Option Tree :=
  match old with
  | some old => update old new T
  | none => if bare T then update new new T else none

/-- `deltaStep` (src/Mods/tptp/proof.go:253-278) with `createNewConstant` (672-681). -/
def deltaStep (cfg : Cfg) (id : Nat) (rule : Rule) (f : Form) (t : Option Term) (forms : List (List Form)) (cs : List Tree)
    (hs : List Form) (inf : Term → Inf) (st : St) : Option Out :=
  let new : Term := .fn (cfg.sko st.orig.length) [] []
  match updateNew t new (.node rule f t forms cs) with
  | some (.node _ _ _ (gs :: _) cs') =>
    let ids := childIds st cs.length
    some ⟨[.step ⟨.f id, hs, [], inf new, ids.map .f⟩], [add hs gs], ids.map some, cs',
      { cnt := st.cnt + cs.length, orig := st.orig ++ [t] }⟩
  | _ => none

/-- `weakenStep` (src/Mods/tptp/proof.go:305-322): the printed hypotheses are those after the removal. -/
def weakenStep (id : Nat) (cs : List Tree) (hs : List Form) (target : Nat) (st : St) : Option Out :=
  some ⟨[.step ⟨.f id, hs.eraseIdx target, [], .leftWeaken target, [.f (st.cnt + 1)]⟩], [hs.eraseIdx target],
    cs.map fun _ => some (st.cnt + 1), cs, st.incr 1⟩

/-- `EquStep` (src/Mods/tptp/proof.go:331-427). -/
def equStep (id : Nat) (forms : List (List Form)) (cs : List Tree) (hs : List Form) (target : Nat) (st : St) :
    Option Out :=
  match branchHyps forms hs cs.length, hs[target]?, childIds st cs.length with
  | some (h0 :: h1 :: hss), some (.equ A B), i0 :: i1 :: is =>
    let newHyp := add hs [.imp A B, .imp B A]
    let newHypS2 := add newHyp [.neg A]
    let newHypS2C := add newHypS2 [A]
    let newHypS3 := add newHyp [B]
    let newHypS3C := add newHypS3 [.neg B]
    match get (.imp A B) newHyp, get (.imp B A) newHypS2, (get A newHypS2C).bind (findIndexPos A newHypS2C),
        get (.imp B A) newHypS3, (get B newHypS3C).bind (findIndexPos B newHypS3C) with
    | some k1, some k2, some k2c, some k3, some k3c =>
      some ⟨[.step ⟨.extc id 3, newHypS3C, [], .leftHyp k3c, []⟩,
             .step ⟨.ext id 3, newHypS3, [], .leftImp2 k3, [.extc id 3, .f i1]⟩,
             .step ⟨.extc id 2, newHypS2C, [], .leftHyp k2c, []⟩,
             .step ⟨.ext id 2, newHypS2, [], .leftImp2 k2, [.f i0, .extc id 2]⟩,
             .step ⟨.ext id 1, newHyp, [], .leftImp2 k1, [.ext id 2, .ext id 3]⟩,
             .step ⟨.f id, hs, [], .leftIff target, [.ext id 1]⟩],
            add h0 newHypS2 :: add h1 newHypS3 :: hss, (i0 :: i1 :: is).map some, cs, st.incr cs.length⟩
    | _, _, _, _, _ => none
  | _, _, _ => none

/-- `NotEquStep` (src/Mods/tptp/proof.go:429-487). -/
def notEquStep (id : Nat) (forms : List (List Form)) (cs : List Tree) (hs : List Form) (target : Nat) (st : St) :
    Option Out :=
  match branchHyps forms hs cs.length, hs[target]?, childIds st cs.length with
  | some (h0 :: h1 :: hss), some (.neg (.equ A B)), i0 :: i1 :: is =>
    let newHyp1 := add hs [.neg (.imp A B)]
    let newHyp2 := add hs [.neg (.imp B A)]
    match get (.neg (.imp A B)) newHyp1, get (.neg (.imp B A)) newHyp2 with
    | some k1, some k2 =>
      some ⟨[.step ⟨.ext id 2, newHyp2, [], .leftNotImplies k2, [.f i0]⟩,
             .step ⟨.ext id 1, newHyp1, [], .leftNotImplies k1, [.f i1]⟩,
             .step ⟨.f id, hs, [], .leftNotIff target, [.ext id 1, .ext id 2]⟩],
            add h0 newHyp2 :: add h1 newHyp1 :: hss, (i0 :: i1 :: is).map some, cs, st.incr cs.length⟩
    | _, _ => none
  | _, _, _ => none

/-- `makeStep` (src/Mods/tptp/proof.go:129-205): `none` is an anomaly or a panic. -/
def makeStep (cfg : Cfg) (id : Nat) (rule : Rule) (f : Form) (t : Option Term) (forms : List (List Form))
    (cs : List Tree) (hs : List Form) (st : St) : Option Out :=
  match get f hs with
  | none => none
  | some i =>
    match rule with
    | .ax =>
      if isPredEqual cfg f then
        some ⟨[.step ⟨.f id, hs, [], .congruence, []⟩], [hs], cs.map fun _ => none, cs, st⟩
      else
        match findIndexPos f hs i with
        | none => none
        | some k => some ⟨[.step ⟨.f id, hs, [], .leftHyp k, []⟩], [hs], cs.map fun _ => none, cs, st⟩
    | .nnot => oneStep id forms cs hs (.leftNotNot i) st
    | .and => oneStep id forms cs hs (.leftAnd i) st
    | .nor => oneStep id forms cs hs (.leftNotOr i) st
    | .nimp => oneStep id forms cs hs (.leftNotImplies i) st
    | .nand => betaStep id forms cs hs (.leftNotAnd i) st
    | .nequ => notEquStep id forms cs hs i st
    | .or => betaStep id forms cs hs (.leftOr i) st
    | .imp => betaStep id forms cs hs (.leftImp2 i) st
    | .equ => equStep id forms cs hs i st
    | .nall => deltaStep cfg id rule f t forms cs hs (.leftNotAll i) st
    | .ex => deltaStep cfg id rule f t forms cs hs (.leftExists i) st
    | .all => gammaStep cfg id t forms cs hs (.leftForall i) st
    | .nex => gammaStep cfg id t forms cs hs (.leftNotEx i) st
    | .w =>
      match t with
      | some t =>
        match created cfg 0 t st.orig with
        | none => none
        | some u => some ⟨[.junk u], [hs], cs.map fun _ => none, cs, st⟩
      | none => weakenStep id cs hs i st
    | .r => some ⟨[], [hs], cs.map fun _ => none, cs, st⟩

/-- The loop of `followProofSteps` over the children (src/Mods/tptp/proof.go:97-104): a missing list of hypotheses
is an index out of range. -/
def followAll (g : Tree → List Form → Option Nat → St → Option (List Line × St)) :
    List Tree → List (List Form) → List (Option Nat) → St → Option (List Line × St)
  | [], _, _, st => some ([], st)
  | c :: cs, hs :: hss, id :: ids, st =>
    match g c hs id st with
    | none => none
    | some (lines, st') =>
      match followAll g cs hss ids st' with
      | none => none
      | some (rest, st'') => some (lines ++ rest, st'')
  | _ :: _, _, _, _ => none

/-- `followProofSteps` (src/Mods/tptp/proof.go:88-110): the lines of the children, then those of the step. The
code recurses on the children that `makeStep` has updated; the first argument bounds the depth. -/
def follow (cfg : Cfg) : Nat → Tree → List Form → Option Nat → St → Option (List Line × St)
  | 0, _, _, _, _ => none
  | _ + 1, .hole [], _, _, st => some ([], st)
  | _ + 1, .hole (_ :: _), _, _, _ => none
  | _ + 1, .node _ _ _ _ _, _, none, _ => none
  | n + 1, .node rule f t forms cs, hs, some id, st =>
    match makeStep cfg id rule f t forms cs hs st with
    | none => none
    | some o =>
      match followAll (follow cfg n) o.children (o.hyps.map (add hs)) o.ids o.st with
      | none => none
      | some (lines, st') => some (lines ++ o.lines, st')

/-- `processMainFormula` (src/Mods/tptp/proof.go:492-508): axioms and conjecture. -/
def processMain : Form → List Form × Form
  | .neg c => ([], c)
  | .and fs =>
    match fs.getLast? with
    | some (.neg c) => (fs.dropLast, c)
    | some c => (fs.dropLast, c)
    | none => ([], .and [])
  | f => ([], f)

/-- `performFirstStep` (src/Mods/tptp/proof.go:525-564). -/
def firstStep (As : List Form) (c : Form) : List Line :=
  [.step ⟨.f 2, As ++ [c], [c], .hyp As.length, []⟩,
   .step ⟨.f 1, As, [c, .neg c], .rightNot 1, [.f 2]⟩,
   .step ⟨.f 0, As, [c], .cut 1, [.f 1, .f 3]⟩]

/-- The loop of `performCutAxiomStep` (src/Mods/tptp/proof.go:567-595), last axiom first. -/
def cutAxioms (As : List Form) (c : Form) : List Line :=
  (List.range As.length).reverse.map fun i =>
    .step ⟨.ac i, As.take i, [c], .cut 0,
      [.ax i, if i + 1 = As.length then .f 0 else .ac (i + 1)]⟩

/-- `makeTptpProofFromGS3` (src/Mods/tptp/proof.go:65-84): axioms, conjecture and derivation. -/
def makeOutput (cfg : Cfg) (n : Nat) : Tree → Option (List Form × Form × List Line)
  | .hole _ => none
  | .node rule f t forms cs =>
    let r := processMain f
    match (if r.1.isEmpty then some (Tree.node rule f t forms cs) else cs[0]?) with
    | none => none
    | some T =>
      match follow cfg n T (r.1 ++ [.neg r.2]) (some 3) ⟨3, []⟩ with
      | none => none
      | some (lines, _) => some (r.1, r.2, lines ++ firstStep r.1 r.2 ++ cutAxioms r.1 r.2)

/-! ## The checker -/

/-- A sequent. -/
structure Seq where
  left : List Form
  right : List Form

def Step.seq (s : Step) : Seq := ⟨s.left, s.right⟩

/-- The same set of formulas. -/
def same (l m : List Form) : Bool := l.all (fun f => decide (f ∈ m)) && m.all (fun f => decide (f ∈ l))

/-- The premise has the formulas of the conclusion, where the main formula in position `i` of the left side may
be left out, and the parts. -/
def premise (s : Step) (i : Nat) (parts : List Form) (p : Seq) : Bool :=
  same p.right s.right && (same p.left (s.left ++ parts) || same p.left (s.left.eraseIdx i ++ parts))

/-- One premise for each list of parts. -/
def premises (s : Step) (i : Nat) : List (List Form) → List Seq → Bool
  | [], [] => true
  | ps :: pss, p :: qs => premise s i ps p && premises s i pss qs
  | _, _ => false

/-- The main formula and the parts of the rules without terms. -/
def parts : Inf → Form → Option (List (List Form))
  | .leftNotNot _, .neg (.neg f) => some [[f]]
  | .leftAnd _, .and fs => some [fs]
  | .leftNotOr _, .neg (.or fs) => some [fs.map .neg]
  | .leftNotImplies _, .neg (.imp f g) => some [[f, .neg g]]
  | .leftNotAnd _, .neg (.and fs) => some (fs.map fun f => [.neg f])
  | .leftOr _, .or fs => some (fs.map fun f => [f])
  | .leftImp2 _, .imp f g => some [[.neg f], [g]]
  | .leftIff _, .equ f g => some [[.imp f g, .imp g f]]
  | .leftNotIff _, .neg (.equ f g) => some [[.neg (.imp f g)], [.neg (.imp g f)]]
  | _, _ => none

/-- The instance that a quantifier rule adds. -/
def inst : Inf → Form → Option Form
  | .leftForall _ t, .all (v :: vs) f => some (put v.index t (allRest vs f))
  | .leftNotEx _ t, .neg (.ex (v :: vs) f) => some (.neg (put v.index t (exRest vs f)))
  | .leftExists _ t, .ex (v :: vs) f => some (put v.index t (exRest vs f))
  | .leftNotAll _ t, .neg (.all (v :: vs) f) => some (.neg (put v.index t (allRest vs f)))
  | _, _ => none

/-- A new constant for the conclusion and the axioms. -/
def fresh (As : List Form) (s : Step) : Term → Bool
  | .fn p [] [] => decide (p ∉ Form.funsL As) && decide (p ∉ Form.funsL s.left) && decide (p ∉ Form.funsL s.right)
  | _ => false

/-- The parameter that gives the position of the main formula. -/
def Inf.pos : Inf → Nat
  | .leftHyp i | .leftNotNot i | .leftAnd i | .leftNotOr i | .leftNotImplies i | .leftNotAnd i | .leftOr i
  | .leftImp2 i | .leftIff i | .leftNotIff i | .leftNotAll i _ | .leftExists i _ | .leftForall i _
  | .leftNotEx i _ | .leftWeaken i | .hyp i | .rightNot i | .cut i => i
  | .congruence => 0

/-- The step is an instance of its rule for these premises. -/
def stepOk (As : List Form) (s : Step) (ps : List Seq) : Bool :=
  match s.inf with
  | .leftHyp i =>
    ps.isEmpty &&
    match s.left[i]? with
    | some f => decide (Form.neg f ∈ s.left)
    | none => false
  | .congruence => ps.isEmpty && s.left.any fun f => decide (Form.neg f ∈ s.left)
  | .leftWeaken i =>
    match ps with
    | [p] => decide (i < s.left.length) && same p.left (s.left.eraseIdx i) && same p.right s.right
    | _ => false
  | .hyp i =>
    ps.isEmpty &&
    match s.left[i]? with
    | some f => decide (f ∈ s.right)
    | none => false
  | .rightNot i =>
    match ps, s.right[i]? with
    | [p], some (.neg f) =>
      same p.left (s.left ++ [f]) && (same p.right s.right || same p.right (s.right.eraseIdx i))
    | _, _ => false
  | .cut i =>
    match ps with
    | [p, q] =>
      match p.right[i]? with
      | some f =>
        p.left.all (fun g => decide (g ∈ s.left)) && (p.right.eraseIdx i).all (fun g => decide (g ∈ s.right)) &&
        q.left.all (fun g => decide (g = f ∨ g ∈ s.left)) && q.right.all (fun g => decide (g ∈ s.right))
      | none => false
    | _ => false
  | .leftForall i t | .leftNotEx i t =>
    match s.left[i]? with
    | some f =>
      match inst s.inf f with
      | some g => t.vars.isEmpty && premises s i [[g]] ps
      | none => false
    | none => false
  | .leftExists i t | .leftNotAll i t =>
    match s.left[i]? with
    | some f =>
      match inst s.inf f with
      | some g => fresh As s t && premises s i [[g]] ps
      | none => false
    | none => false
  | inf =>
    match s.left[inf.pos]? with
    | some f =>
      match parts inf f with
      | some pss => premises s inf.pos pss ps
      | none => false
    | none => false

/-- The sequent of a name: an axiom `a` is `--> [a]`, the other names are those of steps that have been
checked. -/
def seqOf (As : List Form) (done : List Step) : Name → Option Seq
  | .ax i => (As[i]?).map fun a => ⟨[], [a]⟩
  | n => (done.find? fun s => decide (s.name = n)).map Step.seq

/-- The derivation is correct: the names are new, and each step follows from the ones before. -/
def check (As : List Form) : List Step → List Line → Bool
  | _, [] => true
  | _, .junk _ :: _ => false
  | done, .step s :: ls =>
    decide (s.name ∉ done.map Step.name) &&
    (match s.prems.mapM (seqOf As done) with
     | some ps => stepOk As s ps
     | none => false) &&
    check As (done ++ [s]) ls

/-- The output is a correct derivation of `--> [c]` from the axioms. -/
def accepts (As : List Form) (c : Form) (ls : List Line) : Bool :=
  check As [] ls && ls.any fun l =>
    match l with
    | .step s => decide (s.left = []) && decide (s.right = [c])
    | .junk _ => false

end Verif.Tptp
