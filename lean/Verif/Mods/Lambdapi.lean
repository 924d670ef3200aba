import Verif.Mods.RocqProps
/-!
# The Lambdapi output (`src/Mods/lambdapi`)

`print` models how `makeProofStep` turns a tree of sequents into a proof term. The second half of the file is a
type checker for these terms with the rules that the library declares (LambdaPi/GS3.lp).

Simplifications:
* formulas are printed with the printer of the AST, whose syntax Lambdapi does not read (the code has a FIXME);
  the model takes formulas as they are, so it is about the structure of the term only;
* the declarations before the theorem (context.go) are in `Verif.Mods.LambdapiContext`;
* the comments between the steps are left out.
-/

namespace Verif.Lambdapi
open Verif.AST
open Verif.Gs3 (Rule Tree)
open Verif.Rocq (processMain impChain problem root Follows)

/-- The keys of the global map from formulas, terms and bound variables to names (src/Mods/lambdapi/utils.go:47). -/
inductive Key where
  | form (f : Form)
  | term (t : Term)
  | var (v : TVar)
deriving DecidableEq

/-- The map: the key in position `k` has the name `vk`. -/
abbrev Ctx := List Key

/-- `getFromContext` (src/Mods/lambdapi/utils.go:57-59): `none` is the empty string. -/
def getCtx (k : Key) (ctx : Ctx) : Option Nat := ctx.findIdx? fun j => decide (j = k)

/-- `addToContext` (src/Mods/lambdapi/utils.go:49-55). -/
def addCtx (k : Key) (ctx : Ctx) : Nat × Ctx :=
  match getCtx k ctx with
  | some n => (n, ctx)
  | none => (ctx.length, ctx ++ [k])

/-- The printed terms. -/
inductive Tm where
  /-- `GS3axiom (p) (a) (b)` -/
  | ax (p : Form) (a b : Option Nat)
  /-- `GS3ntop (a)` -/
  | ntop (a : Option Nat)
  /-- `GS3bot (a)` -/
  | bot (a : Option Nat)
  /-- nothing -/
  | empty
  /-- the name of a rule, formulas, for each premise an abstraction over named hypotheses, a hypothesis -/
  | node (rule : Rule) (gs : List Form) (bs : List (List (Nat × Form))) (subs : List Tm) (a : Option Nat)
  /-- the same for quantifiers: a type that is printed as the empty string, names of the variables of the
  abstraction over the body, the body, the term, and for existential rules the name of the new constant -/
  | quant (rule : Rule) (vs : List Nat) (g : Form) (t : Option Term) (new : Option Nat)
      (bs : List (List (Nat × Form))) (subs : List Tm) (a : Option Nat)

/-- `closureAxiom` with `getPosAndNeg` (src/Mods/lambdapi/proof.go:109-131). -/
def closure (f : Form) (ctx : Ctx) : Tm :=
  let r : Form × Form := match f with
    | .neg g => (g, f)
    | _ => (f, .neg f)
  match r.1 with
  | .pred _ _ _ => .ax r.1 (getCtx (.form r.1) ctx) (getCtx (.form r.2) ctx)
  | .top => .ntop (getCtx (.form r.2) ctx)
  | .bot => .bot (getCtx (.form r.1) ctx)
  | _ => .empty

/-- `GetChildFormulas` (src/AST/formsDef.go, src/AST/quantifiers.go:97-99). -/
def childForms : Form → List Form
  | .neg f => [f]
  | .and fs => fs
  | .or fs => fs
  | .imp f g => [f, g]
  | .equ f g => [f, g]
  | .all _ f => [f]
  | .ex _ f => [f]
  | _ => []

/-- The composing formulas of the steps (src/Mods/lambdapi/proof.go:257-354): for the rules on negations the
children of the first child. -/
def composing (rule : Rule) (f : Form) : Option (List Form) :=
  match rule with
  | .nnot | .nor | .nimp | .nand | .nequ | .nall | .nex => (childForms f)[0]?.map childForms
  | _ => some (childForms f)

/-- The variables of the quantified formula (src/Mods/lambdapi/proof.go:298-354). -/
def quantVars : Form → List TVar
  | .ex vs _ => vs
  | .all vs _ => vs
  | .neg (.ex vs _) => vs
  | .neg (.all vs _) => vs
  | _ => []

/-- The names of a list of formulas that are abstracted. -/
def bindAll : List Form → Ctx → List (Nat × Form) × Ctx
  | [], ctx => ([], ctx)
  | f :: fs, ctx =>
    let r := addCtx (.form f) ctx
    let r' := bindAll fs r.2
    ((r.1, f) :: r'.1, r'.2)

/-- The names of a list of variables. -/
def bindVars : List TVar → Ctx → List Nat × Ctx
  | [], ctx => ([], ctx)
  | v :: vs, ctx =>
    let r := addCtx (.var v) ctx
    let r' := bindVars vs r.2
    (r.1 :: r'.1, r'.2)

/-- The name of the new constant of an existential rule (`toLambdaIntroString`, src/Mods/lambdapi/utils.go:65-67). -/
def bindNew (new : Option Term) (ctx : Ctx) : Ctx :=
  match new with
  | some t => (addCtx (.term t) ctx).2
  | none => ctx

mutual
/-- `makeProofStep` (src/Mods/lambdapi/proof.go:60-107): `none` is a panic or the fatal error for weakenings. A
quantifier step without a term is a call of a method of nil. -/
def print : Tree → Ctx → Option (Tm × Ctx)
  | .hole _, _ => none
  | .node rule f t forms cs, ctx =>
    match rule with
    | .ax => some (closure f ctx, ctx)
    | .w => none
    | .r => some (.empty, ctx)
    | rule =>
      match composing rule f with
      | none => none
      | some gs =>
        if forms.length < cs.length then none
        else if rule.isGamma || rule.isDelta then
          match gs, t with
          | g :: _, some t =>
            let vs := bindVars (quantVars f) ctx
            let new : Option Term := if rule.isDelta then some t else none
            match printL cs forms new vs.2 with
            | none => none
            | some (bs, subs, ctx') =>
              some (.quant rule vs.1 g (if rule.isDelta then none else some t) (new.bind fun t => getCtx (.term t) ctx') bs
                subs (getCtx (.form f) ctx'), ctx')
          | _, _ => none
        else
          match printL cs forms none ctx with
          | none => none
          | some (bs, subs, ctx') => some (.node rule gs bs subs (getCtx (.form f) ctx'), ctx')
/-- `getRecursionUnivStr` and `getRecursionExistStr` (src/Mods/lambdapi/proof.go:188-199, 239-255). -/
def printL : List Tree → List (List Form) → Option Term → Ctx →
    Option (List (List (Nat × Form)) × List Tm × Ctx)
  | [], _, _, ctx => some ([], [], ctx)
  | _ :: _, [], _, _ => none
  | c :: cs, fs :: fss, new, ctx =>
    let r := bindAll fs (bindNew new ctx)
    match print c r.2 with
    | none => none
    | some (tm, ctx') =>
      match printL cs fss new ctx' with
      | none => none
      | some (bs, tms, ctx'') => some (r.1 :: bs, tm :: tms, ctx'')
end

/-- `makeLambdaPiProofFromGS3` (src/Mods/lambdapi/proof.go:44-58) with `makeTheorem` (371-378): the formula `s` of the
printed theorem `ϵ s → ϵ ⊥`, the formula of the abstraction with its name, and the term. -/
def makeOutput : Tree → Option (Form × (Nat × Form) × Tm)
  | .hole _ => none
  | .node rule f t forms cs =>
    match processMain f with
    | none => none
    | some (axioms, c) =>
      let r := addCtx (.form f) []
      match print (.node rule f t forms cs) r.2 with
      | none => none
      | some (tm, _) => some (impChain axioms (.neg c), (r.1, f), tm)

/-! ## The type checker -/

/-- The main formula of a rule for its composing formulas and the hypotheses of its premises (LambdaPi/GS3.lp:45-71). -/
def sig : Rule → List Form → Option (Form × List (List Form))
  | .nnot, [p] => some (.neg (.neg p), [[p]])
  | .and, [p, q] => some (.and [p, q], [[p, q]])
  | .or, [p, q] => some (.or [p, q], [[p], [q]])
  | .imp, [p, q] => some (.imp p q, [[.neg p], [q]])
  | .equ, [p, q] => some (.equ p q, [[.neg p, .neg q], [p, q]])
  | .nand, [p, q] => some (.neg (.and [p, q]), [[.neg p], [.neg q]])
  | .nor, [p, q] => some (.neg (.or [p, q]), [[.neg p, .neg q]])
  | .nimp, [p, q] => some (.neg (.imp p q), [[p, .neg q]])
  | .nequ, [p, q] => some (.neg (.equ p q), [[.neg p, q], [p, .neg q]])
  | _, _ => none

/-- The name stands for a hypothesis: the last one with this name is the formula. -/
def has (env : List (Nat × Form)) (a : Option Nat) (f : Form) : Bool :=
  match a with
  | none => false
  | some n =>
    match env.find? fun e => e.1 == n with
    | some e => decide (e.2 = f)
    | none => false

mutual
/-- The term has the type `ϵ ⊥` under the hypotheses. Quantifier rules have `()` as an argument and are never
accepted. -/
def check (env : List (Nat × Form)) : Tm → Bool
  | .ax p a b => has env a p && has env b (.neg p)
  | .ntop a => has env a (.neg .top)
  | .bot a => has env a .bot
  | .empty => false
  | .node rule gs bs subs a =>
    match sig rule gs with
    | some (f, pss) => has env a f && decide (bs.map (·.map Prod.snd) = pss) && checkL env bs subs
    | none => false
  | .quant _ _ _ _ _ _ _ _ => false
def checkL (env : List (Nat × Form)) : List (List (Nat × Form)) → List Tm → Bool
  | b :: bs, tm :: tms => check (b.reverse ++ env) tm && checkL env bs tms
  | [], [] => true
  | _, _ => false
end

/-- The abstraction has the type `ϵ s → ϵ ⊥`. -/
def accepts (s : Form) (b : Nat × Form) (tm : Tm) : Bool := decide (b.2 = s) && check [b] tm

end Verif.Lambdapi
