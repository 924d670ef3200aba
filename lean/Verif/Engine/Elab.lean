import Verif.AST.Maker
import Verif.AST.Semantics
/-!
# Reading formulas (`src/Parser/psyntax.go`, `src/Engine`)

Model of the parsed syntax, of the grammar actions that build it and of the elaboration that turns it
into internal formulas.

`Glob.Fatal`, `Glob.Anomaly` and index panics end the run: they are the result `none`. The state
threaded through the elaboration is the context `con` and the maker tables. Not modelled: the lexer and
the precedence rules of the generated parser, debug output, and the types of numeric constants that are
added to the global typing environment (src/Engine/syntax-translation.go:372), which the result of the
elaboration does not depend on.
-/

namespace Verif.Engine
open Verif.AST

/-! ### Parsed syntax -/

/-- `PType` (src/Parser/psyntax.go:51-173). The types attached to the variables of a quantified type
are never read by the functions below and are dropped. -/
inductive PTy where
  | var (n : String)
  | fn (s : String) (args : List PTy)
  | prod (l r : PTy)
  | map (l r : PTy)
  | all (vars : List String) (t : PTy)

/-- `PTerm` (src/Parser/psyntax.go:178-212). -/
inductive PTm where
  | var (n : String)
  | fn (s : String) (args : List PTm) (dt : Option PTy)

/-- src/Parser/psyntax.go:227-232. -/
inductive PBinOp where
  | or | and | imp | equ
deriving DecidableEq

/-- `PForm` (src/Parser/psyntax.go:244-295). -/
inductive PForm where
  | top
  | bot
  | pred (s : String) (args : List PTm)
  | neg (f : PForm)
  | bin (op : PBinOp) (l r : PForm)
  | all (vs : List (String × PTy)) (f : PForm)
  | ex (vs : List (String × PTy)) (f : PForm)

/-- `MkPRevImp` (src/Parser/psyntax.go:309). -/
def mkPRevImp (l r : PForm) : PForm := .bin .imp r l
/-- `MkPXor` (src/Parser/psyntax.go:321). -/
def mkPXor (l r : PForm) : PForm := .bin .and (.bin .or l r) (.neg (.bin .and l r))
/-- `MkPNotOr` (src/Parser/psyntax.go:325). -/
def mkPNotOr (l r : PForm) : PForm := .neg (.bin .or l r)
/-- `MkPNotAnd` (src/Parser/psyntax.go:329). -/
def mkPNotAnd (l r : PForm) : PForm := .neg (.bin .and l r)

/-- Formulas of the input language (FOF and TFF), as written: the alternatives of the grammar. -/
inductive WForm where
  | top
  | bot
  | atom (s : String) (args : List PTm)
  | eq (l r : PTm)
  | neq (l r : PTm)
  | not (f : WForm)
  | and (l r : WForm)
  | or (l r : WForm)
  | imp (l r : WForm)
  | rimp (l r : WForm)
  | iff (l r : WForm)
  | xor (l r : WForm)
  | nor (l r : WForm)
  | nand (l r : WForm)
  | all (vs : List (String × PTy)) (f : WForm)
  | ex (vs : List (String × PTy)) (f : WForm)

/-- The grammar actions: FOF src/Parser/tptp_parse.y:370-434, TFF src/Parser/tptp_parse.y:184-261. -/
def WForm.parse : WForm → PForm
  | .top => .top
  | .bot => .bot
  | .atom s args => .pred s args
  | .eq l r => .pred "=" [l, r]
  | .neq l r => .neg (.pred "=" [l, r])
  | .not f => .neg f.parse
  | .and l r => .bin .and l.parse r.parse
  | .or l r => .bin .or l.parse r.parse
  | .imp l r => .bin .imp l.parse r.parse
  | .rimp l r => mkPRevImp l.parse r.parse
  | .iff l r => .bin .equ l.parse r.parse
  | .xor l r => mkPXor l.parse r.parse
  | .nor l r => mkPNotOr l.parse r.parse
  | .nand l r => mkPNotAnd l.parse r.parse
  | .all vs f => .all vs f.parse
  | .ex vs f => .ex vs f.parse

/-! ### Pretyping -/

/-- `Context` (src/Engine/tptp-defined-types.go:45). -/
abbrev Ctx := List (String × PTy)

/-- `lookupInContext` (src/Engine/pretyper.go:99): the last entry wins. -/
def lookup (con : Ctx) (n : String) : Option PTy :=
  (con.reverse.find? (fun e => e.1 == n)).map (·.2)

/-- `isTyConstr` (src/Engine/pretyper.go:108). -/
def isTyConstr : PTy → Bool
  | .fn s _ => s == "$tType"
  | _ => false

mutual
/-- `parserTermToType` (src/Engine/pretyper.go:131); its result is always atomic, so the anomaly of
line 143 is never raised. -/
def toTy : PTm → PTy
  | .var n => .var n
  | .fn s args _ => .fn s (toTyL args)
def toTyL : List PTm → List PTy
  | [] => []
  | a :: l => toTy a :: toTyL l
end

/-- The Go map of instances, filled in order: the last assignment to a name wins. -/
def instGet (inst : List (String × PTy)) (n : String) : Option PTy := lookup inst n

mutual
/-- `instantiateRec` (src/Engine/pretyper.go:207). -/
def instRec (inst : List (String × PTy)) : PTy → Option PTy
  | .var n => instGet inst n
  | .fn s args => (instRecL inst args).map (.fn s)
  | .prod l r => (instRec inst l).bind fun l' => (instRec inst r).map fun r' => .prod l' r'
  | .map l r => (instRec inst l).bind fun _ => instRec inst r
  | .all _ _ => none
def instRecL (inst : List (String × PTy)) : List PTy → Option (List PTy)
  | [] => some []
  | a :: l => (instRec inst a).bind fun a' => (instRecL inst l).map fun l' => a' :: l'
end

/-- The loop of src/Engine/pretyper.go:194-196; `args[i]` panics if there are too few arguments. -/
def instMap : List String → List PTm → Option (List (String × PTy))
  | [], _ => some []
  | _ :: _, [] => none
  | v :: vs, a :: as => (instMap vs as).map fun r => (v, toTy a) :: r

/-- `instantiateType` (src/Engine/pretyper.go:171). -/
def instType (ty : PTy) (args : List PTm) : Option PTy :=
  match ty with
  | .var _ => if args.isEmpty then some ty else none
  | .fn _ _ => if args.isEmpty then some ty else none
  | .prod _ _ => none
  | .map _ r => some r
  | .all vs t => (instMap vs args).bind fun inst => instRec inst t

/-- `defaultType` (src/Engine/pretyper.go:48). -/
def defaultType : PTy := .fn "$i" []

/-- One turn of the loop of `pretype` (src/Engine/pretyper.go:53-95). -/
def pretype1 (con : Ctx) : PTm → Option PTy
  | .var n =>
    match lookup con n with
    | some ty => instType ty []
    | none => some defaultType
  | .fn s args dt =>
    match lookup con s with
    | some ty => instType ty args
    | none =>
      match dt with
      | some ty => some ty
      | none => some defaultType

/-- `pretype` (src/Engine/pretyper.go:51); the terms themselves are not repeated in the result. -/
def pretype (con : Ctx) : List PTm → Option (List PTy)
  | [] => some []
  | a :: l => (pretype1 con a).bind fun ty => (pretype con l).map fun tys => ty :: tys

/-- First component of `splitTypes` (src/Engine/pretyper.go:116). -/
def splitTys : List PTy → List PTm → List PTy
  | ty :: tys, a :: as => if isTyConstr ty then toTy a :: splitTys tys as else splitTys tys as
  | _, _ => []

/-- Second component of `splitTypes` (src/Engine/pretyper.go:116). -/
def splitTms : List PTy → List PTm → List PTm
  | ty :: tys, a :: as => if isTyConstr ty then splitTms tys as else a :: splitTms tys as
  | _, _ => []

/-! ### Types -/

mutual
/-- `flattenProd` (src/Engine/syntax-translation.go:482). -/
def flattenProd : Ty → List Ty
  | .prod tys => flattenProdL tys
  | ty => [ty]
def flattenProdL : List Ty → List Ty
  | [] => []
  | a :: l => flattenProd a ++ flattenProdL l
end

/-- `fail_if_forbidden` (src/Engine/syntax-translation.go:413). -/
def forbidden : PTy → Bool
  | .map _ _ => true
  | .all _ _ => true
  | _ => false

mutual
/-- `elaborateType` (src/Engine/syntax-translation.go:393); `top` is `from_top_level`. The two sides of
a map type are elaborated twice, the second time without effect. -/
def elabTy (top : Bool) (m : Maker) : PTy → Option (Ty × Maker)
  | .var n => if top then some (.var n, m) else some (.bound n, (m.var n).2)
  | .fn s args => (elabTyL top m args).map fun r => (.constr s r.1, r.2)
  | .prod l r =>
    if forbidden l || forbidden r then none else
    (elabTy top m l).bind fun a => (elabTy top a.2 r).map fun b =>
      (.prod (flattenProd a.1 ++ flattenProd b.1), b.2)
  | .map l r =>
    if forbidden l || forbidden r then none else
    (elabTy top m l).bind fun a => (elabTy top a.2 r).map fun b => (.func a.1 b.1, b.2)
  | .all vs t => (elabTy top m t).bind fun a =>
    match a.1 with
    | .pi _ _ => none
    | ty => some (.pi vs ty, a.2)
def elabTyL (top : Bool) (m : Maker) : List PTy → Option (List Ty × Maker)
  | [] => some ([], m)
  | a :: l => (elabTy top m a).bind fun x => (elabTyL top x.2 l).map fun y => (x.1 :: y.1, y.2)
end

/-- `pretypeVars` (src/Engine/pretyper.go:162). -/
def pretypeVars (m : Maker) : List (String × PTy) → Option (List TVar × Maker)
  | [] => some ([], m)
  | v :: vs => (elabTy false m v.2).bind fun x =>
    (pretypeVars (x.2.var v.1).2 vs).map fun y => (⟨v.1, (x.2.var v.1).1, x.1⟩ :: y.1, y.2)

/-! ### Defined symbols -/

def tInt : PTy := .fn "$int" []
def tRat : PTy := .fn "$rat" []
def tReal : PTy := .fn "$real" []
def tType : PTy := .fn "$tType" []
def tProp : PTy := .fn "$o" []

/-- `binPoly` (src/Engine/tptp-defined-types.go:79). -/
def binPoly (out : PTy) : PTy := .all ["number"] (.map (.prod (.var "number") (.var "number")) out)
/-- `unPoly` (src/Engine/tptp-defined-types.go:88). -/
def unPoly (out : PTy) : PTy := .all ["number"] (.map (.var "number") out)

/-- The calls of `mkDefined` (src/Engine/tptp-defined-types.go:95-132): name, number of arguments,
whether the type of the arguments must be one of the three number types, type. -/
def definedTable : List (String × Nat × Bool × PTy) :=
  [("$less", 2, true, binPoly tProp), ("$lesseq", 2, true, binPoly tProp),
   ("$greater", 2, true, binPoly tProp), ("$greatereq", 2, true, binPoly tProp),
   ("$sum", 2, true, binPoly (.var "number")), ("$difference", 2, true, binPoly (.var "number")),
   ("$product", 2, true, binPoly (.var "number")), ("$quotient_e", 2, true, binPoly (.var "number")),
   ("$quotient_t", 2, true, binPoly (.var "number")),
   ("$quotient_f", 2, true, binPoly (.var "number")),
   ("$remainder_e", 2, true, binPoly (.var "number")),
   ("$remainder_t", 2, true, binPoly (.var "number")),
   ("$remainder_f", 2, true, binPoly (.var "number")),
   ("$quotient", 2, true,
     .all ["number", "rat_or_real"] (.map (.prod (.var "number") (.var "number")) (.var "rat_or_real"))),
   ("$uminus", 1, true, unPoly (.var "number")), ("$floor", 1, true, unPoly (.var "number")),
   ("$ceiling", 1, true, unPoly (.var "number")), ("$truncate", 1, true, unPoly (.var "number")),
   ("$round", 1, true, unPoly (.var "number")),
   ("$is_int", 1, true, unPoly tProp), ("$is_rat", 1, true, unPoly tProp),
   ("$to_int", 1, true, unPoly tInt), ("$to_rat", 1, true, unPoly tRat),
   ("$to_real", 1, true, unPoly tReal),
   ("=", 2, false, binPoly tProp)]

/-- `initialContext` (src/Engine/tptp-defined-types.go:51). -/
def initialContext : Ctx :=
  [("$tType", tType), ("$int", tType), ("$rat", tType), ("$real", tType), ("$i", tType), ("$o", tType)]
    ++ definedTable.map fun e => (e.1, e.2.2.2)

/-- `isDefined` (src/Engine/tptp-defined-types.go:145). -/
def isDefined (s : String) : Bool := definedTable.any fun e => e.1 == s

/-- `defined_length[name]`: 0 for a missing name. -/
def definedLength (s : String) : Nat :=
  match definedTable.find? (fun e => e.1 == s) with
  | some e => e.2.1
  | none => 0

/-- `isAllowed` (src/Engine/tptp-defined-types.go:149); the number types are constants, so `Equals` is
the comparison of a symbol without arguments. -/
def isAllowed (s : String) (ty : PTy) : Bool :=
  match definedTable.find? (fun e => e.1 == s) with
  | some (_, _, true, _) =>
    match ty with
    | .fn t [] => t == "$int" || t == "$rat" || t == "$real"
    | _ => false
  | _ => true

/-- Lines 520-529 of src/Engine/syntax-translation.go: the type arguments of an elaborated term, read
back as terms. Other types raise an anomaly. -/
def tyArgsBack : List Ty → Option (List PTm)
  | [] => some []
  | .constr s _ :: l => (tyArgsBack l).map fun r => .fn s [] none :: r
  | .bound n :: l => (tyArgsBack l).map fun r => .var n :: r
  | _ :: _ => none

/-- The loop of src/Engine/syntax-translation.go:513-545: the types of the arguments of a defined
symbol. The names are read from the parsed arguments `ps`, from which the terms `as` were made. -/
def definedTys (con : Ctx) : List PTm → List Term → List PTy → Option (List PTy)
  | p :: ps, a :: as, tys =>
    (match p, a with
      | .var n, _ =>
        match lookup con n with
        | some ty => instType ty []
        | none => tys.head?
      | .fn s _ _, .fn _ targs _ =>
        (tyArgsBack targs).bind fun back =>
        match lookup con s with
        | some ty => instType ty back
        | none => tys.head?
      | _, _ => none).bind fun ty =>
    (definedTys con ps as tys.tail).map fun r => ty :: r
  | _, _, _ => some []

/-- `elaborateDefinedFunctionals` (src/Engine/syntax-translation.go:494). -/
def elabDefined (con : Ctx) (s : String) (tys : List PTy) (ps : List PTm) (as : List Term) :
    Option (List PTy) :=
  if as.length ≠ definedLength s then none else
  (definedTys con ps as tys).bind fun r =>
  match r.find? (isAllowed s) with
  | some ty => some [ty]
  | none => none

/-- The type arguments given to a symbol (src/Engine/syntax-translation.go:184-190 and 351-357): those
written, or, for a defined symbol, the one inferred. -/
def tyArgs (con : Ctx) (s : String) (tys : List PTy) (args : List PTm) (as : List Term) :
    Option (List PTy) :=
  if isDefined s then
    elabDefined con s (tys.drop (splitTys tys args).length) (splitTms tys args) as
  else some (splitTys tys args)

/-! ### Terms -/

/-- A result of the elaboration: context, tables, expression, typedness. -/
structure Out (α : Type) where
  con : Ctx
  m : Maker
  val : α
  typed : Bool

mutual
/-- `elaborateTerm` (src/Engine/syntax-translation.go:325). -/
def elabT (con : Ctx) (m : Maker) : PTm → Option (Out Term)
  | .var n => some ⟨con, (m.var n).2, .var (m.var n).1, false⟩
  | .fn s args dt =>
    (pretype con args).bind fun tys =>
    (elabL con m tys args).bind fun r =>
    (tyArgs r.con s tys args r.val).bind fun targs =>
    (elabTyL false (r.m.id s).2 targs).bind fun x =>
    let typed := if isDefined s then r.typed || !targs.isEmpty else !targs.isEmpty
    match dt with
    | none => some ⟨r.con, x.2, .fn (r.m.id s).1 x.1 r.val, typed⟩
    | some ty => (elabTy false x.2 ty).map fun y =>
        ⟨r.con ++ [(s, ty)], y.2, .fn (r.m.id s).1 x.1 r.val, typed⟩
/-- The loop over the arguments that are not types (src/Engine/syntax-translation.go:339-344 and
172-177). -/
def elabL (con : Ctx) (m : Maker) (tys : List PTy) : List PTm → Option (Out (List Term))
  | [] => some ⟨con, m, [], false⟩
  | a :: as =>
    match tys with
    | [] => some ⟨con, m, [], false⟩
    | ty :: tys =>
      if isTyConstr ty then elabL con m tys as else
      (elabT con m a).bind fun x => (elabL x.con x.m tys as).map fun y =>
        ⟨y.con, y.m, x.val :: y.val, x.typed || y.typed⟩
end

/-! ### Formulas -/

/-- `flatten` (src/Engine/syntax-translation.go:308). -/
def flatten (op : PBinOp) : PForm → List PForm
  | .bin o l r => if o = op then flatten op l ++ flatten op r else [.bin o l r]
  | f => [f]

/-- The loop of src/Engine/syntax-translation.go:299-304. -/
def elabSeq (g : Ctx → Maker → PForm → Option (Out Form)) (con : Ctx) (m : Maker) :
    List PForm → Option (Out (List Form))
  | [] => some ⟨con, m, [], false⟩
  | f :: fs => (g con m f).bind fun x => (elabSeq g x.con x.m fs).map fun y =>
      ⟨y.con, y.m, x.val :: y.val, x.typed || y.typed⟩

/-- `maker` argument of `maybeFlattenBin` and the two other connectives, applied to the elaborated
subformulas. -/
def mkBin : PBinOp → List Form → Option Form
  | .or, fs => some (.or fs)
  | .and, fs => some (.and fs)
  | .imp, [a, b] => some (.imp a b)
  | .equ, [a, b] => some (.equ a b)
  | _, _ => none

/-- The subformulas of a binary formula that are elaborated: `maybeFlattenBin`
(src/Engine/syntax-translation.go:283) for `or` and `and`, both sides for the others. -/
def subForms (fl : Bool) (op : PBinOp) (l r : PForm) : List PForm :=
  if fl ∧ (op = .or ∨ op = .and) then flatten op (.bin op l r) else [l, r]

/-- Line 239 of src/Engine/syntax-translation.go: the body is quantified if there are variables. -/
def mkAll (vs : List TVar) (f : Form) : Form := if vs.isEmpty then f else .all vs f
/-- Line 258 of src/Engine/syntax-translation.go. -/
def mkEx (vs : List TVar) (f : Form) : Form := if vs.isEmpty then f else .ex vs f

/-- `AST.IsTType` (src/AST/tptp-native-types.go:91). -/
def isTType (ty : Ty) : Bool := decide (ty = .constr "$tType" [])

/-- `elaborateForm` (src/Engine/syntax-translation.go:154); `fl` is the option `Glob.Flatten()`. The
recursion is bounded by a number of nested calls; `PForm.depth` is enough (`elabN_total`). -/
def elabN (fl : Bool) : Nat → Ctx → Maker → PForm → Option (Out Form)
  | 0, _, _, _ => none
  | _ + 1, con, m, .top => some ⟨con, m, .top, false⟩
  | _ + 1, con, m, .bot => some ⟨con, m, .bot, false⟩
  | _ + 1, con, m, .pred s args =>
    (pretype con args).bind fun tys =>
    (elabL con m tys args).bind fun r =>
    (tyArgs r.con s tys args r.val).bind fun targs =>
    (elabTyL false (r.m.id s).2 targs).map fun x =>
      ⟨r.con, x.2, .pred (r.m.id s).1 x.1 r.val, if isDefined s then r.typed else !targs.isEmpty⟩
  | n + 1, con, m, .neg f => (elabN fl n con m f).map fun x => ⟨x.con, x.m, .neg x.val, x.typed⟩
  | n + 1, con, m, .bin op l r =>
    (elabSeq (elabN fl n) con m (subForms fl op l r)).bind fun x =>
    (mkBin op x.val).map fun f => ⟨x.con, x.m, f, x.typed⟩
  | n + 1, con, m, .all vs f =>
    (pretypeVars m vs).bind fun q =>
    (elabN fl n (con ++ vs) q.2 f).map fun x => ⟨x.con, x.m, mkAll q.1 x.val, x.typed⟩
  | n + 1, con, m, .ex vs f =>
    (pretypeVars m vs).bind fun q =>
    if q.1.any (fun v => isTType v.ty) then none else
    (elabN fl n (con ++ vs) q.2 f).map fun x => ⟨x.con, x.m, mkEx q.1 x.val, x.typed⟩

/-- Number of nested formulas. -/
def PForm.depth : PForm → Nat
  | .top => 1
  | .bot => 1
  | .pred _ _ => 1
  | .neg f => f.depth + 1
  | .bin _ l r => max l.depth r.depth + 1
  | .all _ f => f.depth + 1
  | .ex _ f => f.depth + 1

/-- `elaborateParsingForm` (src/Engine/syntax-translation.go:149). -/
def elabForm (fl : Bool) (con : Ctx) (m : Maker) (f : PForm) : Option (Out Form) :=
  elabN fl f.depth con m f

end Verif.Engine
