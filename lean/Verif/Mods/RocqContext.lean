import Verif.Parser.PrintBack
/-!
# The declarations before the Rocq theorem (`src/Mods/rocq/context.go`)

With `-context` the Rocq file starts with lemmas, the universe `goeland_U`, an individual `goeland_I` and one
line `Parameter name : type.` for each symbol of the statement. This file models how these lines are made
(`formLines`) and states which of them Rocq needs (`Sig`, `WT`).

Simplifications: strings are lists of characters (Go: bytes); the lines for the axioms of the deduction modulo
theory module (src/Mods/rocq/context.go:58-62) are those of the conjunction of these axioms and the statement;
the line for metavariables (173-179) is not modelled; the map of `sanitize_type` is gone through in any
order (`orders`).
-/

namespace Verif.Rocq.Context
open Verif.AST.Full
open Verif.Parser (AlphaNum)

/-! ### Model -/

/-- A symbol as it is used: predicate or function, name, number of arguments. -/
structure Sym where
  pred : Bool
  name : String
  arity : Nat
  deriving DecidableEq

section lines
variable {α : Type} [DecidableEq α] (eqI : Nat) (line : Sym → α)

/-- `clean` (src/Mods/rocq/context.go:162-171). -/
def clean (set add : List α) : List α := add.filter fun x => !decide (x ∈ set)

mutual
/-- `getContextFromTerm` (src/Mods/rocq/context.go:140-159). -/
def termLines : GTerm → List α
  | .fn _ n _ args => argLines [line ⟨false, n, args.length⟩] args
  | .var .. => []
  | .mv .. => []
/-- The loop over the arguments (src/Mods/rocq/context.go:133-135 and 154-156). -/
def argLines (acc : List α) : List GTerm → List α
  | [] => acc
  | a :: l => argLines (acc ++ clean acc (termLines a)) l
end

mutual
/-- `getContextFromFormula` (src/Mods/rocq/context.go:97-138). -/
def formLines : GForm → List α
  | .all _ _ f | .ex _ _ f => formLines f
  | .and _ fs | .or _ fs => formLinesL [] fs
  | .imp _ f g | .equ _ f g =>
    let r := clean [] (formLines f)
    r ++ clean r (formLines g)
  | .neg _ f => clean [] (formLines f)
  | .pred _ i n _ args =>
    argLines line (if i = eqI then [] else [line ⟨true, n, args.length⟩]) args
  | .top _ | .bot _ => []
/-- The loops over the children of conjunctions and disjunctions (src/Mods/rocq/context.go:104-111). -/
def formLinesL (acc : List α) : List GForm → List α
  | [] => acc
  | f :: l => formLinesL (acc ++ clean acc (formLines f)) l
end

end lines

/-- `strings.ReplaceAll` for a non-empty pattern; `k` characters of a match are still to be skipped. -/
def replGo (old new : List Char) : Nat → List Char → List Char
  | _, [] => []
  | k + 1, _ :: r => replGo old new k r
  | 0, c :: r => if old.isPrefixOf (c :: r) then new ++ replGo old new (old.length - 1) r else c :: replGo old new 0 r

def replaceAll (old new s : List Char) : List Char := replGo old new 0 s

/-- The replacements of `sanitize_type` (src/Mods/rocq/output.go:104-109). -/
def tI : List Char × List Char := (['$', 'i'], ['g', 'o', 'e', 'l', 'a', 'n', 'd', '_', 'U'])
def tO : List Char × List Char := (['$', 'o'], ['P', 'r', 'o', 'p'])
def tT : List Char × List Char := (['$', 't', 'T', 'y', 'p', 'e'], ['T', 'y', 'p', 'e'])

/-- The orders in which the map may be gone through. -/
def orders : List (List (List Char × List Char)) :=
  [[tI, tO, tT], [tI, tT, tO], [tO, tI, tT], [tO, tT, tI], [tT, tI, tO], [tT, tO, tI]]

/-- `sanitize_type` (src/Mods/rocq/output.go:103-114). -/
def sanitize (ord : List (List Char × List Char)) (s : List Char) : List Char :=
  ord.foldl (fun s p => replaceAll p.1 p.2 s) s

/-- The generic action of the Rocq printer (src/Mods/rocq/output.go:125-126, src/AST/printers.go:81-88). -/
def generic (s : List Char) : List Char := strip (s.map fun c => if c = '@' then '_' else c)

/-- `SurroundChild` and the generic action. -/
def gchild (s : List Char) : List Char := generic ('(' :: (s ++ [')']))

mutual
/-- `ToString` of types with the Rocq printer (src/AST/ty-syntax.go:70, 89-91, 116-118, 153-161, 196-201, 229-235,
257-267; connectives src/Mods/rocq/output.go:72-98: `->` and `forall`, `*` is inherited). -/
def tyStr (ord : List (List Char × List Char)) : GTy → List Char
  | .var s => s.toList
  | .bound n _ => generic n.toList
  | .mv n i _ => generic (n.toList ++ '_' :: (toString i).toList)
  | .constr s args =>
    generic (sanitize ord s.toList) ++ surroundArgs (join [',', ' '] (tyStrL ord args))
  | .prod args => join ['*'] ((tyStrL ord args).map gchild)
  | .func a b => gchild (tyStr ord a) ++ (' ' :: '-' :: '>' :: ' ' :: gchild (tyStr ord b))
  | .pi vs t =>
    ['f', 'o', 'r', 'a', 'l', 'l', ' '] ++ (join [' '] (vs.map (·.toList)) ++ (',' :: ' ' :: generic (tyStr ord t)))
def tyStrL (ord : List (List Char × List Char)) : List GTy → List (List Char)
  | [] => []
  | t :: l => tyStr ord t :: tyStrL ord l
end

/-- `mkDefaultFunctionalType`, `MkDefaultPredType`, `MkDefaultFunctionType` (src/AST/ty-syntax.go:493-510). -/
def defaultTy (pred : Bool) (n : Nat) : GTy :=
  let out := GTy.constr (if pred then "$o" else "$i") []
  if n = 0 then out else .func (.prod (List.replicate n (.constr "$i" []))) out

def text (name ty : List Char) : List Char :=
  ['P', 'a', 'r', 'a', 'm', 'e', 't', 'e', 'r', ' '] ++ (name ++ (' ' :: ':' :: ' ' :: (ty ++ ['.'])))

/-- The line for a symbol (src/Mods/rocq/context.go:122-131 and 143-153); `env` is the global environment. -/
def paramLine (ord : List (List Char × List Char)) (env : String → Option GTy) (s : Sym) : List Char :=
  text (generic s.name.toList) (tyStr ord (match env s.name with | some t => t | none => defaultTy s.pred s.arity))

/-- The declarations printed for a statement. -/
def declared (eqI : Nat) (ord : List (List Char × List Char)) (env : String → Option GTy) (f : GForm) : List (List Char) :=
  formLines eqI (paramLine ord env) f

/-! ### Specification: what Rocq needs -/

/-- The symbols of a term, at their uses. -/
inductive TSym : GTerm → Sym → Prop
  | here {i n tys args} : TSym (.fn i n tys args) ⟨false, n, args.length⟩
  | arg {i n tys args a s} : a ∈ args → TSym a s → TSym (.fn i n tys args) s

/-- The symbols of a formula, at their uses; equality belongs to Rocq. -/
inductive FSym (eqI : Nat) : GForm → Sym → Prop
  | here {x i n tys args} : i ≠ eqI → FSym eqI (.pred x i n tys args) ⟨true, n, args.length⟩
  | arg {x i n tys args a s} : a ∈ args → TSym a s → FSym eqI (.pred x i n tys args) s
  | neg {x f s} : FSym eqI f s → FSym eqI (.neg x f) s
  | and {x fs f s} : f ∈ fs → FSym eqI f s → FSym eqI (.and x fs) s
  | or {x fs f s} : f ∈ fs → FSym eqI f s → FSym eqI (.or x fs) s
  | impl {x f g s} : FSym eqI f s → FSym eqI (.imp x f g) s
  | impr {x f g s} : FSym eqI g s → FSym eqI (.imp x f g) s
  | equl {x f g s} : FSym eqI f s → FSym eqI (.equ x f g) s
  | equr {x f g s} : FSym eqI g s → FSym eqI (.equ x f g) s
  | all {x vs f s} : FSym eqI f s → FSym eqI (.all x vs f) s
  | ex {x vs f s} : FSym eqI f s → FSym eqI (.ex x vs f) s

/-- A type of the universe: functions of `args` individuals to propositions or individuals. -/
structure RTy where
  prop : Bool
  args : Nat
  deriving DecidableEq

def uU : List Char := ['g', 'o', 'e', 'l', 'a', 'n', 'd', '_', 'U']

/-- How such a type is written in Rocq. -/
def RTy.text (t : RTy) : List Char :=
  (if t.args = 0 then [] else join ['*'] (List.replicate t.args uU) ++ [' ', '-', '>', ' ']) ++
    (if t.prop then ['P', 'r', 'o', 'p'] else uU)

/-- Declared names with their types. -/
abbrev Sig := List (List Char × RTy)

/-- The arguments of a symbol are given as a tuple `f(t1, …, tn)`. -/
inductive WTt (S : Sig) : GTerm → Prop
  | var {i n} : WTt S (.var i n)
  | mv {i o n f ty} : WTt S (.mv i o n f ty)
  | fn {i n tys args} : (n.toList, ⟨false, args.length⟩) ∈ S → (∀ a ∈ args, WTt S a) → WTt S (.fn i n tys args)

/-- The formula is well typed with these declarations. -/
inductive WT (eqI : Nat) (S : Sig) : GForm → Prop
  | pred {x i n tys args} : (i ≠ eqI → (n.toList, ⟨true, args.length⟩) ∈ S) → (∀ a ∈ args, WTt S a) →
      WT eqI S (.pred x i n tys args)
  | top {x} : WT eqI S (.top x)
  | bot {x} : WT eqI S (.bot x)
  | neg {x f} : WT eqI S f → WT eqI S (.neg x f)
  | and {x fs} : (∀ f ∈ fs, WT eqI S f) → WT eqI S (.and x fs)
  | or {x fs} : (∀ f ∈ fs, WT eqI S f) → WT eqI S (.or x fs)
  | imp {x f g} : WT eqI S f → WT eqI S g → WT eqI S (.imp x f g)
  | equ {x f g} : WT eqI S f → WT eqI S g → WT eqI S (.equ x f g)
  | all {x vs f} : WT eqI S f → WT eqI S (.all x vs f)
  | ex {x vs f} : WT eqI S f → WT eqI S (.ex x vs f)

/-- Words that are not names in Rocq and begin with a lower-case letter (the first line: keywords of the language;
the second: of its notations). -/
def keywords : List String :=
  ["as", "at", "cofix", "else", "end", "fix", "for", "forall", "fun", "if", "in", "let", "match", "return", "then",
   "where", "with", "by", "exists", "exists2", "using"]

/-- A lower-case word of TPTP. -/
def Word (n : List Char) : Prop := (∃ c r, n = c :: r ∧ 97 ≤ c.toNat ∧ c.toNat ≤ 122) ∧ ∀ c ∈ n, AlphaNum c

/-- A word that can be declared: no keyword, and not taken by the lines before (they all take names that
begin with `goeland_`). -/
def Free (n : List Char) : Prop :=
  Word n ∧ (∀ k ∈ keywords, n ≠ k.toList) ∧ ¬ ['g', 'o', 'e', 'l', 'a', 'n', 'd', '_'] <+: n

/-- The lines are a signature that Rocq takes, in which the formula is well typed, and declare nothing else. -/
def Good (eqI : Nat) (lines : List (List Char)) (f : GForm) : Prop :=
  ∃ S : Sig, (S.map (·.1)).Nodup ∧ (∀ d ∈ S, Free d.1) ∧ lines = S.map (fun d => text d.1 d.2.text) ∧
    WT eqI S f ∧ ∀ d ∈ S, ∃ s, FSym eqI f s ∧ s.name.toList = d.1

end Verif.Rocq.Context
