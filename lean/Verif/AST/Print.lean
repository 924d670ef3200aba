import Verif.AST.Full
/-!
# The default printer (`src/AST/modular-printing.go`, `src/AST/printers.go`)

`ToString` of terms and formulas with the default connectives (src/AST/modular-printing.go:257-290), which is
what the TPTP output uses (src/Mods/tptp/output.go:62). Strings are lists of characters. The printing of
types is a parameter (`tyStr`). `eqI` is the index of `Id_eq`.
-/

namespace Verif.AST.Full

/-- The loop of `RemoveSuperfluousParenthesesAction` (src/AST/printers.go:57-67): there is a space at nesting level
`d = 0`. The level is that before the character (the Go code looks at the previous byte). -/
def topSpace (d : Int) : List Char → Bool
  | [] => false
  | c :: r => (c = ' ' && d = 0) || topSpace (if c = '(' then d + 1 else if c = ')' then d - 1 else d) r

/-- `RemoveSuperfluousParenthesesAction` (src/AST/printers.go:44-72). -/
def strip (s : List Char) : List Char :=
  match s with
  | '(' :: r => if r.getLast? = some ')' then (if topSpace 0 r.dropLast then s else r.dropLast) else s
  | s => s

/-- `ListToString` with a separator, without brackets (src/Lib/list.go:131-166). -/
def join (sep : List Char) : List (List Char) → List Char
  | [] => []
  | a :: l => a ++ l.flatMap (sep ++ ·)

/-- `printer.Str(printer.SurroundChild(..))` (src/AST/modular-printing.go:180-182). -/
def child (s : List Char) : List Char := strip ('(' :: (s ++ [')']))

/-- `SurroundArgs` (src/AST/modular-printing.go:173-178). -/
def surroundArgs (s : List Char) : List Char := if s.isEmpty then s else '(' :: (s ++ [')'])

/-- `OnFunctionalArgs` (src/AST/modular-printing.go:189-215); an equality with fewer than two arguments or more
than three is an anomaly (see `printed`). -/
def onArgs (eqI i : Nat) (name tys : List Char) (args : List (List Char)) : List Char :=
  if i = eqI then
    match args.drop (args.length - 2) with
    | [a, b] => a ++ (' ' :: (strip name ++ ' ' :: b))
    | _ => []
  else
    strip name ++ surroundArgs (if tys.isEmpty then join [',', ' '] args else tys ++ [' ', ';', ' '] ++ join [',', ' '] args)

section
variable (eqI : Nat) (tyStr : GTy → List Char)

/-- The type arguments. -/
def tysStr (tys : List GTy) : List Char := join [',', ' '] (tys.map tyStr)

mutual
/-- `ToString` of terms (src/AST/termsDef.go:62, 120-127, 267, 318). -/
def GTerm.str : GTerm → List Char
  | .var _ n => strip n.toList
  | .mv _ _ n _ _ => strip n.toList
  | .fn i n tys args => onArgs eqI i n.toList (tysStr tyStr tys) (GTerm.strL args)
def GTerm.strL : List GTerm → List (List Char)
  | [] => []
  | a :: l => GTerm.str a :: GTerm.strL l
end

/-- The variables of a quantifier (src/AST/quantifiers.go:87-91): their types are not printed. -/
def varsStr (vs : List GTypedVar) : List Char := join [',', ' '] (vs.map fun v => strip v.name.toList)

mutual
/-- `ToString` of formulas (src/AST/formsDef.go:254, 378, 469, 581, 706, 847, 1012, 1040 and src/AST/quantifiers.go:83-96). -/
def GForm.str : GForm → List Char
  | .pred _ i n tys args => onArgs eqI i n.toList (tysStr tyStr tys) (GTerm.strL eqI tyStr args)
  | .top _ => ['$', 't', 'r', 'u', 'e']
  | .bot _ => ['$', 'f', 'a', 'l', 's', 'e']
  | .neg _ f => '~' :: child (GForm.str f)
  | .and _ fs => join [' ', '&', ' '] ((GForm.strL fs).map child)
  | .or _ fs => join [' ', '|', ' '] ((GForm.strL fs).map child)
  | .imp _ f g => child (GForm.str f) ++ (' ' :: '=' :: '>' :: ' ' :: child (GForm.str g))
  | .equ _ f g => child (GForm.str f) ++ (' ' :: '<' :: '=' :: '>' :: ' ' :: child (GForm.str g))
  | .all _ vs f => '!' :: ' ' :: '[' :: (varsStr vs ++ (']' :: ':' :: ' ' :: strip (GForm.str f)))
  | .ex _ vs f => '?' :: ' ' :: '[' :: (varsStr vs ++ (']' :: ':' :: ' ' :: strip (GForm.str f)))
def GForm.strL : List GForm → List (List Char)
  | [] => []
  | f :: l => GForm.str f :: GForm.strL l
end

/-- The number of arguments is right for the symbol (src/AST/modular-printing.go:198-206). -/
def arityOk (i n : Nat) : Bool := i ≠ eqI || (decide (2 ≤ n) && decide (n ≤ 3))

mutual
def GTerm.arities : GTerm → Bool
  | .fn i _ _ args => arityOk eqI i args.length && GTerm.aritiesL args
  | _ => true
def GTerm.aritiesL : List GTerm → Bool
  | [] => true
  | a :: l => GTerm.arities a && GTerm.aritiesL l
end

mutual
def GForm.arities : GForm → Bool
  | .pred _ i _ _ args => arityOk eqI i args.length && GTerm.aritiesL eqI args
  | .top _ | .bot _ => true
  | .neg _ f => GForm.arities f
  | .and _ fs | .or _ fs => GForm.aritiesL fs
  | .imp _ f g | .equ _ f g => GForm.arities f && GForm.arities g
  | .all _ _ f | .ex _ _ f => GForm.arities f
def GForm.aritiesL : List GForm → Bool
  | [] => true
  | f :: l => GForm.arities f && GForm.aritiesL l
end

/-- What is printed for a formula, if the program does not stop with an anomaly. -/
def printed (f : GForm) : Option (List Char) := if GForm.arities eqI f then some (GForm.str eqI tyStr f) else none

end

end Verif.AST.Full
