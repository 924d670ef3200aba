/-!
# The lexer (`src/Parser/tptp_lex.go`)

Model of the lexer, function by function. The Go structure keeps the text `s`, a position `pos` and the
current character `c`; after the first `advance` the current character is always `s[pos-1]` (each of
`advance`, `checkAdvance` and `remove` sets both). So the model keeps the text as a pair of lists: the
characters before the position, the last one first, and the characters from the position on. `c` is the
first element of the former.

An index out of range is a panic in Go, which `ParseTPTPFile` turns into `Glob.Fatal`; both are `none`.
A character stands for one byte of the file, as in the code (`rune(lexer.s[lexer.pos])`): a byte above
127 is read as the character of Latin-1 with that number.

Not modelled: the line number, used in error messages only.
-/

namespace Verif.Parser

/-- The tokens (src/Parser/tptp_parse.y:81-98) with the string put into `yylval.str`. -/
inductive Tok where
  | kFof | kCnf | kThf | kTff | kTcf | kTpi | kInclude
  | dollarFot | dollarFof | dollarTff
  | lpar | rpar | comma | dot | lbrk | rbrk | colon
  | all | ex | not | vline | and | equiv | imply | leftImply | xor | notVline | notAnd | star | plus | allTy | subtype
  | eq | neq | true | false
  | squoted (s : List Char) | distinct (s : List Char)
  | ddword (s : List Char) | dword (s : List Char) | upper (s : List Char) | lower (s : List Char)
  | arrow | less | hash | slash | slosh | dash
  | int (s : List Char) | real (s : List Char) | rat (s : List Char)
deriving DecidableEq, Repr

/-- `TPTPLex` (src/Parser/tptp_lex.go:43-47) with the counters `quantifiersCounter` and
`containsEquality` (src/Parser/tptp_parse.y:40-41). -/
structure Lx where
  bef : List Char
  aft : List Char
  quants : Nat := 0
  hasEq : Bool := Bool.false
deriving DecidableEq, Repr

/-- The field `c`; it is the zero value before the first `advance`. -/
def Lx.c (x : Lx) : Char := x.bef.headD '\x00'

/-- `lexer.pos < len(lexer.s)`. -/
def Lx.more (x : Lx) : Bool := !x.aft.isEmpty

/-- `advance` (src/Parser/tptp_lex.go:72-75). -/
def advance (x : Lx) : Option Lx :=
  match x.aft with
  | [] => none
  | a :: r => some { x with bef := a :: x.bef, aft := r }

/-- `checkAdvance` (src/Parser/tptp_lex.go:64-70). -/
def checkAdvance (d : Char) (x : Lx) : Bool × Lx :=
  match x.aft with
  | [] => (Bool.false, x)
  | a :: r => if a = d then (Bool.true, { x with bef := a :: x.bef, aft := r }) else (Bool.false, x)

/-- One step back. -/
def back : Nat → List Char → List Char → Option (List Char × List Char)
  | 0, b, a => some (b, a)
  | _ + 1, [], _ => none
  | n + 1, d :: b, a => back n b (d :: a)

/-- `remove` (src/Parser/tptp_lex.go:77-85): at position 0 the position becomes 1. A negative index panics. -/
def remove (n : Nat) (x : Lx) : Option Lx :=
  match back n x.bef x.aft with
  | none => none
  | some ([], []) => none
  | some ([], a :: r) => some { x with bef := [a], aft := r }
  | some (b :: bs, a) => some { x with bef := b :: bs, aft := a }

/-- `checkNext` (src/Parser/tptp_lex.go:87-90). -/
def checkNext (d : Char) (x : Lx) : Option Bool :=
  match x.aft with
  | [] => none
  | a :: _ => some (a = d)

/-! ### Characters

`unicode.IsLetter`, `IsUpper`, `IsLower`, `IsDigit` on the first 256 characters. -/

def isLetter (d : Char) : Bool :=
  let n := d.toNat
  (65 ≤ n && n ≤ 90) || (97 ≤ n && n ≤ 122) || n == 0xAA || n == 0xB5 || n == 0xBA ||
    (0xC0 ≤ n && n ≤ 0xFF && n != 0xD7 && n != 0xF7)

def isUpper (d : Char) : Bool :=
  let n := d.toNat
  (65 ≤ n && n ≤ 90) || (0xC0 ≤ n && n ≤ 0xDE && n != 0xD7)

def isLower (d : Char) : Bool :=
  let n := d.toNat
  (97 ≤ n && n ≤ 122) || n == 0xB5 || (0xDF ≤ n && n ≤ 0xFF && n != 0xF7)

def isDigit (d : Char) : Bool := 48 ≤ d.toNat && d.toNat ≤ 57

/-- The number of bytes of `string(c)`. -/
def charLen (d : Char) : Nat := if d.toNat < 128 then 1 else 2

/-- `len(word)`. -/
def wlen (w : List Char) : Nat := (w.map charLen).sum

/-- Loops `for lexer.pos < len(lexer.s) && p(lexer.c) { word += string(lexer.c); lexer.advance() }`. -/
def spanC (p : Char → Bool) (bef : List Char) : List Char → List Char × List Char × List Char
  | [] => ([], bef, [])
  | a :: r =>
    if p (bef.headD '\x00') then
      let (w, b', r') := spanC p (a :: bef) r
      (bef.headD '\x00' :: w, b', r')
    else ([], bef, a :: r)

def spanL (p : Char → Bool) (x : Lx) : List Char × Lx :=
  let (w, b, a) := spanC p x.bef x.aft
  (w, { x with bef := b, aft := a })

/-! ### Spaces and comments -/

/-- `isPrintableChar` (src/Parser/tptp_lex.go:147-149). -/
def isPrintable (d : Char) : Bool := 32 ≤ d.toNat && d.toNat ≤ 126

/-- The loop of src/Parser/tptp_lex.go:109-114 over a comment block, with `notStarSlash`
(src/Parser/tptp_lex.go:152-154), which advances over `/` when it answers false. -/
def blockLoop (bef : List Char) : List Char → List Char × List Char
  | [] => (bef, [])
  | a :: r =>
    if bef.headD '\x00' = '*' ∧ a = '/' then (a :: bef, r) else blockLoop (a :: bef) r

/-- `filterComments` (src/Parser/tptp_lex.go:100-130). -/
def filterComments (x : Lx) : Option (Bool × Lx) :=
  if x.c = '%' then do
    let x ← advance x
    let (_, x) := spanL isPrintable x
    some (x.more, x)
  else if x.c = '/' then
    match checkAdvance '*' x with
    | (Bool.true, x) => do
      let x ← advance x
      let (b, a) := blockLoop x.bef x.aft
      let x := { x with bef := b, aft := a }
      if a = [] then none
      else if b.tail.headD '\x00' = '*' then do
        let x ← advance x
        some (x.more, x)
      else some (x.more, x)
    | (Bool.false, x) => some (x.more, x)
  else some (Bool.true, x)

def isSpace (d : Char) : Bool := d = ' ' || d = '\n' || d = '\r' || d = '\t'

/-- `filterSpaces` (src/Parser/tptp_lex.go:132-141). -/
def filterSpaces (x : Lx) : Bool × Lx :=
  let (_, x) := spanL isSpace x
  (x.more, x)

/-- The loop of src/Parser/tptp_lex.go:793-801; `false` is the early return of `FAILURE_TOKEN`. Each
round but the last moves forward, so the fuel given by `lex` is enough. -/
def filter : Nat → Lx → Option (Bool × Lx)
  | 0, _ => none
  | n + 1, x =>
    match filterComments x with
    | none => none
    | some (Bool.false, x') => some (Bool.false, x')
    | some (Bool.true, x') =>
      match filterSpaces x' with
      | (Bool.false, x'') => some (Bool.false, x'')
      | (Bool.true, x'') => if x''.bef.length = x.bef.length then some (Bool.true, x'') else filter n x''

/-! ### Syntactic tokens -/

/-- The lookup of `manageFailableReturn` (src/Parser/tptp_lex.go:865-876): a word that is not in the map
is given back except its first character. -/
def failable (m : List (List Char × Tok)) (key : List Char) (x : Lx) : Option (Option Tok × Lx) :=
  match m.lookup key with
  | some t => some (some t, x)
  | none => if 1 < wlen key then (remove (wlen key - 1) x).map fun x => (none, x) else some (none, x)

/-- src/Parser/tptp_lex.go:182-190. -/
def keywords : List (List Char × Tok) :=
  [(['f','o','f'], .kFof), (['c','n','f'], .kCnf), (['t','h','f'], .kThf), (['t','f','f'], .kTff),
   (['t','c','f'], .kTcf), (['t','p','i'], .kTpi), (['i','n','c','l','u','d','e'], .kInclude)]

/-- `isKeyword` (src/Parser/tptp_lex.go:161-193). For the empty word, `remove(len(word) - 1)` goes one step
forward. -/
def isKeyword (x : Lx) : Option (Option Tok × Lx) :=
  let (w, x) := spanL isLetter x
  if wlen w = 1 then (remove 1 x).map fun x => (none, x)
  else do
    let x ← remove 1 x
    let b ← checkNext '(' x
    if !b then
      if w.isEmpty then (advance x).map fun x => (none, x)
      else (remove (wlen w - 1) x).map fun x => (none, x)
    else failable keywords w x

/-- `isPunctuation` (src/Parser/tptp_lex.go:196-208). -/
def isPunctuation (x : Lx) : Option Tok :=
  [('(', Tok.lpar), (')', .rpar), (',', .comma), ('.', .dot), ('[', .lbrk), (']', .rbrk), (':', .colon)].lookup x.c

/-- src/Parser/tptp_lex.go:212-228. -/
def operators : List (List Char × Tok) :=
  [(['!'], .all), (['!','>'], .allTy), (['?'], .ex), (['~'], .not), (['|'], .vline), (['&'], .and),
   (['<','=','>'], .equiv), (['=','>'], .imply), (['<','='], .leftImply), (['<','~','>'], .xor),
   (['~','|'], .notVline), (['~','&'], .notAnd), (['*'], .star), (['+'], .plus), (['<','<'], .subtype)]

/-- `quantifiersCounter += 1`. -/
def count (x : Lx) : Lx := { x with quants := x.quants + 1 }

/-- `lexer.pos >= len(lexer.s) || lexer.checkNext(' ')` (src/Parser/tptp_lex.go:238 and 245). -/
def endOrSpace (x : Lx) : Bool :=
  match x.aft with
  | [] => Bool.true
  | a :: _ => a = ' '

/-- `isOperator` (src/Parser/tptp_lex.go:211-276). -/
def isOperator (x : Lx) : Option (Option Tok × Lx) :=
  let w := [x.c]
  if x.c = '!' then
    match checkAdvance '>' x with
    | (Bool.true, x) => failable operators (w ++ ['>']) (count x)
    | (Bool.false, x) => if endOrSpace x then failable operators w (count x) else some (none, x)
  else if x.c = '?' then
    if endOrSpace x then failable operators w (count x) else some (none, x)
  else if x.c = '<' then
    match checkAdvance '=' x with
    | (Bool.true, x) =>
      match checkAdvance '>' x with
      | (Bool.true, x) => failable operators (w ++ ['=', '>']) x
      | (Bool.false, x) => failable operators (w ++ ['=']) x
    | (Bool.false, x) =>
      match checkAdvance '~' x with
      | (Bool.true, x) =>
        match checkAdvance '>' x with
        | (Bool.true, x) => failable operators (w ++ ['~', '>']) x
        | (Bool.false, x) => failable operators w x
      | (Bool.false, x) =>
        match checkAdvance '<' x with
        | (Bool.true, x) => failable operators (w ++ ['<']) x
        | (Bool.false, x) => failable operators w x
  else if x.c = '=' then
    match checkAdvance '>' x with
    | (Bool.true, x) => failable operators (w ++ ['>']) x
    | (Bool.false, x) => failable operators w x
  else if x.c = '~' then
    match checkAdvance '|' x with
    | (Bool.true, x) => failable operators (w ++ ['|']) x
    | (Bool.false, x) =>
      match checkAdvance '&' x with
      | (Bool.true, x) => failable operators (w ++ ['&']) x
      | (Bool.false, x) => failable operators w x
  else failable operators w x

/-- src/Parser/tptp_lex.go:280-285. -/
def predicates : List (List Char × Tok) :=
  [(['='], .eq), (['!','='], .neq), (['$','t','r','u','e'], .true), (['$','f','a','l','s','e'], .false)]

/-- The loop of src/Parser/tptp_lex.go:293-301: the letters after the first two characters of the word. It
does not look at the last character of the text. -/
def dollarLoop (bef : List Char) : List Char → List Char × List Char × List Char
  | [] => ([], bef, [])
  | [a] => ([], bef, [a])
  | a :: b :: r =>
    if isLetter a then
      let (w, b', r') := dollarLoop (a :: bef) (b :: r)
      (a :: w, b', r')
    else ([], bef, a :: b :: r)

/-- `isPredicate` (src/Parser/tptp_lex.go:279-311). -/
def isPredicate (x : Lx) : Option (Option Tok × Lx) :=
  if x.c = '$' then do
    let y ← advance x
    let (w, b, a) := dollarLoop y.bef y.aft
    failable predicates ('$' :: y.c :: w) { y with bef := b, aft := a }
  else if x.c = '!' then
    match checkAdvance '=' x with
    | (Bool.true, y) => failable predicates ['!', '='] y
    | (Bool.false, y) => failable predicates ['!'] y
  else if x.c = '=' then failable predicates ['='] { x with hasEq := Bool.true }
  else failable predicates [x.c] x

/-- `SyntacticLex` (src/Parser/tptp_lex.go:313-331). -/
def syntacticLex (x : Lx) : Option (Option Tok × Lx) :=
  match isPunctuation x with
  | some t => some (some t, x)
  | none =>
    match isOperator x with
    | none => none
    | some (some t, x) => some (some t, x)
    | some (none, x) =>
      match isKeyword x with
      | none => none
      | some (some t, x) => some (some t, x)
      | some (none, x) => isPredicate x

/-! ### Quoted words -/

/-- `isSqChar` (src/Parser/tptp_lex.go:399-402). -/
def isSq (d : Char) : Bool :=
  let n := d.toNat
  (32 ≤ n && n ≤ 38) || (40 ≤ n && n ≤ 91) || (93 ≤ n && n ≤ 126)

/-- `isDoChar` (src/Parser/tptp_lex.go:405-408). -/
def isDo (d : Char) : Bool :=
  let n := d.toNat
  (32 ≤ n && n ≤ 33) || (35 ≤ n && n ≤ 91) || (93 ≤ n && n ≤ 126)

/-- The loops of `singleQuoted` and `distinctObject` (src/Parser/tptp_lex.go:365-379 and 381-395); `q` is
the quote. `'\\' + lexer.c` is a sum of numbers. The loop ends at a character that is not allowed, which
need not be the quote. -/
def quotedLoop (p : Char → Bool) (q : Char) (bef : List Char) :
    List Char → Option (List Char × List Char × List Char)
  | [] => if p (bef.headD '\x00') || bef.headD '\x00' = '\\' then none else some ([], bef, [])
  | a :: r =>
    if bef.headD '\x00' = '\\' then
      match r with
      | [] => none
      | b :: r' =>
        (quotedLoop p q (b :: a :: bef) r').map fun (w, b', r'') =>
          (if a = '\\' ∨ a = q then Char.ofNat ('\\'.toNat + a.toNat) :: w else w, b', r'')
    else if p (bef.headD '\x00') then
      (quotedLoop p q (a :: bef) r).map fun (w, b', r') => (bef.headD '\x00' :: w, b', r')
    else some ([], bef, a :: r)

/-- `quotedWords` (src/Parser/tptp_lex.go:352-363). -/
def quotedWords (x : Lx) : Option (Option Tok × Lx) :=
  if x.c = '\'' then do
    let y ← advance x
    let (w, b, a) ← quotedLoop isSq '\'' y.bef y.aft
    some (some (.squoted w), { y with bef := b, aft := a })
  else if x.c = '"' then do
    let y ← advance x
    let (w, b, a) ← quotedLoop isDo '"' y.bef y.aft
    some (some (.distinct w), { y with bef := b, aft := a })
  else some (none, x)

/-! ### Words -/

/-- The characters of `alphaNumeric` (src/Parser/tptp_lex.go:461). -/
def isAlnum (d : Char) : Bool := isLetter d || isDigit d || d = '_'

/-- `alphaNumeric` (src/Parser/tptp_lex.go:459-467). -/
def alphaNumeric (x : Lx) : Option (List Char × Lx) :=
  let (w, x) := spanL isAlnum x
  (remove 1 x).map fun x => (w, x)

/-- The special dollar words (src/Parser/tptp_lex.go:445-453). -/
def dollarTok (w : List Char) : Tok :=
  if w = ['$','f','o','t'] then .dollarFot
  else if w = ['$','f','o','f'] then .dollarFof
  else if w = ['$','t','f','f'] then .dollarTff
  else .dword w

/-- `word` (src/Parser/tptp_lex.go:421-456). -/
def word (x : Lx) : Option (Option Tok × Lx) :=
  if x.c = '$' then
    match checkAdvance '$' x with
    | (Bool.true, y) => do
      let y ← advance y
      let (w, y) ← alphaNumeric y
      some (some (.ddword ('$' :: w)), y)
    | (Bool.false, y) => do
      let y ← advance y
      let (w, y) ← alphaNumeric y
      some (some (dollarTok ('$' :: w)), y)
  else if isUpper x.c then (alphaNumeric x).map fun (w, y) => (some (.upper w), y)
  else if isLower x.c then (alphaNumeric x).map fun (w, y) => (some (.lower w), y)
  else some (none, x)

/-! ### Numbers

The functions add characters to `yylval.str` (here `str`, which is empty before `number`) and answer
whether they succeeded; after a failure they go back. -/

/-- `lexer.pos == len(lexer.s)-1`. -/
def atLast (x : Lx) : Bool := x.aft.length = 1

/-- The loop over digits of `positiveDecimal`, `dotDecimal` and `unsignedExpInteger`
(src/Parser/tptp_lex.go:600-608, 628-636, 664-672). -/
def digits (str : List Char) (x : Lx) : Option (List Char × Lx) :=
  let (w, x) := spanL isDigit x
  (remove 1 x).map fun x => (if atLast x then str ++ w ++ [x.c] else str ++ w, x)

/-- `isNonZeroNumeric` (src/Parser/tptp_lex.go:777-779). -/
def isNonZero (d : Char) : Bool := 49 ≤ d.toNat && d.toNat ≤ 57

/-- `positiveDecimal` (src/Parser/tptp_lex.go:595-611). -/
def positiveDecimal (str : List Char) (x : Lx) : Option (Bool × List Char × Lx) :=
  if isNonZero x.c then (digits str x).map fun (s, y) => (Bool.true, s, y)
  else some (Bool.false, str, x)

/-- `decimal` (src/Parser/tptp_lex.go:586-592). -/
def decimal (str : List Char) (x : Lx) : Option (Bool × List Char × Lx) :=
  if x.c = '0' then some (Bool.true, str ++ ['0'], x) else positiveDecimal str x

/-- `dotDecimal` (src/Parser/tptp_lex.go:614-639). -/
def dotDecimal (str : List Char) (x : Lx) : Option (Bool × List Char × Lx) :=
  if x.c = '.' then do
    let y ← advance x
    if isDigit y.c then (digits (str ++ ['.']) y).map fun (s, z) => (Bool.true, s, z)
    else (remove 2 y).map fun z => (Bool.false, str, z)
  else some (Bool.false, str, x)

/-- `decimalFraction` (src/Parser/tptp_lex.go:566-583). -/
def decimalFraction (str : List Char) (x : Lx) : Option (Bool × List Char × Lx) := do
  let (b, s, y) ← decimal str x
  if !b then some (Bool.false, s, y)
  else
    let y ← advance y
    let (b, s', y) ← dotDecimal s y
    if b then some (Bool.true, s', y)
    else
      let y ← remove 1 y
      let y ← remove (s'.length - str.length - 1) y
      some (Bool.false, str, y)

/-- `unsignedExpInteger` (src/Parser/tptp_lex.go:659-675). -/
def unsignedExpInteger (str : List Char) (x : Lx) : Option (Bool × List Char × Lx) :=
  if isDigit x.c then (digits str x).map fun (s, y) => (Bool.true, s, y) else some (Bool.false, str, x)

/-- `isSign` (src/Parser/tptp_lex.go:757-759). -/
def isSign (d : Char) : Bool := d = '-' || d = '+'

/-- `expInteger`, `signedExpInteger` (src/Parser/tptp_lex.go:642-656). A failure after a sign is followed by
an attempt without a sign from the character reached. -/
def expInteger (str : List Char) (x : Lx) : Option (Bool × List Char × Lx) :=
  if isSign x.c then do
    let y ← advance x
    let (b, s, z) ← unsignedExpInteger (str ++ [x.c]) y
    if b then some (Bool.true, s, z) else unsignedExpInteger s z
  else unsignedExpInteger str x

/-- `decimalExponent` (src/Parser/tptp_lex.go:546-563). -/
def decimalExponent (str : List Char) (x : Lx) : Option (Bool × List Char × Lx) := do
  let (b, s, y) ← decimalFraction str x
  let (b, s, y) ← if b then some (Bool.true, s, y) else decimal s y
  if !b then some (Bool.false, s, y)
  else
    let y ← advance y
    if y.c = 'e' ∨ y.c = 'E' then
      let z ← advance y
      expInteger (s ++ [y.c]) z
    else
      let y ← remove (s.length - str.length) y
      some (Bool.false, str, y)

/-- `unsignedReal` (src/Parser/tptp_lex.go:541-543). -/
def unsignedReal (str : List Char) (x : Lx) : Option (Bool × List Char × Lx) := do
  let (b, s, y) ← decimalExponent str x
  if b then some (Bool.true, s, y) else decimalFraction s y

/-- `unsignedRational` (src/Parser/tptp_lex.go:736-753). -/
def unsignedRational (str : List Char) (x : Lx) : Option (Bool × List Char × Lx) := do
  let (b, s, y) ← decimal str x
  if !b then some (Bool.false, s, y)
  else
    let y ← advance y
    if y.c = '/' then
      let z ← advance y
      positiveDecimal (s ++ ['/']) z
    else
      let y ← remove (s.length - str.length) y
      some (Bool.false, str, y)

/-- The signed versions `signedReal`, `signedRational`, `signedInteger` (src/Parser/tptp_lex.go:524-538,
719-733, 687-702) followed by the unsigned ones (lines 519-521, 714-716, 682-684). -/
def signed (f : List Char → Lx → Option (Bool × List Char × Lx)) (str : List Char) (x : Lx) :
    Option (Bool × List Char × Lx) :=
  if isSign x.c then do
    let y ← advance x
    let (b, s, z) ← f (str ++ [x.c]) y
    if b then some (Bool.true, s, z)
    else
      let z ← remove 1 z
      f s.dropLast z
  else f str x

/-- `number` (src/Parser/tptp_lex.go:503-512). -/
def number (x : Lx) : Option (Option Tok × Lx) := do
  let (b, s, y) ← signed unsignedReal [] x
  if b then some (some (.real s), y)
  else
    let (b, s, y) ← signed unsignedRational s y
    if b then some (some (.rat s), y)
    else
      let (b, s, y) ← signed decimal s y
      if b then some (some (.int s), y) else some (none, y)

/-- `specialChars` (src/Parser/tptp_lex.go:480-497). -/
def specialChars (x : Lx) : Option Tok :=
  [('>', Tok.arrow), ('<', .less), ('#', .hash), ('/', .slash), ('\\', .slosh), ('-', .dash)].lookup x.c

/-- The part of `Lex` after spaces and comments (src/Parser/tptp_lex.go:803-828); the token `FAILURE_TOKEN` is
`none`. -/
def lexTok (x : Lx) : Option (Option Tok × Lx) :=
  match syntacticLex x with
  | none => none
  | some (some t, x) => some (some t, x)
  | some (none, x) =>
    match quotedWords x with
    | none => none
    | some (some t, x) => some (some t, x)
    | some (none, x) =>
      match word x with
      | none => none
      | some (some t, x) => some (some t, x)
      | some (none, x) =>
        match number x with
        | none => none
        | some (some t, x) => some (some t, x)
        | some (none, x) => some (specialChars x, x)

/-- `Lex` (src/Parser/tptp_lex.go:790-829). -/
def lex (x : Lx) : Option (Option Tok × Lx) :=
  match advance x with
  | none => none
  | some x =>
    match filter (x.aft.length + 2) x with
    | none => none
    | some (Bool.false, x) => some (none, x)
    | some (Bool.true, x) => lexTok x

/-- The tokens the generated parser gets. `FAILURE_TOKEN` is 0, the number of the end of the input
(`goyacc` takes every token ≤ 0 as the end), so the parser asks for no token after it. Each token is at
least one character, so the fuel given by `tokens` is enough. -/
def lexAll : Nat → Lx → Option (List Tok × Lx)
  | 0, _ => none
  | n + 1, x =>
    match lex x with
    | none => none
    | some (none, y) => some ([], y)
    | some (some t, y) => (lexAll n y).map fun (ts, z) => (t :: ts, z)

/-- The tokens of a file (`TPTPParse(&TPTPLex{s: string(data)})`, src/Parser/tptp_lex.go:848). -/
def tokens (s : List Char) : Option (List Tok) :=
  (lexAll (s.length + 1) { bef := [], aft := s }).map (·.1)

end Verif.Parser
