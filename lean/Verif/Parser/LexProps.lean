import Verif.Parser.Lex
/-!
# Reading a file as tokens (C84)

The specification is the lexical part of the TPTP grammar, written down without the lexer: how each token
is spelled (`Spell`), what may stand between tokens (`Sep`), and which characters may not follow a token
directly because they would belong to it (`glue`).
-/

namespace Verif.Parser

/-! ### Specification -/

/-- Letters, digits and the underscore: `<alpha_numeric>`. -/
def AlphaNum (d : Char) : Prop :=
  (97 ≤ d.toNat ∧ d.toNat ≤ 122) ∨ (65 ≤ d.toNat ∧ d.toNat ≤ 90) ∨ (48 ≤ d.toNat ∧ d.toNat ≤ 57) ∨ d = '_'

/-- `<numeric>`. -/
def Numeric (d : Char) : Prop := 48 ≤ d.toNat ∧ d.toNat ≤ 57

/-- Tokens with a fixed spelling. -/
def symbols : List (Tok × List Char) :=
  [(.kFof, ['f', 'o', 'f']), (.kCnf, ['c', 'n', 'f']), (.kThf, ['t', 'h', 'f']), (.kTff, ['t', 'f', 'f']),
   (.kTcf, ['t', 'c', 'f']), (.kTpi, ['t', 'p', 'i']), (.kInclude, ['i', 'n', 'c', 'l', 'u', 'd', 'e']),
   (.dollarFot, ['$', 'f', 'o', 't']), (.dollarFof, ['$', 'f', 'o', 'f']), (.dollarTff, ['$', 't', 'f', 'f']),
   (.lpar, ['(']), (.rpar, [')']), (.comma, [',']), (.dot, ['.']), (.lbrk, ['[']), (.rbrk, [']']), (.colon, [':']),
   (.all, ['!']), (.ex, ['?']), (.not, ['~']), (.vline, ['|']), (.and, ['&']), (.equiv, ['<', '=', '>']),
   (.imply, ['=', '>']), (.leftImply, ['<', '=']), (.xor, ['<', '~', '>']), (.notVline, ['~', '|']),
   (.notAnd, ['~', '&']), (.star, ['*']), (.plus, ['+']), (.allTy, ['!', '>']), (.subtype, ['<', '<']),
   (.eq, ['=']), (.neq, ['!', '=']), (.true, ['$', 't', 'r', 'u', 'e']), (.false, ['$', 'f', 'a', 'l', 's', 'e']),
   (.arrow, ['>']), (.less, ['<']), (.hash, ['#']), (.slash, ['/']), (.slosh, ['\\']), (.dash, ['-'])]

/-- `<decimal>`: `0` or digits not beginning with `0`. -/
def Decimal (w : List Char) : Prop :=
  w = ['0'] ∨ ∃ d r, w = d :: r ∧ 49 ≤ d.toNat ∧ d.toNat ≤ 57 ∧ ∀ e ∈ r, Numeric e

/-- An optional sign. -/
def Sign (w : List Char) : Prop := w = [] ∨ w = ['-'] ∨ w = ['+']

/-- `<exponent><exp_integer>` -/
def Expo (w : List Char) : Prop :=
  ∃ e s d, w = e :: (s ++ d) ∧ (e = 'e' ∨ e = 'E') ∧ Sign s ∧ d ≠ [] ∧ ∀ x ∈ d, Numeric x

/-- The spellings of a character inside quotes `q`: itself if it is printable and not `q` or a backslash, or
a backslash followed by `q` or a backslash. -/
inductive QChars (q : Char) : List Char → List Char → Prop
  | nil : QChars q [] []
  | plain {d v w} : 32 ≤ d.toNat → d.toNat ≤ 126 → d ≠ q → d ≠ '\\' → QChars q v w → QChars q (d :: v) (d :: w)
  | esc {d v w} : d = q ∨ d = '\\' → QChars q v w → QChars q (d :: v) ('\\' :: d :: w)

/-- How a token is written. Words of two dollars are left out: no rule of the grammar uses them. -/
inductive Spell : Tok → List Char → Prop
  | sym {t w} : (t, w) ∈ symbols → Spell t w
  | lower {d r} : 97 ≤ d.toNat → d.toNat ≤ 122 → (∀ e ∈ r, AlphaNum e) → (∀ t, (t, d :: r) ∉ symbols) →
      Spell (.lower (d :: r)) (d :: r)
  | upper {d r} : 65 ≤ d.toNat → d.toNat ≤ 90 → (∀ e ∈ r, AlphaNum e) → Spell (.upper (d :: r)) (d :: r)
  | dword {r} : (∀ e ∈ r, AlphaNum e) → (∀ t, (t, '$' :: r) ∉ symbols) → Spell (.dword ('$' :: r)) ('$' :: r)
  | squoted {v w} : QChars '\'' v w → Spell (.squoted v) ('\'' :: (w ++ ['\'']))
  | distinct {v w} : QChars '"' v w → Spell (.distinct v) ('"' :: (w ++ ['"']))
  | int {s d} : Sign s → Decimal d → Spell (.int (s ++ d)) (s ++ d)
  | rat {s n d e r} : Sign s → Decimal n → d = e :: r → 49 ≤ e.toNat → e.toNat ≤ 57 → (∀ x ∈ r, Numeric x) →
      Spell (.rat (s ++ n ++ '/' :: d)) (s ++ n ++ '/' :: d)
  | frac {s n d} : Sign s → Decimal n → d ≠ [] → (∀ x ∈ d, Numeric x) →
      Spell (.real (s ++ n ++ '.' :: d)) (s ++ n ++ '.' :: d)
  | exp {s n x} : Sign s → Decimal n → Expo x → Spell (.real (s ++ n ++ x)) (s ++ n ++ x)
  | fracExp {s n d x} : Sign s → Decimal n → d ≠ [] → (∀ x ∈ d, Numeric x) → Expo x →
      Spell (.real (s ++ n ++ '.' :: d ++ x)) (s ++ n ++ '.' :: d ++ x)

/-- What may stand between tokens: white space, comments up to the end of the line, and comment blocks. -/
inductive Sep : List Char → Prop
  | nil : Sep []
  | space {d r} : d = ' ' ∨ d = '\n' ∨ d = '\r' ∨ d = '\t' → Sep r → Sep (d :: r)
  | line {w r} : (∀ d ∈ w, 32 ≤ d.toNat ∧ d.toNat ≤ 126) → Sep r → Sep ('%' :: (w ++ '\n' :: r))
  | block {w r} : (∀ u v, w ≠ u ++ '*' :: '/' :: v) → Sep r → Sep ('/' :: '*' :: (w ++ '*' :: '/' :: r))

/-- The character would be taken as part of the token if it came directly after it. -/
def glue : Tok → Char → Prop
  | .lpar, _ | .rpar, _ | .comma, _ | .dot, _ | .lbrk, _ | .rbrk, _ | .colon, _ => False
  | .squoted _, _ | .distinct _, _ => False
  | .ex, _ | .vline, _ | .and, _ | .equiv, _ | .imply, _ | .xor, _ | .notVline, _ | .notAnd, _ | .star, _ => False
  | .allTy, _ | .subtype, _ | .neq, _ | .arrow, _ | .hash, _ | .slosh, _ => False
  | .all, d => d = '=' ∨ d = '>'
  | .not, d => d = '|' ∨ d = '&'
  | .eq, d => d = '>'
  | .leftImply, d => d = '>'
  | .less, d => d = '=' ∨ d = '~' ∨ d = '<'
  | .slash, d => d = '*'
  | .dash, d | .plus, d => Numeric d
  | .int _, d | .real _, d | .rat _, d => AlphaNum d ∨ d = '.' ∨ d = '/'
  | _, d => AlphaNum d

/-- The text is a way of writing the tokens. -/
inductive Written : List Tok → List Char → Prop
  | nil {s} : Sep s → Written [] s
  | cons {s t w ts r} : Sep s → Spell t w → (∀ d r', r = d :: r' → ¬ glue t d) → Written ts r →
      Written (t :: ts) (s ++ (w ++ r))

/-- **C84, full statement.** A file in which tokens are written as the TPTP grammar allows is read as these
tokens. -/
def C84_statement : Prop := ∀ ts s, Written ts s → tokens s = some ts

/-! ### Steps of the lexer -/

theorem spanC_run (p : Char → Bool) : ∀ (w : List Char) (c : Char) (b : List Char) (d : Char) (r : List Char),
    p c = true → (∀ e ∈ w, p e = true) → p d = false →
    spanC p (c :: b) (w ++ d :: r) = (c :: w, d :: (w.reverse ++ c :: b), r)
  | [], c, b, d, r, hc, _, hd => by
    cases r with
    | nil => simp [spanC, hc]
    | cons e r => simp [spanC, hc, hd]
  | a :: w, c, b, d, r, hc, hw, hd => by
    have ih := spanC_run p w a (c :: b) d r (hw a (by simp)) (fun e he => hw e (by simp [he])) hd
    simp [spanC, hc, ih]

theorem spanC_stop (p : Char → Bool) (c : Char) (b a : List Char) (hc : p c = false) :
    spanC p (c :: b) a = ([], c :: b, a) := by
  cases a <;> simp [spanC, hc]

theorem spanL_run (p : Char → Bool) (w : List Char) (c : Char) (b : List Char) (d : Char) (r : List Char) (q : Nat) (e : Bool)
    (hc : p c = true) (hw : ∀ e ∈ w, p e = true) (hd : p d = false) :
    spanL p ⟨c :: b, w ++ d :: r, q, e⟩ = (c :: w, ⟨d :: (w.reverse ++ c :: b), r, q, e⟩) := by
  simp [spanL, spanC_run p w c b d r hc hw hd]

theorem spanL_stop (p : Char → Bool) (c : Char) (b a : List Char) (q : Nat) (e : Bool) (hc : p c = false) :
    spanL p ⟨c :: b, a, q, e⟩ = ([], ⟨c :: b, a, q, e⟩) := by
  simp [spanL, spanC_stop p c b a hc]

theorem back_run : ∀ (w b a : List Char), back w.length (w ++ b) a = some (b, w.reverse ++ a)
  | [], b, a => by simp [back]
  | c :: w, b, a => by simp [back, back_run w b (c :: a)]

theorem remove_run (w : List Char) (c : Char) (b a : List Char) (q : Nat) (e : Bool) (n : Nat) (hn : n = w.length) :
    remove n ⟨w.reverse ++ c :: b, a, q, e⟩ = some ⟨c :: b, w ++ a, q, e⟩ := by
  subst hn
  have := back_run w.reverse (c :: b) a
  simp only [List.length_reverse, List.reverse_reverse] at this
  simp [remove, this]

theorem remove_one (c d : Char) (b a : List Char) (q : Nat) (e : Bool) :
    remove 1 ⟨c :: d :: b, a, q, e⟩ = some ⟨d :: b, c :: a, q, e⟩ := by simp [remove, back]

theorem wlen_ascii : ∀ (w : List Char), (∀ d ∈ w, d.toNat < 128) → wlen w = w.length
  | [], _ => rfl
  | c :: w, h => by
    have h1 := wlen_ascii w (fun d hd => h d (by simp [hd]))
    have h2 := h c (by simp)
    simp [wlen, charLen, h2] at h1 ⊢
    omega

theorem isKeyword_other (c d : Char) (b a : List Char) (q : Nat) (e : Bool) (hc : isLetter c = false) (hp : c ≠ '(') :
    isKeyword ⟨c :: d :: b, a, q, e⟩ = some (none, ⟨c :: d :: b, a, q, e⟩) := by
  simp [isKeyword, spanL_stop isLetter c (d :: b) a q e hc, wlen, remove_one, checkNext, hp, advance]

theorem isKeyword_word (c : Char) (w : List Char) (d : Char) (b r : List Char) (q : Nat) (e : Bool)
    (hc : isLetter c = true) (hw : ∀ x ∈ w, isLetter x = true) (hd : isLetter d = false)
    (ha : ∀ x ∈ c :: w, x.toNat < 128) (hk : w = [] ∨ d ≠ '(' ∨ keywords.lookup (c :: w) = none) :
    isKeyword ⟨c :: b, w ++ d :: r, q, e⟩ = some (none, ⟨c :: b, w ++ d :: r, q, e⟩) := by
  have hl := wlen_ascii _ ha
  have hrm : ∀ y, remove 1 ⟨d :: (w.reverse ++ c :: b), r, y, e⟩ = some ⟨w.reverse ++ c :: b, d :: r, y, e⟩ := by
    intro y
    cases hw' : w.reverse ++ c :: b with
    | nil => simp at hw'
    | cons f g => exact remove_one d f g r y e
  have hrm2 := remove_run w c b (d :: r) q e w.length rfl
  cases w with
  | nil =>
    simp only [isKeyword, spanL_run isLetter [] c b d r q e hc (by simp) hd, hl, hrm]
    simp
  | cons f w =>
    simp only [isKeyword, spanL_run isLetter (f :: w) c b d r q e hc hw hd, hl]
    have h1 : (c :: f :: w).length ≠ 1 := by simp
    have h2 : (c :: f :: w).length - 1 = (f :: w).length := by simp
    simp only [h1, if_false, hrm, h2, Option.bind_eq_bind, Option.bind_some, checkNext, hrm2]
    by_cases hd' : d = '('
    · rcases hk with hk | hk | hk
      · cases hk
      · exact absurd hd' hk
      · simp [hd', failable, hk, hl, h2]
        simpa [hd'] using hrm2
    · simp [hd']

theorem isKeyword_key (t : Tok) (c : Char) (w : List Char) (b r : List Char) (q : Nat) (e : Bool)
    (hc : isLetter c = true) (hw : ∀ x ∈ w, isLetter x = true)
    (ha : ∀ x ∈ c :: w, x.toNat < 128) (hn : w ≠ []) (hk : keywords.lookup (c :: w) = some t) :
    isKeyword ⟨c :: b, w ++ '(' :: r, q, e⟩ = some (some t, ⟨w.reverse ++ c :: b, '(' :: r, q, e⟩) := by
  have hl := wlen_ascii _ ha
  have hrm : ∀ y, remove 1 ⟨'(' :: (w.reverse ++ c :: b), r, y, e⟩ = some ⟨w.reverse ++ c :: b, '(' :: r, y, e⟩ := by
    intro y
    cases hw' : w.reverse ++ c :: b with
    | nil => simp at hw'
    | cons f g => exact remove_one _ f g r y e
  have h1 : (c :: w).length ≠ 1 := by cases w; exact absurd rfl hn; simp
  simp only [isKeyword, spanL_run isLetter w c b '(' r q e hc hw (by decide), hl]
  simp [h1, hrm, checkNext, failable, hk]
  intro h; exact absurd h hn

/-! ### Tokens without backtracking -/

/-- Counters after a token. -/
def addQ : Tok → Nat → Nat
  | .all, n | .ex, n | .allTy, n => n + 1
  | _, n => n

def addE : Tok → Bool → Bool
  | .eq, _ => Bool.true
  | _, b => b

theorem tok_punct (t : Tok) (c : Char) (b r : List Char) (q : Nat) (e : Bool)
    (h : [('(', Tok.lpar), (')', .rpar), (',', .comma), ('.', .dot), ('[', .lbrk), (']', .rbrk), (':', .colon)].lookup c = some t) :
    lexTok ⟨c :: b, r, q, e⟩ = some (some t, ⟨c :: b, r, q, e⟩) := by
  have : isPunctuation ⟨c :: b, r, q, e⟩ = some t := h
  simp [lexTok, syntacticLex, this]

theorem lexTok_of_op (t : Tok) (x y : Lx) (hp : isPunctuation x = none) (ho : isOperator x = some (some t, y)) :
    lexTok x = some (some t, y) := by
  simp [lexTok, syntacticLex, hp, ho]

theorem tok_all (b r : List Char) (q : Nat) (e : Bool) :
    lexTok ⟨'!' :: b, ' ' :: r, q, e⟩ = some (some .all, ⟨'!' :: b, ' ' :: r, q + 1, e⟩) :=
  lexTok_of_op _ _ _ rfl (by simp [List.lookup, isOperator, Lx.c, checkAdvance, endOrSpace, failable, operators, count])

theorem tok_ex (b r : List Char) (q : Nat) (e : Bool) :
    lexTok ⟨'?' :: b, ' ' :: r, q, e⟩ = some (some .ex, ⟨'?' :: b, ' ' :: r, q + 1, e⟩) :=
  lexTok_of_op _ _ _ rfl (by simp [List.lookup, isOperator, Lx.c, endOrSpace, failable, operators, count])

theorem tok_allTy (b r : List Char) (q : Nat) (e : Bool) :
    lexTok ⟨'!' :: b, '>' :: r, q, e⟩ = some (some .allTy, ⟨'>' :: '!' :: b, r, q + 1, e⟩) :=
  lexTok_of_op _ _ _ rfl (by simp [List.lookup, isOperator, Lx.c, checkAdvance, failable, operators, count])

/-- Operators of one character that is not the beginning of a longer one. -/
theorem tok_op1 (t : Tok) (c : Char) (b r : List Char) (q : Nat) (e : Bool)
    (h : [('|', Tok.vline), ('&', .and), ('*', .star), ('+', .plus)].lookup c = some t) :
    lexTok ⟨c :: b, r, q, e⟩ = some (some t, ⟨c :: b, r, q, e⟩) := by
  have : c = '|' ∧ t = .vline ∨ c = '&' ∧ t = .and ∨ c = '*' ∧ t = .star ∨ c = '+' ∧ t = .plus := by
    simp only [List.lookup] at h
    split at h <;> simp_all
    split at h <;> simp_all
    split at h <;> simp_all
    split at h <;> simp_all
  rcases this with ⟨rfl, rfl⟩ | ⟨rfl, rfl⟩ | ⟨rfl, rfl⟩ | ⟨rfl, rfl⟩ <;>
    exact lexTok_of_op _ _ _ rfl (by simp [List.lookup, isOperator, Lx.c, failable, operators])

theorem tok_not (b r : List Char) (q : Nat) (e : Bool) (h : ∀ d r', r = d :: r' → ¬ (d = '|' ∨ d = '&')) :
    lexTok ⟨'~' :: b, r, q, e⟩ = some (some .not, ⟨'~' :: b, r, q, e⟩) := by
  refine lexTok_of_op _ _ _ rfl ?_
  cases r with
  | nil => simp [List.lookup, isOperator, Lx.c, failable, operators, checkAdvance]
  | cons d r =>
    have := h d r rfl
    simp only [not_or] at this
    simp [List.lookup, isOperator, Lx.c, failable, operators, checkAdvance, this]

theorem tok_notVline (b r : List Char) (q : Nat) (e : Bool) :
    lexTok ⟨'~' :: b, '|' :: r, q, e⟩ = some (some .notVline, ⟨'|' :: '~' :: b, r, q, e⟩) :=
  lexTok_of_op _ _ _ rfl (by simp [List.lookup, isOperator, Lx.c, checkAdvance, failable, operators])

theorem tok_notAnd (b r : List Char) (q : Nat) (e : Bool) :
    lexTok ⟨'~' :: b, '&' :: r, q, e⟩ = some (some .notAnd, ⟨'&' :: '~' :: b, r, q, e⟩) :=
  lexTok_of_op _ _ _ rfl (by simp [List.lookup, isOperator, Lx.c, checkAdvance, failable, operators])

theorem tok_equiv (b r : List Char) (q : Nat) (e : Bool) :
    lexTok ⟨'<' :: b, '=' :: '>' :: r, q, e⟩ = some (some .equiv, ⟨'>' :: '=' :: '<' :: b, r, q, e⟩) :=
  lexTok_of_op _ _ _ rfl (by simp [List.lookup, isOperator, Lx.c, checkAdvance, failable, operators])

theorem tok_leftImply (b r : List Char) (q : Nat) (e : Bool) (h : ∀ d r', r = d :: r' → d ≠ '>') :
    lexTok ⟨'<' :: b, '=' :: r, q, e⟩ = some (some .leftImply, ⟨'=' :: '<' :: b, r, q, e⟩) := by
  refine lexTok_of_op _ _ _ rfl ?_
  cases r with
  | nil => simp [List.lookup, isOperator, Lx.c, failable, operators, checkAdvance]
  | cons d r => simp [List.lookup, isOperator, Lx.c, failable, operators, checkAdvance, h d r rfl]

theorem tok_xor (b r : List Char) (q : Nat) (e : Bool) :
    lexTok ⟨'<' :: b, '~' :: '>' :: r, q, e⟩ = some (some .xor, ⟨'>' :: '~' :: '<' :: b, r, q, e⟩) :=
  lexTok_of_op _ _ _ rfl (by simp [List.lookup, isOperator, Lx.c, checkAdvance, failable, operators])

theorem tok_subtype (b r : List Char) (q : Nat) (e : Bool) :
    lexTok ⟨'<' :: b, '<' :: r, q, e⟩ = some (some .subtype, ⟨'<' :: '<' :: b, r, q, e⟩) :=
  lexTok_of_op _ _ _ rfl (by simp [List.lookup, isOperator, Lx.c, checkAdvance, failable, operators])

theorem tok_imply (b r : List Char) (q : Nat) (e : Bool) :
    lexTok ⟨'=' :: b, '>' :: r, q, e⟩ = some (some .imply, ⟨'>' :: '=' :: b, r, q, e⟩) :=
  lexTok_of_op _ _ _ rfl (by simp [List.lookup, isOperator, Lx.c, checkAdvance, failable, operators])

theorem tok_eq (f : Char) (b r : List Char) (q : Nat) (e : Bool) (h : ∀ d r', r = d :: r' → d ≠ '>') :
    lexTok ⟨'=' :: f :: b, r, q, e⟩ = some (some .eq, ⟨'=' :: f :: b, r, q, Bool.true⟩) := by
  have ho : isOperator ⟨'=' :: f :: b, r, q, e⟩ = some (none, ⟨'=' :: f :: b, r, q, e⟩) := by
    cases r with
    | nil => simp [List.lookup, isOperator, Lx.c, failable, operators, checkAdvance, wlen, charLen]
    | cons d r => simp [List.lookup, isOperator, Lx.c, failable, operators, checkAdvance, h d r rfl, wlen, charLen]
  have hp : isPunctuation ⟨'=' :: f :: b, r, q, e⟩ = none := rfl
  simp [List.lookup, lexTok, syntacticLex, hp, ho, isKeyword_other '=' f b r q e rfl (by decide), isPredicate, Lx.c, failable,
    predicates]

theorem tok_neq (f : Char) (b r : List Char) (q : Nat) (e : Bool) :
    lexTok ⟨'!' :: f :: b, '=' :: r, q, e⟩ = some (some .neq, ⟨'=' :: '!' :: f :: b, r, q, e⟩) := by
  have ho : isOperator ⟨'!' :: f :: b, '=' :: r, q, e⟩ = some (none, ⟨'!' :: f :: b, '=' :: r, q, e⟩) := by
    simp [List.lookup, isOperator, Lx.c, checkAdvance, endOrSpace]
  have hp : isPunctuation ⟨'!' :: f :: b, '=' :: r, q, e⟩ = none := rfl
  simp [List.lookup, lexTok, syntacticLex, hp, ho, isKeyword_other '!' f b _ q e rfl (by decide), isPredicate, Lx.c, failable,
    predicates, checkAdvance]

/-! ### Characters that begin no operator -/

/-- A character that begins no punctuation, operator or predicate. -/
def Plain (c : Char) : Prop :=
  c ∉ ['(', ')', ',', '.', '[', ']', ':', '!', '?', '<', '=', '~', '|', '&', '*', '+', '$']

theorem plain_of_alnum {c : Char} (h : AlphaNum c) : Plain c := by
  intro hc
  simp only [List.mem_cons, List.not_mem_nil, or_false] at hc
  rcases hc with rfl | rfl | rfl | rfl | rfl | rfl | rfl | rfl | rfl | rfl | rfl | rfl | rfl | rfl | rfl | rfl | rfl <;>
    revert h <;> unfold AlphaNum <;> decide

theorem isPunctuation_plain {c : Char} (h : Plain c ∨ c = '$') (b r : List Char) (q : Nat) (e : Bool) :
    isPunctuation ⟨c :: b, r, q, e⟩ = none := by
  have : c ∉ ['(', ')', ',', '.', '[', ']', ':'] := by
    rcases h with h | rfl
    · intro hc; apply h; revert hc; simp only [List.mem_cons, List.not_mem_nil, or_false]; grind
    · decide
  simp only [List.mem_cons, List.not_mem_nil, or_false, not_or] at this
  obtain ⟨h1, h2, h3, h4, h5, h6, h7⟩ := this
  simp only [isPunctuation, Lx.c, List.headD_cons, List.lookup]
  simp [beq_eq_false_iff_ne.2 h1, beq_eq_false_iff_ne.2 h2, beq_eq_false_iff_ne.2 h3, beq_eq_false_iff_ne.2 h4,
    beq_eq_false_iff_ne.2 h5, beq_eq_false_iff_ne.2 h6, beq_eq_false_iff_ne.2 h7]

theorem charLen_le (c : Char) : wlen [c] ≤ 2 := by simp [wlen, charLen]; split <;> omega

theorem isOperator_plain {c : Char} (h : Plain c ∨ c = '$') (ha : c.toNat < 128) (b r : List Char) (q : Nat) (e : Bool) :
    isOperator ⟨c :: b, r, q, e⟩ = some (none, ⟨c :: b, r, q, e⟩) := by
  have : c ∉ ['!', '?', '<', '=', '~', '|', '&', '*', '+'] := by
    rcases h with h | rfl
    · intro hc; apply h; revert hc; simp only [List.mem_cons, List.not_mem_nil, or_false]; grind
    · decide
  simp only [List.mem_cons, List.not_mem_nil, or_false, not_or] at this
  obtain ⟨h1, h2, h3, h4, h5, h6, h7, h8, h9⟩ := this
  have hl : wlen [c] = 1 := by simp [wlen, charLen, ha]
  have hlk : operators.lookup [c] = none := by
    simp [operators, List.lookup, beq_eq_false_iff_ne.2 h1, beq_eq_false_iff_ne.2 h2, beq_eq_false_iff_ne.2 h3,
      beq_eq_false_iff_ne.2 h4, beq_eq_false_iff_ne.2 h5, beq_eq_false_iff_ne.2 h6, beq_eq_false_iff_ne.2 h7,
      beq_eq_false_iff_ne.2 h8, beq_eq_false_iff_ne.2 h9]
  simp [isOperator, Lx.c, h1, h2, h3, h4, h5, failable, hlk, hl]

theorem isPredicate_plain {c : Char} (h : Plain c) (ha : c.toNat < 128) (b r : List Char) (q : Nat) (e : Bool) :
    isPredicate ⟨c :: b, r, q, e⟩ = some (none, ⟨c :: b, r, q, e⟩) := by
  have : c ∉ ['!', '=', '$'] := by
    intro hc; apply h; revert hc; simp only [List.mem_cons, List.not_mem_nil, or_false]; grind
  simp only [List.mem_cons, List.not_mem_nil, or_false, not_or] at this
  obtain ⟨h1, h2, h3⟩ := this
  have hl : wlen [c] = 1 := by simp [wlen, charLen, ha]
  have hlk : predicates.lookup [c] = none := by
    simp [predicates, List.lookup, beq_eq_false_iff_ne.2 h1, beq_eq_false_iff_ne.2 h2, beq_eq_false_iff_ne.2 h3]
  simp [isPredicate, Lx.c, h1, h2, h3, failable, hlk, hl]

theorem syntacticLex_other {c : Char} (h : Plain c) (ha : c.toNat < 128) (hc : isLetter c = false) (f : Char)
    (b r : List Char) (q : Nat) (e : Bool) :
    syntacticLex ⟨c :: f :: b, r, q, e⟩ = some (none, ⟨c :: f :: b, r, q, e⟩) := by
  have hp : c ≠ '(' := by rintro rfl; exact h (by simp)
  simp [syntacticLex, isPunctuation_plain (.inl h), isOperator_plain (.inl h) ha, isKeyword_other c f b r q e hc hp,
    isPredicate_plain h ha]

theorem syntacticLex_word {c : Char} (h : Plain c) (w : List Char) (d : Char) (b r : List Char) (q : Nat) (e : Bool)
    (hc : isLetter c = true) (hw : ∀ x ∈ w, isLetter x = true) (hd : isLetter d = false)
    (ha : ∀ x ∈ c :: w, x.toNat < 128) (hk : w = [] ∨ d ≠ '(' ∨ keywords.lookup (c :: w) = none) :
    syntacticLex ⟨c :: b, w ++ d :: r, q, e⟩ = some (none, ⟨c :: b, w ++ d :: r, q, e⟩) := by
  have hc' := ha c (by simp)
  simp [syntacticLex, isPunctuation_plain (.inl h), isOperator_plain (.inl h) hc', isKeyword_word c w d b r q e hc hw hd ha hk,
    isPredicate_plain h hc']

theorem tok_key (t : Tok) (c : Char) (w : List Char) (b r : List Char) (q : Nat) (e : Bool) (h : Plain c)
    (hc : isLetter c = true) (hw : ∀ x ∈ w, isLetter x = true)
    (ha : ∀ x ∈ c :: w, x.toNat < 128) (hn : w ≠ []) (hk : keywords.lookup (c :: w) = some t) :
    lexTok ⟨c :: b, w ++ '(' :: r, q, e⟩ = some (some t, ⟨w.reverse ++ c :: b, '(' :: r, q, e⟩) := by
  have hc' := ha c (by simp)
  simp [lexTok, syntacticLex, isPunctuation_plain (.inl h), isOperator_plain (.inl h) hc',
    isKeyword_key t c w b r q e hc hw ha hn hk]

end Verif.Parser
