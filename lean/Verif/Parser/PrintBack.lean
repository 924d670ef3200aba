import Verif.AST.Print
import Verif.Parser.LexMain
import Verif.Parser.GrammarProps
/-!
# C87: the printed formulas read back

The tokens of a printed formula (`GForm.toks`), what they are read as (`GForm.back`), and the proof that the text is a
way to write the tokens for which the lexer gives them back.
-/

namespace Verif.Parser
open Verif.Engine (PTm PForm PTy WForm Str)
open Verif.AST.Full

/-! ### Texts -/

theorem CWritten.space {ts : List Tok} {s : List Char} (h : CWritten ts s) : CWritten ts (' ' :: s) := by
  cases h with
  | nil h1 h2 =>
    obtain ⟨u, rfl⟩ := h2
    exact .nil (.space (.inl rfl) h1) ⟨' ' :: u, rfl⟩
  | cons h1 h2 h3 h4 h5 h6 =>
    exact CWritten.cons (s := ' ' :: _) (.space (.inl rfl) h1) h2 h3 h4 h5 h6

theorem CWritten.put {t : Tok} {w : List Char} {ts : List Tok} {r : List Char} (hs : Spell t w) (hg : ∀ d r', r = d :: r' → ¬ glue t d)
    (hc : careful t w r) (hne : ts ≠ []) (h : CWritten ts r) : CWritten (t :: ts) (w ++ r) :=
  CWritten.cons (s := []) .nil hs hg hc (fun e => absurd e hne) h

/-- The text begins with a character that ends words. -/
def Ends (r : List Char) : Prop := ∃ c r', r = c :: r' ∧ c ∈ [' ', '(', ')', ',', '.', ']', ':']

/-- The text is a way to write the tokens, before what follows tokens. -/
def Frag (ts : List Tok) (s : List Char) : Prop :=
  ∀ ts' r, ts' ≠ [] → Ends r → CWritten ts' r → CWritten (ts ++ ts') (s ++ r)

theorem Ends.not_alnum {r : List Char} (h : Ends r) : ∀ d r', r = d :: r' → ¬ AlphaNum d := by
  intro d r' e
  obtain ⟨c, r'', rfl, hc⟩ := h
  cases e
  simp only [List.mem_cons, List.not_mem_nil, or_false] at hc
  rcases hc with rfl | rfl | rfl | rfl | rfl | rfl | rfl <;> unfold AlphaNum <;> decide

/-- The tokens without conditions on what follows. -/
def free : Tok → Bool
  | .lpar | .rpar | .comma | .lbrk | .rbrk | .colon | .vline | .and | .equiv | .imply => true
  | _ => false

theorem CWritten.free {t : Tok} {w : List Char} {ts : List Tok} {r : List Char} (ht : Parser.free t = true) (hs : (t, w) ∈ symbols)
    (hne : ts ≠ []) (h : CWritten ts r) : CWritten (t :: ts) (w ++ r) := by
  refine CWritten.put (.sym hs) (fun d r' _ => ?_) ?_ hne h
  · cases t <;> simp [Parser.free] at ht <;> simp [glue]
  · cases t <;> simp [Parser.free] at ht <;> trivial

theorem CWritten.ne_nil {ts ts' : List Tok} (h : ts' ≠ []) : ts ++ ts' ≠ [] := by simp [h]

theorem Frag.paren {ts : List Tok} {s : List Char} (h : Frag ts s) : Frag (.lpar :: (ts ++ [.rpar])) ('(' :: (s ++ [')'])) := by
  intro ts' r hne _ hr
  have h1 := CWritten.free (t := .rpar) (w := [')']) rfl (by simp [symbols]) hne hr
  have h2 := h (.rpar :: ts') (')' :: r) (by simp) ⟨_, _, rfl, by simp⟩ h1
  have h3 := CWritten.free (t := .lpar) (w := ['(']) rfl (by simp [symbols]) (by simp) h2
  simpa using h3

/-- Two parts with a connective between them. -/
theorem Frag.infix {ts ts' : List Tok} {s s' w : List Char} {t : Tok} (h : Frag ts s) (h' : Frag ts' s')
    (hs : (t, w) ∈ symbols) (hg : ¬ glue t ' ') (hc : ∀ r, careful t w (' ' :: r)) :
    Frag (ts ++ t :: ts') (s ++ (' ' :: (w ++ ' ' :: s'))) := by
  intro us r hne he hr
  have h1 := h' us r hne he hr
  have h2 : CWritten (t :: (ts' ++ us)) (w ++ (' ' :: (s' ++ r))) :=
    CWritten.put (.sym hs) (by intro d r' e; cases e; exact hg) (hc _) (by simp [hne]) h1.space
  have h3 := h (t :: (ts' ++ us)) (' ' :: (w ++ (' ' :: (s' ++ r)))) (by simp) ⟨_, _, rfl, by simp⟩ h2.space
  simpa using h3

theorem Frag.comma {ts ts' : List Tok} {s s' : List Char} (h : Frag ts s) (h' : Frag ts' s') :
    Frag (ts ++ .comma :: ts') (s ++ (',' :: ' ' :: s')) := by
  intro us r hne he hr
  have h1 := h' us r hne he hr
  have h2 := CWritten.free (t := .comma) (w := [',']) rfl (by simp [symbols]) (CWritten.ne_nil hne) h1.space
  have h3 := h (.comma :: (ts' ++ us)) (',' :: ' ' :: (s' ++ r)) (by simp) ⟨_, _, rfl, by simp⟩ h2
  simpa using h3

theorem Frag.word {t : Tok} {w : List Char} (hs : Spell t w) (hg : ∀ d, ¬ AlphaNum d → ¬ glue t d)
    (hc : ∀ r, careful t w r) : Frag [t] w := by
  intro ts' r hne he hr
  exact CWritten.put hs (fun d r' e => hg d (he.not_alnum d r' e)) (hc r) hne hr

/-! ### Names -/

/-- A name that is written as a word that begins with a lower case letter, and is not a keyword. -/
def LowerWord (n : String) : Prop := Spell (.lower n.toList) n.toList
/-- A name that is written as a word that begins with an upper case letter. -/
def UpperWord (n : String) : Prop := Spell (.upper n.toList) n.toList

theorem LowerWord.frag {n : String} (h : LowerWord n) : Frag [.lower n.toList] n.toList :=
  Frag.word h (fun _ hd => hd) (fun _ => trivial)

theorem UpperWord.frag {n : String} (h : UpperWord n) : Frag [.upper n.toList] n.toList :=
  Frag.word h (fun _ hd => hd) (fun _ => trivial)

theorem alnum_plain {c : Char} (h : AlphaNum c) : c ≠ ' ' ∧ c ≠ '(' ∧ c ≠ ')' ∧ c ≠ '|' ∧ c ≠ '&' := by
  refine ⟨?_, ?_, ?_, ?_, ?_⟩ <;> rintro rfl <;> revert h <;> unfold AlphaNum <;> decide

theorem LowerWord.alnum {n : String} (h : LowerWord n) : n.toList ≠ [] ∧ ∀ c ∈ n.toList, AlphaNum c := by
  unfold LowerWord at h
  generalize n.toList = w at h
  cases h with
  | sym h => simp [symbols] at h
  | lower h1 h2 h3 _ => exact ⟨by simp, fun c hc => by
      rcases List.mem_cons.1 hc with rfl | hc
      · exact .inl ⟨h1, h2⟩
      · exact h3 c hc⟩

theorem UpperWord.alnum {n : String} (h : UpperWord n) : n.toList ≠ [] ∧ ∀ c ∈ n.toList, AlphaNum c := by
  unfold UpperWord at h
  generalize n.toList = w at h
  cases h with
  | sym h => simp [symbols] at h
  | upper h1 h2 h3 => exact ⟨by simp, fun c hc => by
      rcases List.mem_cons.1 hc with rfl | hc
      · exact .inr (.inl ⟨h1, h2⟩)
      · exact h3 c hc⟩

/-! ### Parentheses -/

/-- Opening minus closing parentheses. -/
def bal : List Char → Int
  | [] => 0
  | c :: r => (if c = '(' then 1 else if c = ')' then -1 else 0) + bal r

theorem bal_append (s r : List Char) : bal (s ++ r) = bal s + bal r := by
  induction s with
  | nil => simp [bal]
  | cons c s ih => simp only [List.cons_append, bal, ih]; omega

theorem topSpace_append (s r : List Char) : ∀ d, topSpace d (s ++ r) = (topSpace d s || topSpace (d + bal s) r) := by
  induction s with
  | nil => intro d; simp [topSpace, bal]
  | cons c s ih =>
    intro d
    simp only [List.cons_append, topSpace, ih, bal, Bool.or_assoc]
    congr 2
    congr 1
    split <;> (try split) <;> omega

theorem bal_plain {s : List Char} (h : ∀ c ∈ s, AlphaNum c) : bal s = 0 := by
  induction s with
  | nil => rfl
  | cons c s ih =>
    have hc := alnum_plain (h c (by simp))
    simp [bal, hc.2.1, hc.2.2.1, ih (fun d hd => h d (by simp [hd]))]

/-- The text keeps its parentheses when it is stripped. -/
def Shape (s : List Char) : Prop :=
  (∀ c r, s = c :: r → c ≠ '(') ∨ ∃ i r, s = '(' :: (i ++ ')' :: r) ∧ topSpace 0 i = true

theorem strip_shape {s : List Char} (h : Shape s) : strip s = s := by
  rcases h with h | ⟨i, r, rfl, h⟩
  · unfold strip
    split
    · rename_i r; exact absurd rfl (h '(' r rfl)
    · rfl
  · simp only [strip]
    split
    · have : topSpace 0 (i ++ ')' :: r).dropLast = true := by
        rw [List.dropLast_append_of_ne_nil (by simp), topSpace_append, h]; rfl
      rw [this]; rfl
    · rfl

theorem strip_plain {s : List Char} (h : ∀ c ∈ s, AlphaNum c) : strip s = s :=
  strip_shape (.inl fun c r e => (alnum_plain (h c (by simp [e]))).2.1)

theorem child_eq (s : List Char) : child s = if topSpace 0 s then '(' :: (s ++ [')']) else s := by
  simp [child, strip]

theorem Shape.append {s r : List Char} (h : Shape s) (hne : s ≠ []) : Shape (s ++ r) := by
  rcases h with h | ⟨i, u, rfl, h⟩
  · left
    intro c r' e
    cases s with
    | nil => exact absurd rfl hne
    | cons d s => cases e; exact h _ _ rfl
  · exact .inr ⟨i, u ++ r, by simp, h⟩

/-! ### Terms -/

section
variable (eqI : Nat)

mutual
/-- Terms of first-order logic whose symbols and variables are words; no metavariables. -/
def GTerm.good : GTerm → Prop
  | .var _ n => UpperWord n
  | .mv _ _ _ _ _ => False
  | .fn i n tys args => i ≠ eqI ∧ LowerWord n ∧ tys = [] ∧ GTerm.goodL args
def GTerm.goodL : List GTerm → Prop
  | [] => True
  | a :: l => GTerm.good a ∧ GTerm.goodL l
end

end

mutual
/-- The tokens of a printed term. -/
def gToks : GTerm → List Tok
  | .var _ n => [.upper n.toList]
  | .mv _ _ n _ _ => [.upper n.toList]
  | .fn _ n _ args => if args.isEmpty then [.lower n.toList] else .lower n.toList :: .lpar :: (gToksL args ++ [.rpar])
def gToksL : List GTerm → List Tok
  | [] => []
  | a :: l => if l.isEmpty then gToks a else gToks a ++ .comma :: gToksL l
end

mutual
/-- The term with the names only. -/
def gBack : GTerm → PTm
  | .var _ n => .var n
  | .mv _ _ n _ _ => .var n
  | .fn _ n _ args => .fn n (gBackL args) none
def gBackL : List GTerm → List PTm
  | [] => []
  | a :: l => gBack a :: gBackL l
end

section
variable {eqI : Nat} {tyStr : GTy → List Char}

theorem onArgs_plain {i : Nat} {n : List Char} {args : List (List Char)} (hi : i ≠ eqI) (hn : ∀ c ∈ n, AlphaNum c) :
    onArgs eqI i n [] args = n ++ surroundArgs (join [',', ' '] args) := by
  simp [onArgs, hi, strip_plain hn]

theorem tysStr_nil : tysStr tyStr [] = [] := rfl

theorem join_cons (sep a b : List Char) (l : List (List Char)) : join sep (a :: b :: l) = a ++ (sep ++ join sep (b :: l)) := by
  simp [join]

/-- What holds of the printed text of a term. -/
structure TOk (s : List Char) (ts : List Tok) (a : PTm) : Prop where
  frag : Frag ts s
  bal : bal s = 0
  head : ∃ c r, s = c :: r ∧ AlphaNum c
  der : DTerm ts a

mutual
theorem term_ok : ∀ a : GTerm, GTerm.good eqI a → TOk (GTerm.str eqI tyStr a) (gToks a) (gBack a)
  | .var i n, h => by
    simp only [GTerm.good] at h
    obtain ⟨h1, h2⟩ := h.alnum
    simp only [GTerm.str, strip_plain h2, gToks, gBack]
    refine ⟨h.frag, bal_plain h2, ?_, ?_⟩
    · cases hn : n.toList with
      | nil => exact absurd hn h1
      | cons c r => exact ⟨c, r, rfl, h2 c (by simp [hn])⟩
    · have := DTerm.var (w := n.toList)
      rwa [strOf_toList] at this
  | .mv _ _ _ _ _, h => by simp [GTerm.good] at h
  | .fn i n tys args, h => by
    simp only [GTerm.good] at h
    obtain ⟨hi, hn, rfl, ha⟩ := h
    obtain ⟨h1, h2⟩ := hn.alnum
    have hhead : ∀ x, ∃ c r, n.toList ++ x = c :: r ∧ AlphaNum c := by
      intro x
      cases hn : n.toList with
      | nil => exact absurd hn h1
      | cons c r => exact ⟨c, r ++ x, rfl, h2 c (by simp [hn])⟩
    have hsym : tokSym (.lower n.toList) = some n := by simp [tokSym, strOf]
    simp only [GTerm.str, tysStr_nil, onArgs_plain hi h2, gToks, gBack]
    cases args with
    | nil =>
      simp only [GTerm.strL, join, surroundArgs, List.isEmpty_nil, if_true, List.append_nil, gBackL]
      refine ⟨hn.frag, bal_plain h2, by simpa using hhead [], .const hsym⟩
    | cons a as =>
      obtain ⟨f1, f2, f3, f4⟩ := terms_ok (a :: as) ha (by simp)
      have he : (join [',', ' '] (GTerm.strL eqI tyStr (a :: as))).isEmpty = false := by
        cases hj : join [',', ' '] (GTerm.strL eqI tyStr (a :: as)) with
        | nil => exact absurd hj f3
        | cons _ _ => rfl
      simp only [surroundArgs, he, List.isEmpty_cons, if_false, Bool.false_eq_true]
      refine ⟨?_, ?_, hhead _, .app hsym f4⟩
      · intro ts' r hne he hr
        have h3 := f1.paren ts' r hne he hr
        have h4 := hn.frag (.lpar :: (gToksL (a :: as) ++ [.rpar]) ++ ts') _ (by simp) ⟨_, _, rfl, by simp⟩ h3
        simpa using h4
      · rw [bal_append, bal_plain h2]
        simp [Parser.bal, bal_append, f2]
theorem terms_ok : ∀ as : List GTerm, GTerm.goodL eqI as → as ≠ [] →
    Frag (gToksL as) (join [',', ' '] (GTerm.strL eqI tyStr as)) ∧ bal (join [',', ' '] (GTerm.strL eqI tyStr as)) = 0 ∧
    join [',', ' '] (GTerm.strL eqI tyStr as) ≠ [] ∧ DArgs (gToksL as) (gBackL as)
  | [], _, h => absurd rfl h
  | [a], h, _ => by
    simp only [GTerm.goodL, and_true] at h
    obtain ⟨f1, f2, ⟨c, r, f3, _⟩, f4⟩ := term_ok a h
    simp only [gToksL, List.isEmpty_nil, if_true, GTerm.strL, join, List.flatMap_nil, List.append_nil, gBackL]
    exact ⟨f1, f2, by simp [f3], .one f4⟩
  | a :: b :: as, h, _ => by
    simp only [GTerm.goodL] at h
    obtain ⟨f1, f2, ⟨c, r, f3, _⟩, f4⟩ := term_ok a h.1
    obtain ⟨g1, g2, g3, g4⟩ := terms_ok (b :: as) (by simpa [GTerm.goodL] using h.2) (by simp)
    have hj : join [',', ' '] (GTerm.strL eqI tyStr (a :: b :: as)) =
        GTerm.str eqI tyStr a ++ (',' :: ' ' :: join [',', ' '] (GTerm.strL eqI tyStr (b :: as))) := by
      simp only [GTerm.strL, join_cons]; rfl
    rw [hj]
    refine ⟨f1.comma g1, ?_, by simp, .cons f4 g4⟩
    rw [bal_append, f2]
    simp [Parser.bal, g2]
end

end

/-! ### Formulas -/

section
variable (eqI : Nat)

/-- A formula that is printed as one the grammar takes after a quantifier. -/
def isUnit : GForm → Prop
  | .and _ fs | .or _ fs => fs.length ≤ 1
  | .imp _ _ _ | .equ _ _ _ => False
  | _ => True

mutual
/-- Formulas of first-order logic with words as names, with non-empty connectives and quantifiers, in which the
formulas after quantifiers are printed as the grammar wants them. -/
def GForm.good : GForm → Prop
  | .pred _ i n tys args =>
    (i = eqI ∧ n = "=" ∧ args.length = 2 ∧ GTerm.goodL eqI args) ∨
    (i ≠ eqI ∧ LowerWord n ∧ tys = [] ∧ GTerm.goodL eqI args)
  | .top _ | .bot _ => True
  | .neg _ f => GForm.good f
  | .and _ fs | .or _ fs => fs ≠ [] ∧ GForm.goodL fs
  | .imp _ f g | .equ _ f g => GForm.good f ∧ GForm.good g
  | .all _ vs f | .ex _ vs f => vs ≠ [] ∧ (∀ v ∈ vs, UpperWord v.name) ∧ isUnit f ∧ GForm.good f
def GForm.goodL : List GForm → Prop
  | [] => True
  | f :: l => GForm.good f ∧ GForm.goodL l
end

end

/-- Parts with an associative connective between them. -/
def chain (op : PForm → PForm → PForm) : List PForm → PForm
  | [] => .top
  | f :: l => l.foldl op f

mutual
/-- The formula with the names only. -/
def fBack : GForm → PForm
  | .pred _ _ n _ args => .pred n (gBackL args)
  | .top _ => .top
  | .bot _ => .bot
  | .neg _ f => .neg (fBack f)
  | .and _ fs => chain (.bin .and) (fBackL fs)
  | .or _ fs => chain (.bin .or) (fBackL fs)
  | .imp _ f g => .bin .imp (fBack f) (fBack g)
  | .equ _ f g => .bin .equ (fBack f) (fBack g)
  | .all _ vs f => .all (vs.map fun v => (v.name, .fn "$i" [])) (fBack f)
  | .ex _ vs f => .ex (vs.map fun v => (v.name, .fn "$i" [])) (fBack f)
def fBackL : List GForm → List PForm
  | [] => []
  | f :: l => fBack f :: fBackL l
end

section
variable {eqI : Nat} {tyStr : GTy → List Char}

/-- What holds of the printed text of a formula. -/
structure FOk (s : List Char) (unit : Prop) (f : PForm) (ts : List Tok) : Prop where
  frag : Frag ts s
  bal : bal s = 0
  head : ∃ c r, s = c :: r ∧ c ≠ '|' ∧ c ≠ '&'
  shape : Shape s
  logic : D .logic ts f
  unit : topSpace 0 s = false ∨ unit → D .unit ts f

/-- The text of a part of a formula is one of a unit formula. -/
theorem child_ok {s : List Char} {u : Prop} {f : PForm} {ts : List Tok} (h : FOk s u f ts) :
    ∃ ts', FOk (child s) True f ts' := by
  rw [child_eq]
  by_cases ht : topSpace 0 s = true
  · rw [if_pos ht]
    refine ⟨.lpar :: (ts ++ [.rpar]), h.frag.paren, ?_, ⟨_, _, rfl, by decide, by decide⟩, .inr ⟨s, [], rfl, ht⟩,
      .logicUnitary (.paren h.logic), fun _ => .unit1 (.paren h.logic)⟩
    simp [Parser.bal, bal_append, h.bal]
  · rw [if_neg ht]
    refine ⟨ts, h.frag, h.bal, h.head, h.shape, h.logic, fun _ => h.unit (.inl (by simpa using ht))⟩

theorem topSpace_infix {s r : List Char} (h : bal s = 0) : topSpace 0 (s ++ ' ' :: r) = true := by
  rw [topSpace_append, h]; simp [topSpace]

/-- Two parts with a connective that is not associative. -/
theorem infix_ok {s s' w : List Char} {f g : PForm} {ts ts' : List Tok} {t : Tok} {c : PForm → PForm → PForm}
    (h : FOk s True f ts) (h' : FOk s' True g ts') (hw : (t, w) ∈ symbols) (hc : nonassoc t = some c)
    (hb : bal w = 0) (hg : ¬ glue t ' ') (hcare : ∀ r, careful t w (' ' :: r)) :
    FOk (s ++ (' ' :: (w ++ ' ' :: s'))) False (c f g) (ts ++ t :: ts') := by
  refine ⟨h.frag.infix h'.frag hw hg hcare, ?_, ?_, ?_, .nonassoc (h.unit (.inr trivial)) hc (h'.unit (.inr trivial)), ?_⟩
  · simp [Parser.bal, bal_append, h.bal, h'.bal, hb]
  · obtain ⟨d, r, e, h1, h2⟩ := h.head
    exact ⟨d, _, by rw [e]; rfl, h1, h2⟩
  · obtain ⟨d, r, e, _⟩ := h.head
    exact h.shape.append (by simp [e])
  · rw [topSpace_infix h.bal]; simp

/-- The texts are those of unit formulas. -/
def Units : List (List Char) → List PForm → Prop
  | [], [] => True
  | s :: ss, f :: fs => (∃ ts, FOk s True f ts) ∧ Units ss fs
  | _, _ => False

/-- An associative connective. -/
structure Assoc (cat : Cat) (t : Tok) (c : Char) (op : PForm → PForm → PForm) : Prop where
  two : ∀ {w w' f g}, D .unit w f → D .unit w' g → D cat (w ++ t :: w') (op f g)
  more : ∀ {w w' f g}, D cat w f → D .unit w' g → D cat (w ++ t :: w') (op f g)
  logic : ∀ {w f}, D cat w f → D .logic w f
  sym : (t, [c]) ∈ symbols
  plain : bal [c] = 0
  glue : ¬ glue t ' '
  careful : ∀ r, careful t [c] (' ' :: r)

theorem assoc_and : Assoc .and .and '&' (.bin .and) :=
  ⟨.and2, .and3, .logicAnd, by simp [symbols], rfl, by simp [Parser.glue], fun _ => trivial⟩
theorem assoc_or : Assoc .or .vline '|' (.bin .or) :=
  ⟨.or2, .or3, .logicOr, by simp [symbols], rfl, by simp [Parser.glue], fun _ => trivial⟩

theorem chain_rest {cat : Cat} {t : Tok} {c : Char} {op : PForm → PForm → PForm} (ha : Assoc cat t c op) :
    ∀ (ss : List (List Char)) (fs : List PForm) (s : List Char) (f : PForm) (ts : List Tok), Units ss fs →
      Frag ts s → bal s = 0 → D cat ts f →
      ∃ ts', Frag ts' (s ++ ss.flatMap ([' ', c, ' '] ++ ·)) ∧ bal (s ++ ss.flatMap ([' ', c, ' '] ++ ·)) = 0 ∧
        D cat ts' (fs.foldl op f)
  | [], [], s, f, ts, _, h1, h2, h3 => ⟨ts, by simpa using h1, by simpa using h2, h3⟩
  | [], _ :: _, _, _, _, h, _, _, _ => by simp [Units] at h
  | _ :: _, [], _, _, _, h, _, _, _ => by simp [Units] at h
  | s' :: ss, g :: fs, s, f, ts, h, h1, h2, h3 => by
    simp only [Units] at h
    obtain ⟨⟨ts', hg⟩, h⟩ := h
    have hb : bal (s ++ (' ' :: ([c] ++ ' ' :: s'))) = 0 := by
      have := ha.plain
      simp [Parser.bal, bal_append, h2, hg.bal] at this ⊢
      exact this
    obtain ⟨us, e1, e2, e3⟩ := chain_rest ha ss fs _ (op f g) _ h (h1.infix hg.frag ha.sym ha.glue ha.careful) hb
      (ha.more h3 (hg.unit (.inr trivial)))
    refine ⟨us, ?_, ?_, e3⟩
    · simpa using e1
    · simpa using e2

theorem chain_ok {cat : Cat} {t : Tok} {c : Char} {op : PForm → PForm → PForm} (ha : Assoc cat t c op) :
    ∀ (ss : List (List Char)) (fs : List PForm), Units ss fs → ss ≠ [] →
      ∃ ts, FOk (join [' ', c, ' '] ss) (ss.length ≤ 1) (chain op fs) ts
  | [], _, _, h => absurd rfl h
  | _ :: _, [], h, _ => by simp [Units] at h
  | [s], f :: fs, h, _ => by
    simp only [Units] at h
    obtain ⟨⟨ts, h1⟩, h2⟩ := h
    cases fs with
    | cons _ _ => simp [Units] at h2
    | nil =>
      refine ⟨ts, ?_⟩
      simp only [join, List.flatMap_nil, List.append_nil, chain, List.foldl_nil]
      exact ⟨h1.frag, h1.bal, h1.head, h1.shape, h1.logic, fun _ => h1.unit (.inr trivial)⟩
  | s :: s' :: ss, [f], h, _ => by simp [Units] at h
  | s :: s' :: ss, f :: g :: fs, h, _ => by
    simp only [Units] at h
    obtain ⟨⟨ts, hf⟩, ⟨ts', hg⟩, h⟩ := h
    have hb : bal (s ++ (' ' :: ([c] ++ ' ' :: s'))) = 0 := by
      have := ha.plain
      simp [Parser.bal, bal_append, hf.bal, hg.bal] at this ⊢
      exact this
    obtain ⟨us, e1, e2, e3⟩ := chain_rest ha ss fs _ (op f g) _ h (hf.frag.infix hg.frag ha.sym ha.glue ha.careful) hb
      (ha.two (hf.unit (.inr trivial)) (hg.unit (.inr trivial)))
    have hj : join [' ', c, ' '] (s :: s' :: ss) = s ++ (' ' :: ([c] ++ ' ' :: s')) ++ ss.flatMap ([' ', c, ' '] ++ ·) := by
      simp [join]
    rw [hj]
    refine ⟨us, e1, e2, ?_, ?_, ha.logic e3, ?_⟩
    · obtain ⟨d, r, e, h1, h2⟩ := hf.head
      exact ⟨d, _, by rw [e]; rfl, h1, h2⟩
    · obtain ⟨d, r, e, _⟩ := hf.head
      rw [List.append_assoc]
      exact hf.shape.append (by simp [e])
    · rw [List.append_assoc, List.cons_append, topSpace_infix hf.bal]; simp

/-- The variables of a quantifier. -/
theorem vars_ok : ∀ vs : List GTypedVar, vs ≠ [] → (∀ v ∈ vs, UpperWord v.name) →
    ∃ ts, Frag ts (varsStr vs) ∧ bal (varsStr vs) = 0 ∧ DVars ts (vs.map fun v => (v.name, .fn "$i" []))
  | [], h, _ => absurd rfl h
  | [v], _, h => by
    have hv := h v (by simp)
    obtain ⟨h1, h2⟩ := hv.alnum
    refine ⟨[.upper v.name.toList], ?_, ?_, ?_⟩
    · simpa [varsStr, join, strip_plain h2] using hv.frag
    · simpa [varsStr, join, strip_plain h2] using bal_plain h2
    · have := DVars.one (w := v.name.toList)
      rwa [strOf_toList] at this
  | v :: v' :: vs, _, h => by
    have hv := h v (by simp)
    obtain ⟨h1, h2⟩ := hv.alnum
    obtain ⟨ts, e1, e2, e3⟩ := vars_ok (v' :: vs) (by simp) (fun u hu => h u (by simp [hu]))
    have hj : varsStr (v :: v' :: vs) = v.name.toList ++ (',' :: ' ' :: varsStr (v' :: vs)) := by
      simp only [varsStr, List.map_cons, join_cons, strip_plain h2]; rfl
    rw [hj]
    refine ⟨.upper v.name.toList :: .comma :: ts, hv.frag.comma e1, ?_, ?_⟩
    · rw [bal_append, bal_plain h2]; simp [Parser.bal, e2]
    · have := DVars.cons (w := v.name.toList) e3
      rwa [strOf_toList] at this

/-- A quantified formula. -/
theorem quant_ok {t : Tok} {c : Char} {q : List (String × PTy) → PForm → PForm} {vs : List GTypedVar} {s : List Char} {f : PForm}
    {u : Prop} {ts : List Tok} (hs : (t, [c]) ∈ symbols) (hb : bal [c] = 0) (hc : c ≠ '|' ∧ c ≠ '&' ∧ c ≠ '(')
    (hg : ¬ glue t ' ') (hcare : ∀ r, careful t [c] (' ' :: r))
    (hd : ∀ {vs ws w f}, DVars vs ws → D .unit w f → D .unitary (t :: .lbrk :: (vs ++ .rbrk :: .colon :: w)) (q ws f))
    (hne : vs ≠ []) (hv : ∀ v ∈ vs, UpperWord v.name) (h : FOk s u f ts) (hu : u) :
    ∃ ts', FOk (c :: ' ' :: '[' :: (varsStr vs ++ (']' :: ':' :: ' ' :: strip s))) True
      (q (vs.map fun v => (v.name, .fn "$i" [])) f) ts' := by
  rw [strip_shape h.shape]
  obtain ⟨us, e1, e2, e3⟩ := vars_ok vs hne hv
  refine ⟨t :: .lbrk :: (us ++ .rbrk :: .colon :: ts), ?_, ?_, ⟨_, _, rfl, hc.1, hc.2.1⟩, .inl ?_,
    .logicUnitary (hd e3 (h.unit (.inr hu))), fun _ => .unit1 (hd e3 (h.unit (.inr hu)))⟩
  · intro ts' r hne he hr
    have h1 := (h.frag ts' r hne he hr).space
    have h2 := CWritten.free (t := .colon) (w := [':']) rfl (by simp [symbols]) (CWritten.ne_nil hne) h1
    have h3 := CWritten.free (t := .rbrk) (w := [']']) rfl (by simp [symbols]) (by simp) h2
    have h4 := e1 _ _ (by simp) ⟨_, _, rfl, by simp⟩ h3
    have h5 := CWritten.free (t := .lbrk) (w := ['[']) rfl (by simp [symbols]) (by simp) h4
    have h6 := CWritten.put (t := t) (w := [c]) (.sym hs) (by intro d r' e; cases e; exact hg) (hcare _) (by simp) h5.space
    simpa using h6
  · have : bal (c :: ' ' :: '[' :: (varsStr vs ++ (']' :: ':' :: ' ' :: s))) = bal [c] + bal (varsStr vs) + bal s := by
      simp [Parser.bal, bal_append]; omega
    rw [this, hb, e2, h.bal]; rfl
  · intro d r e; cases e; exact hc.2.2

mutual
theorem form_ok : ∀ f : GForm, GForm.good eqI f → ∃ ts, FOk (GForm.str eqI tyStr f) (isUnit f) (fBack f) ts
  | .pred k i n tys args, h => by
    simp only [GForm.good] at h
    rcases h with ⟨rfl, rfl, hl, ha⟩ | ⟨hi, hn, rfl, ha⟩
    · match args, hl, ha with
      | [a, b], _, ha =>
        simp only [GTerm.goodL, and_true] at ha
        have h1 := term_ok (tyStr := tyStr) a ha.1
        have h2 := term_ok (tyStr := tyStr) b ha.2
        have hs : GForm.str i tyStr (.pred k i "=" tys [a, b]) =
            GTerm.str i tyStr a ++ (' ' :: (['='] ++ ' ' :: GTerm.str i tyStr b)) := by
          simp [GForm.str, onArgs, GTerm.strL, strip]
        rw [hs]
        simp only [fBack, gBackL]
        refine ⟨gToks a ++ .eq :: gToks b, h1.frag.infix h2.frag (by simp [symbols]) (by simp [Parser.glue]) (fun _ => trivial),
          ?_, ?_, ?_, .logicUnitary (.eq h1.der h2.der), fun _ => .unit1 (.eq h1.der h2.der)⟩
        · simp [Parser.bal, bal_append, h1.bal, h2.bal]
        · obtain ⟨c, r, e, hc⟩ := h1.head
          exact ⟨c, _, by rw [e]; rfl, (alnum_plain hc).2.2.2⟩
        · obtain ⟨c, r, e, hc⟩ := h1.head
          left
          intro d r' e'
          rw [e] at e'
          cases e'
          exact (alnum_plain hc).2.1
    · have hg : GTerm.good eqI (.fn i n [] args) := by simp [GTerm.good, hi, hn, ha]
      have h1 := term_ok (tyStr := tyStr) _ hg
      have hs : GForm.str eqI tyStr (.pred k i n [] args) = GTerm.str eqI tyStr (.fn i n [] args) := by
        simp [GForm.str, GTerm.str]
      rw [hs]
      simp only [fBack]
      have hd : D .unitary (gToks (.fn i n [] args)) (.pred n (gBackL args)) := by
        have hd := h1.der
        have hsym : tokSym (.lower n.toList) = some n := by simp [tokSym, strOf]
        cases args with
        | nil => simpa [gToks, gBackL] using D.prop hsym
        | cons a as =>
          have := (terms_ok (tyStr := tyStr) (a :: as) ha (by simp)).2.2.2
          simpa [gToks] using D.atom hsym this
      refine ⟨_, h1.frag, h1.bal, ?_, ?_, .logicUnitary hd, fun _ => .unit1 hd⟩
      · obtain ⟨c, r, e, hc⟩ := h1.head
        exact ⟨c, r, e, (alnum_plain hc).2.2.2⟩
      · obtain ⟨c, r, e, hc⟩ := h1.head
        left
        intro d r' e'
        rw [e] at e'
        cases e'
        exact (alnum_plain hc).2.1
  | .top k, _ => by
    refine ⟨[.true], Frag.word (.sym (by simp [symbols, GForm.str])) (fun _ h => h) (fun _ => trivial), rfl,
      ⟨_, _, rfl, by decide, by decide⟩, .inl ?_, .logicUnitary .top, fun _ => .unit1 .top⟩
    intro c r e; simp only [GForm.str, List.cons.injEq] at e; obtain ⟨rfl, _⟩ := e; decide
  | .bot k, _ => by
    refine ⟨[.false], Frag.word (.sym (by simp [symbols, GForm.str])) (fun _ h => h) (fun _ => trivial), rfl,
      ⟨_, _, rfl, by decide, by decide⟩, .inl ?_, .logicUnitary .bot, fun _ => .unit1 .bot⟩
    intro c r e; simp only [GForm.str, List.cons.injEq] at e; obtain ⟨rfl, _⟩ := e; decide
  | .neg k f, h => by
    simp only [GForm.good] at h
    obtain ⟨ts, h1⟩ := form_ok f h
    obtain ⟨ts, h2⟩ := child_ok h1
    have hd := h2.unit (.inr trivial)
    simp only [GForm.str, fBack]
    refine ⟨.not :: ts, ?_, ?_, ⟨_, _, rfl, by decide, by decide⟩, .inl ?_, .logicUnary (.not hd), fun _ => .unit2 (.not hd)⟩
    · intro ts' r hne he hr
      have h3 := h2.frag ts' r hne he hr
      refine CWritten.put (t := .not) (w := ['~']) (.sym (by simp [symbols])) ?_ trivial (CWritten.ne_nil hne) h3
      intro d r' e
      obtain ⟨c, r'', e', hc⟩ := h2.head
      rw [e'] at e
      cases e
      simp [Parser.glue, hc]
    · simp [Parser.bal, h2.bal]
    · intro c r e; cases e; decide
  | .and k fs, h => by
    simp only [GForm.good] at h
    have hu := forms_ok fs h.2
    obtain ⟨ts, h1⟩ := chain_ok assoc_and _ _ hu (by cases fs <;> simp [GForm.strL] at h ⊢)
    refine ⟨ts, ?_⟩
    have hl : ((GForm.strL eqI tyStr fs).map child).length = fs.length := by
      rw [List.length_map]; exact strL_length fs
    rw [hl] at h1
    exact h1
  | .or k fs, h => by
    simp only [GForm.good] at h
    have hu := forms_ok fs h.2
    obtain ⟨ts, h1⟩ := chain_ok assoc_or _ _ hu (by cases fs <;> simp [GForm.strL] at h ⊢)
    refine ⟨ts, ?_⟩
    have hl : ((GForm.strL eqI tyStr fs).map child).length = fs.length := by
      rw [List.length_map]; exact strL_length fs
    rw [hl] at h1
    exact h1
  | .imp k f g, h => by
    simp only [GForm.good] at h
    obtain ⟨_, h1⟩ := form_ok f h.1
    obtain ⟨_, h2⟩ := form_ok g h.2
    obtain ⟨_, h1⟩ := child_ok h1
    obtain ⟨_, h2⟩ := child_ok h2
    exact ⟨_, infix_ok (t := .imply) (w := ['=', '>']) h1 h2 (by simp [symbols]) rfl rfl (by simp [Parser.glue]) (fun _ => trivial)⟩
  | .equ k f g, h => by
    simp only [GForm.good] at h
    obtain ⟨_, h1⟩ := form_ok f h.1
    obtain ⟨_, h2⟩ := form_ok g h.2
    obtain ⟨_, h1⟩ := child_ok h1
    obtain ⟨_, h2⟩ := child_ok h2
    exact ⟨_, infix_ok (t := .equiv) (w := ['<', '=', '>']) h1 h2 (by simp [symbols]) rfl rfl (by simp [Parser.glue]) (fun _ => trivial)⟩
  | .all k vs f, h => by
    simp only [GForm.good] at h
    obtain ⟨h1, h2, h3, h4⟩ := h
    obtain ⟨_, hf⟩ := form_ok f h4
    exact quant_ok (t := .all) (c := '!') (by simp [symbols]) rfl (by decide) (by simp [Parser.glue]) (fun r => ⟨r, rfl⟩) .all h1 h2 hf h3
  | .ex k vs f, h => by
    simp only [GForm.good] at h
    obtain ⟨h1, h2, h3, h4⟩ := h
    obtain ⟨_, hf⟩ := form_ok f h4
    exact quant_ok (t := .ex) (c := '?') (by simp [symbols]) rfl (by decide) (by simp [Parser.glue]) (fun r => ⟨r, rfl⟩) .ex h1 h2 hf h3
theorem forms_ok : ∀ fs : List GForm, GForm.goodL eqI fs → Units ((GForm.strL eqI tyStr fs).map child) (fBackL fs)
  | [], _ => by simp [GForm.strL, fBackL, Units]
  | f :: fs, h => by
    simp only [GForm.goodL] at h
    obtain ⟨_, h1⟩ := form_ok f h.1
    simp only [GForm.strL, List.map_cons, fBackL, Units]
    exact ⟨child_ok h1, forms_ok fs h.2⟩
theorem strL_length : ∀ fs : List GForm, (GForm.strL eqI tyStr fs).length = fs.length
  | [] => rfl
  | f :: fs => by simp [GForm.strL, strL_length fs]
end

end

end Verif.Parser
