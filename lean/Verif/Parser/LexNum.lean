import Verif.Parser.LexProps
/-!
# Words, quoted words and numbers

What the lexer does on the tokens that are more than fixed symbols.
-/

namespace Verif.Parser

/-! ### Character classes -/

theorem isAlnum_of {d : Char} (h : AlphaNum d) : isAlnum d = true := by
  rcases h with h | h | h | rfl
  · simp [isAlnum, isLetter, h]
  · simp [isAlnum, isLetter, h]
  · simp [isAlnum, isDigit, h]
  · decide

theorem ascii_of {d : Char} (h : AlphaNum d) : d.toNat < 128 := by
  rcases h with h | h | h | rfl
  · omega
  · omega
  · omega
  · decide

theorem not_alnum {d : Char} (h : ¬ AlphaNum d) (ha : d.toNat < 128) : isAlnum d = false := by
  simp only [AlphaNum, not_or, not_and, Nat.not_le] at h
  obtain ⟨h1, h2, h3, h4⟩ := h
  simp only [isAlnum, isLetter, isDigit, Bool.or_eq_false_iff, Bool.and_eq_false_iff, decide_eq_false_iff_not,
    beq_eq_false_iff_ne]
  refine ⟨⟨?_, ?_⟩, h4⟩
  · refine ⟨⟨⟨⟨⟨?_, ?_⟩, ?_⟩, ?_⟩, ?_⟩, ?_⟩ <;> omega
  · omega

theorem isLetter_false {d : Char} (h : isAlnum d = false) : isLetter d = false := by
  simp only [isAlnum, Bool.or_eq_false_iff] at h; exact h.1.1

theorem isDigit_false {d : Char} (h : isAlnum d = false) : isDigit d = false := by
  simp only [isAlnum, Bool.or_eq_false_iff] at h; exact h.1.2

/-- The letters at the beginning of a word. -/
theorem split_letters : ∀ (u : List Char), ∃ w v, u = w ++ v ∧ (∀ x ∈ w, isLetter x = true) ∧
    ∀ g v', v = g :: v' → isLetter g = false
  | [] => ⟨[], [], rfl, by simp, by simp⟩
  | a :: u => by
    cases ha : isLetter a with
    | false => exact ⟨[], a :: u, rfl, by simp, by simp [ha]⟩
    | true =>
      obtain ⟨w, v, rfl, hw, hv⟩ := split_letters u
      exact ⟨a :: w, v, rfl, by simpa [ha] using hw, hv⟩

/-! ### Words -/

theorem alphaNumeric_run (c : Char) (u : List Char) (d : Char) (b r : List Char) (q : Nat) (e : Bool)
    (hc : isAlnum c = true) (hu : ∀ x ∈ u, isAlnum x = true) (hd : isAlnum d = false) :
    alphaNumeric ⟨c :: b, u ++ d :: r, q, e⟩ = some (c :: u, ⟨u.reverse ++ c :: b, d :: r, q, e⟩) := by
  have hrm : remove 1 ⟨d :: (u.reverse ++ c :: b), r, q, e⟩ = some ⟨u.reverse ++ c :: b, d :: r, q, e⟩ := by
    cases hw' : u.reverse ++ c :: b with
    | nil => simp at hw'
    | cons f g => exact remove_one d f g r q e
  simp [alphaNumeric, spanL_run isAlnum u c b d r q e hc hu hd, hrm]

/-- A word beginning with a letter is not taken for a symbol. -/
theorem syntacticLex_letter {c : Char} (u : List Char) (d : Char) (b r : List Char) (q : Nat) (e : Bool)
    (hc : isLetter c = true) (hca : AlphaNum c) (hu : ∀ x ∈ u, AlphaNum x) (hd : isAlnum d = false)
    (hk : keywords.lookup (c :: u) = none) :
    syntacticLex ⟨c :: b, u ++ d :: r, q, e⟩ = some (none, ⟨c :: b, u ++ d :: r, q, e⟩) := by
  obtain ⟨w, v, rfl, hw, hv⟩ := split_letters u
  have ha : ∀ x ∈ c :: w, x.toNat < 128 := by
    intro x hx
    rcases List.mem_cons.1 hx with rfl | hx
    · exact ascii_of hca
    · exact ascii_of (hu x (by simp [hx]))
  cases v with
  | nil =>
    simp only [List.append_nil] at hk ⊢
    exact syntacticLex_word (plain_of_alnum hca) w d b r q e hc hw (isLetter_false hd) ha (.inr (.inr hk))
  | cons g v =>
    have hg : g ≠ '(' := by
      rintro rfl
      have := hu '(' (by simp)
      revert this; unfold AlphaNum; decide
    have := syntacticLex_word (plain_of_alnum hca) w g b (v ++ d :: r) q e hc hw (hv g v rfl) ha (.inr (.inl hg))
    simpa using this

theorem quotedWords_plain {c : Char} (h1 : c ≠ '\'') (h2 : c ≠ '"') (b r : List Char) (q : Nat) (e : Bool) :
    quotedWords ⟨c :: b, r, q, e⟩ = some (none, ⟨c :: b, r, q, e⟩) := by
  simp [quotedWords, Lx.c, h1, h2]

theorem not_quote {c : Char} (h : AlphaNum c) : c ≠ '\'' ∧ c ≠ '"' ∧ c ≠ '$' := by
  refine ⟨?_, ?_, ?_⟩ <;> rintro rfl <;> revert h <;> unfold AlphaNum <;> decide

theorem tok_lower {c : Char} (u : List Char) (d : Char) (b r : List Char) (q : Nat) (e : Bool)
    (h1 : 97 ≤ c.toNat) (h2 : c.toNat ≤ 122) (hu : ∀ x ∈ u, AlphaNum x) (hd : isAlnum d = false)
    (hk : keywords.lookup (c :: u) = none) :
    lexTok ⟨c :: b, u ++ d :: r, q, e⟩ = some (some (.lower (c :: u)), ⟨u.reverse ++ c :: b, d :: r, q, e⟩) := by
  have hca : AlphaNum c := .inl ⟨h1, h2⟩
  have hl : isLetter c = true := by simp [isLetter, h1, h2]
  obtain ⟨n1, n2, n3⟩ := not_quote hca
  have hup : isUpper c = false := by
    simp only [isUpper, Bool.or_eq_false_iff, Bool.and_eq_false_iff, decide_eq_false_iff_not]; omega
  have hlo : isLower c = true := by simp [isLower, h1, h2]
  have hw : word ⟨c :: b, u ++ d :: r, q, e⟩ = some (some (.lower (c :: u)), ⟨u.reverse ++ c :: b, d :: r, q, e⟩) := by
    simp only [word, Lx.c, List.headD_cons, n3, if_false, hup, hlo, if_true,
      alphaNumeric_run c u d b r q e (isAlnum_of hca) (fun x hx => isAlnum_of (hu x hx)) hd, Option.map_some, Bool.false_eq_true]
  simp [lexTok, syntacticLex_letter u d b r q e hl hca hu hd hk, quotedWords_plain n1 n2, hw]

theorem keywords_upper {c : Char} (u : List Char) (h : c.toNat ≤ 90) : keywords.lookup (c :: u) = none := by
  have hf : c ≠ 'f' ∧ c ≠ 'c' ∧ c ≠ 't' ∧ c ≠ 'i' := by refine ⟨?_, ?_, ?_, ?_⟩ <;> rintro rfl <;> revert h <;> decide
  simp [keywords, List.lookup, beq_eq_false_iff_ne.2 hf.1, beq_eq_false_iff_ne.2 hf.2.1, beq_eq_false_iff_ne.2 hf.2.2.1,
    beq_eq_false_iff_ne.2 hf.2.2.2]

theorem tok_upper {c : Char} (u : List Char) (d : Char) (b r : List Char) (q : Nat) (e : Bool)
    (h1 : 65 ≤ c.toNat) (h2 : c.toNat ≤ 90) (hu : ∀ x ∈ u, AlphaNum x) (hd : isAlnum d = false) :
    lexTok ⟨c :: b, u ++ d :: r, q, e⟩ = some (some (.upper (c :: u)), ⟨u.reverse ++ c :: b, d :: r, q, e⟩) := by
  have hca : AlphaNum c := .inr (.inl ⟨h1, h2⟩)
  have hl : isLetter c = true := by simp [isLetter, h1, h2]
  obtain ⟨n1, n2, n3⟩ := not_quote hca
  have hup : isUpper c = true := by simp [isUpper, h1, h2]
  have hw : word ⟨c :: b, u ++ d :: r, q, e⟩ = some (some (.upper (c :: u)), ⟨u.reverse ++ c :: b, d :: r, q, e⟩) := by
    simp only [word, Lx.c, List.headD_cons, n3, if_false, hup, if_true,
      alphaNumeric_run c u d b r q e (isAlnum_of hca) (fun x hx => isAlnum_of (hu x hx)) hd, Option.map_some]
  simp [lexTok, syntacticLex_letter u d b r q e hl hca hu hd (keywords_upper u h2), quotedWords_plain n1 n2, hw]

/-! ### Words beginning with a dollar -/

theorem dollarLoop_run : ∀ (w b : List Char) (g h : Char) (r : List Char), (∀ x ∈ w, isLetter x = true) →
    isLetter g = false → dollarLoop b (w ++ g :: h :: r) = (w, w.reverse ++ b, g :: h :: r)
  | [], b, g, h, r, _, hg => by simp [dollarLoop, hg]
  | [a], b, g, h, r, hw, hg => by
    have ha := hw a (by simp)
    simp [dollarLoop, ha, hg]
  | a :: a' :: w, b, g, h, r, hw, hg => by
    have ih := dollarLoop_run (a' :: w) (a :: b) g h r (fun x hx => hw x (by simp [hx])) hg
    have ha := hw a (by simp)
    simp only [List.cons_append] at ih
    simp [dollarLoop, ha, ih]

theorem dollar_split (u : List Char) (d d' : Char) (r : List Char) (hd : isLetter d = false) :
    ∃ w g h r', u ++ d :: d' :: r = w ++ g :: h :: r' ∧ (∀ x ∈ w, isLetter x = true) ∧ isLetter g = false ∧
      ((w = u) ∨ ∃ v, u = w ++ g :: v) := by
  obtain ⟨w, v, rfl, hw, hv⟩ := split_letters u
  cases v with
  | nil => exact ⟨w, d, d', r, by simp, hw, hd, .inl (by simp)⟩
  | cons g v =>
    cases v with
    | nil => exact ⟨w, g, d, d' :: r, by simp, hw, hv g [] rfl, .inr ⟨[], rfl⟩⟩
    | cons h v => exact ⟨w, g, h, v ++ d :: d' :: r, by simp, hw, hv g (h :: v) rfl, .inr ⟨h :: v, rfl⟩⟩

/-- A dollar word that begins with `$true` or `$false` goes on with a letter. -/
def DollarOk (w : List Char) : Prop :=
  ∀ g v, (w = "$true".toList ++ g :: v ∨ w = "$false".toList ++ g :: v) → isLetter g = true

theorem predicates_dollar (f : Char) (w : List Char) (h1 : '$' :: f :: w ≠ "$true".toList)
    (h2 : '$' :: f :: w ≠ "$false".toList) : predicates.lookup ('$' :: f :: w) = none := by
  have e1 : (('$' :: f :: w) == ['=']) = false := by simp
  have e2 : (('$' :: f :: w) == ['!', '=']) = false := by simp
  have e3 : (('$' :: f :: w) == "$true".toList) = false := by rw [beq_eq_false_iff_ne]; exact h1
  have e4 : (('$' :: f :: w) == "$false".toList) = false := by rw [beq_eq_false_iff_ne]; exact h2
  simp only [String.toList] at e3 e4
  simp only [predicates, List.lookup, e1, e2]
  have e3' : (('$' :: f :: w) == ['$', 't', 'r', 'u', 'e']) = false := e3
  have e4' : (('$' :: f :: w) == ['$', 'f', 'a', 'l', 's', 'e']) = false := e4
  simp only [e3', e4']

theorem syntacticLex_dollar (f : Char) (u : List Char) (d d' k : Char) (b r : List Char) (q : Nat) (e : Bool)
    (hf : AlphaNum f) (hu : ∀ x ∈ u, AlphaNum x) (hd : isAlnum d = false)
    (h1 : '$' :: f :: u ≠ "$true".toList) (h2 : '$' :: f :: u ≠ "$false".toList) (hok : DollarOk ('$' :: f :: u)) :
    syntacticLex ⟨'$' :: k :: b, f :: (u ++ d :: d' :: r), q, e⟩ =
      some (none, ⟨'$' :: k :: b, f :: (u ++ d :: d' :: r), q, e⟩) := by
  obtain ⟨w, g, h, r', he, hw, hg, hsp⟩ := dollar_split u d d' r (isLetter_false hd)
  have hne : '$' :: f :: w ≠ "$true".toList ∧ '$' :: f :: w ≠ "$false".toList := by
    rcases hsp with rfl | ⟨v, rfl⟩
    · exact ⟨h1, h2⟩
    · constructor
      · intro hc
        have := hok g v (.inl (by rw [← hc]; simp))
        rw [hg] at this; cases this
      · intro hc
        have := hok g v (.inr (by rw [← hc]; simp))
        rw [hg] at this; cases this
  have hasc : ∀ x ∈ '$' :: f :: w, x.toNat < 128 := by
    intro x hx
    simp only [List.mem_cons] at hx
    rcases hx with rfl | rfl | hx
    · decide
    · exact ascii_of hf
    · rcases hsp with rfl | ⟨v, rfl⟩
      · exact ascii_of (hu x hx)
      · exact ascii_of (hu x (by simp [hx]))
  have hl := wlen_ascii _ hasc
  have hrm := remove_run (f :: w) '$' (k :: b) (g :: h :: r') q e ((f :: w).length) rfl
  have hlk := predicates_dollar f w hne.1 hne.2
  have hp : isPredicate ⟨'$' :: k :: b, f :: (u ++ d :: d' :: r), q, e⟩ =
      some (none, ⟨'$' :: k :: b, f :: (u ++ d :: d' :: r), q, e⟩) := by
    rw [he]
    have e1 : ('$' :: f :: w).length - 1 = (f :: w).length := by simp
    have e2 : w.reverse ++ f :: '$' :: k :: b = (f :: w).reverse ++ '$' :: k :: b := by simp
    simp only [isPredicate, Lx.c, List.headD_cons, if_true, advance, Option.bind_eq_bind, Option.bind_some,
      dollarLoop_run w _ g h r' hw hg, failable, hlk, hl, e1, e2, hrm]
    simp
  simp [syntacticLex, isPunctuation_plain (.inr rfl), isOperator_plain (c := '$') (.inr rfl) (by decide),
    isKeyword_other '$' k b _ q e rfl (by decide), hp]

theorem tok_dollar (f : Char) (u : List Char) (d d' k : Char) (b r : List Char) (q : Nat) (e : Bool)
    (hf : AlphaNum f) (hu : ∀ x ∈ u, AlphaNum x) (hd : isAlnum d = false)
    (h1 : '$' :: f :: u ≠ "$true".toList) (h2 : '$' :: f :: u ≠ "$false".toList) (hok : DollarOk ('$' :: f :: u)) :
    lexTok ⟨'$' :: k :: b, f :: (u ++ d :: d' :: r), q, e⟩ =
      some (some (dollarTok ('$' :: f :: u)), ⟨u.reverse ++ f :: '$' :: k :: b, d :: d' :: r, q, e⟩) := by
  have hn := (not_quote hf).2.2
  have hw : word ⟨'$' :: k :: b, f :: (u ++ d :: d' :: r), q, e⟩ =
      some (some (dollarTok ('$' :: f :: u)), ⟨u.reverse ++ f :: '$' :: k :: b, d :: d' :: r, q, e⟩) := by
    simp only [word, Lx.c, List.headD_cons, if_true, checkAdvance, hn, if_false, advance, Option.bind_eq_bind,
      Option.bind_some,
      alphaNumeric_run f u d _ (d' :: r) q e (isAlnum_of hf) (fun x hx => isAlnum_of (hu x hx)) hd]
  simp [lexTok, syntacticLex_dollar f u d d' k b r q e hf hu hd h1 h2 hok, quotedWords_plain, hw]

theorem tok_true (d d' k : Char) (b r : List Char) (q : Nat) (e : Bool) (hd : isAlnum d = false) :
    lexTok ⟨'$' :: k :: b, "true".toList ++ d :: d' :: r, q, e⟩ =
      some (some .true, ⟨"true".toList.reverse ++ '$' :: k :: b, d :: d' :: r, q, e⟩) := by
  have hp : isPredicate ⟨'$' :: k :: b, "true".toList ++ d :: d' :: r, q, e⟩ =
      some (some .true, ⟨"true".toList.reverse ++ '$' :: k :: b, d :: d' :: r, q, e⟩) := by
    have := dollarLoop_run "rue".toList ('t' :: '$' :: k :: b) d d' r (by decide) (isLetter_false hd)
    have e1 : "true".toList ++ d :: d' :: r = 't' :: ("rue".toList ++ d :: d' :: r) := rfl
    rw [e1]
    simp only [isPredicate, Lx.c, List.headD_cons, if_true, advance, Option.bind_eq_bind, Option.bind_some, this]
    rfl
  simp only [lexTok, syntacticLex, isPunctuation_plain (.inr rfl), isOperator_plain (c := '$') (.inr rfl) (by decide),
    isKeyword_other '$' k b _ q e rfl (by decide), hp]

theorem tok_false (d d' k : Char) (b r : List Char) (q : Nat) (e : Bool) (hd : isAlnum d = false) :
    lexTok ⟨'$' :: k :: b, "false".toList ++ d :: d' :: r, q, e⟩ =
      some (some .false, ⟨"false".toList.reverse ++ '$' :: k :: b, d :: d' :: r, q, e⟩) := by
  have hp : isPredicate ⟨'$' :: k :: b, "false".toList ++ d :: d' :: r, q, e⟩ =
      some (some .false, ⟨"false".toList.reverse ++ '$' :: k :: b, d :: d' :: r, q, e⟩) := by
    have := dollarLoop_run "alse".toList ('f' :: '$' :: k :: b) d d' r (by decide) (isLetter_false hd)
    have e1 : "false".toList ++ d :: d' :: r = 'f' :: ("alse".toList ++ d :: d' :: r) := rfl
    rw [e1]
    simp only [isPredicate, Lx.c, List.headD_cons, if_true, advance, Option.bind_eq_bind, Option.bind_some, this]
    rfl
  simp only [lexTok, syntacticLex, isPunctuation_plain (.inr rfl), isOperator_plain (c := '$') (.inr rfl) (by decide),
    isKeyword_other '$' k b _ q e rfl (by decide), hp]

/-! ### Quoted words -/

theorem quotedLoop_run (p : Char → Bool) (q : Char) (hp : p q = false) (hq : q ≠ '\\') :
    ∀ (w : List Char) (c : Char) (a b r : List Char), c :: a = w ++ q :: r → (∀ x ∈ w, p x = true ∧ x ≠ '\\') →
    quotedLoop p q (c :: b) a = some (w, q :: (w.reverse ++ b), r)
  | [], c, a, b, r, h, _ => by
    cases h
    rcases a with _ | ⟨a1, _ | ⟨a2, a⟩⟩ <;> simp [quotedLoop, hp, hq]
  | x :: w, c, a, b, r, h, hw => by
    simp only [List.cons_append, List.cons.injEq] at h
    obtain ⟨rfl, rfl⟩ := h
    obtain ⟨h1, h2⟩ := hw c (by simp)
    cases hw' : w ++ q :: r with
    | nil => simp at hw'
    | cons y a =>
      have ih := quotedLoop_run p q hp hq w y a (c :: b) r hw'.symm (fun x hx => hw x (by simp [hx]))
      have hstep : quotedLoop p q (c :: b) (y :: a) =
          (quotedLoop p q (y :: c :: b) a).map fun (w, b', r') => (c :: w, b', r') := by
        cases a <;> simp [quotedLoop, h1, h2]
      simp [hstep, ih]

theorem qchars_plain {q : Char} : ∀ {v w : List Char}, QChars q v w → '\\' ∉ w →
    v = w ∧ ∀ d ∈ w, 32 ≤ d.toNat ∧ d.toNat ≤ 126 ∧ d ≠ q ∧ d ≠ '\\'
  | _, _, .nil, _ => ⟨rfl, by simp⟩
  | _, _, .plain h1 h2 h3 h4 h, hn => by
    obtain ⟨rfl, hw⟩ := qchars_plain h (fun hc => hn (by simp [hc]))
    refine ⟨rfl, ?_⟩
    intro d hd
    rcases List.mem_cons.1 hd with rfl | hd
    · exact ⟨h1, h2, h3, h4⟩
    · exact hw d hd
  | _, _, .esc _ _, hn => absurd (by simp) hn

theorem plain_quote : Plain '\'' ∧ Plain '"' := by constructor <;> unfold Plain <;> decide

theorem ne_of_toNat {d c : Char} (h : d ≠ c) : d.toNat ≠ c.toNat := by
  intro he; apply h; exact Char.toNat_inj.1 he

theorem tok_squoted (w : List Char) (k : Char) (b r : List Char) (q : Nat) (e : Bool)
    (hw : ∀ d ∈ w, 32 ≤ d.toNat ∧ d.toNat ≤ 126 ∧ d ≠ '\'' ∧ d ≠ '\\') :
    lexTok ⟨'\'' :: k :: b, w ++ '\'' :: r, q, e⟩ =
      some (some (.squoted w), ⟨'\'' :: (w.reverse ++ '\'' :: k :: b), r, q, e⟩) := by
  have hp : ∀ x ∈ w, isSq x = true ∧ x ≠ '\\' := by
    intro x hx
    obtain ⟨h1, h2, h3, h4⟩ := hw x hx
    have h3 := ne_of_toNat h3
    have h4' := ne_of_toNat h4
    refine ⟨?_, h4⟩
    simp only [isSq, Bool.or_eq_true, Bool.and_eq_true, decide_eq_true_eq]
    have : '\''.toNat = 39 := rfl
    have : '\\'.toNat = 92 := rfl
    omega
  cases hw' : w ++ '\'' :: r with
  | nil => simp at hw'
  | cons y a =>
    have := quotedLoop_run isSq '\'' (by decide) (by decide) w y a ('\'' :: k :: b) r hw'.symm hp
    simp [lexTok, syntacticLex_other plain_quote.1 (by decide) (by decide), quotedWords, Lx.c, advance, this]

theorem tok_distinct (w : List Char) (k : Char) (b r : List Char) (q : Nat) (e : Bool)
    (hw : ∀ d ∈ w, 32 ≤ d.toNat ∧ d.toNat ≤ 126 ∧ d ≠ '"' ∧ d ≠ '\\') :
    lexTok ⟨'"' :: k :: b, w ++ '"' :: r, q, e⟩ =
      some (some (.distinct w), ⟨'"' :: (w.reverse ++ '"' :: k :: b), r, q, e⟩) := by
  have hp : ∀ x ∈ w, isDo x = true ∧ x ≠ '\\' := by
    intro x hx
    obtain ⟨h1, h2, h3, h4⟩ := hw x hx
    have h3 := ne_of_toNat h3
    have h4' := ne_of_toNat h4
    refine ⟨?_, h4⟩
    simp only [isDo, Bool.or_eq_true, Bool.and_eq_true, decide_eq_true_eq]
    have : '"'.toNat = 34 := rfl
    have : '\\'.toNat = 92 := rfl
    omega
  cases hw' : w ++ '"' :: r with
  | nil => simp at hw'
  | cons y a =>
    have := quotedLoop_run isDo '"' (by decide) (by decide) w y a ('"' :: k :: b) r hw'.symm hp
    simp [lexTok, syntacticLex_other plain_quote.2 (by decide) (by decide), quotedWords, Lx.c, advance, this]

/-! ### Numbers -/

theorem isDigit_iff {d : Char} : isDigit d = true ↔ Numeric d := by simp [isDigit, Numeric]

theorem digits_run (str : List Char) (c : Char) (u : List Char) (d d' : Char) (b r : List Char) (q : Nat) (e : Bool)
    (hc : isDigit c = true) (hu : ∀ x ∈ u, isDigit x = true) (hd : isDigit d = false) :
    digits str ⟨c :: b, u ++ d :: d' :: r, q, e⟩ = some (str ++ c :: u, ⟨u.reverse ++ c :: b, d :: d' :: r, q, e⟩) := by
  have hrm : remove 1 ⟨d :: (u.reverse ++ c :: b), d' :: r, q, e⟩ = some ⟨u.reverse ++ c :: b, d :: d' :: r, q, e⟩ := by
    cases hw' : u.reverse ++ c :: b with
    | nil => simp at hw'
    | cons f g => exact remove_one d f g _ q e
  simp [digits, spanL_run isDigit u c b d (d' :: r) q e hc hu hd, hrm, atLast]

/-- A decimal with a first digit `c`. -/
def Dec (c : Char) (u : List Char) : Prop :=
  (c = '0' ∧ u = []) ∨ (49 ≤ c.toNat ∧ c.toNat ≤ 57 ∧ ∀ x ∈ u, Numeric x)

theorem dec_of {w : List Char} (h : Decimal w) : ∃ c u, w = c :: u ∧ Dec c u := by
  rcases h with rfl | ⟨d, r, rfl, h1, h2, h3⟩
  · exact ⟨'0', [], rfl, .inl ⟨rfl, rfl⟩⟩
  · exact ⟨d, r, rfl, .inr ⟨h1, h2, h3⟩⟩

theorem Dec.num {c : Char} {u : List Char} (h : Dec c u) : Numeric c ∧ ∀ x ∈ u, Numeric x := by
  rcases h with ⟨rfl, rfl⟩ | ⟨h1, h2, h3⟩
  · exact ⟨by unfold Numeric; decide, by simp⟩
  · exact ⟨⟨by omega, h2⟩, h3⟩

theorem decimal_run (str : List Char) (c : Char) (u : List Char) (d d' : Char) (b r : List Char) (q : Nat) (e : Bool)
    (hn : Dec c u) (hd : isDigit d = false) :
    decimal str ⟨c :: b, u ++ d :: d' :: r, q, e⟩ =
      some (Bool.true, str ++ c :: u, ⟨u.reverse ++ c :: b, d :: d' :: r, q, e⟩) := by
  rcases hn with ⟨rfl, rfl⟩ | ⟨h1, h2, h3⟩
  · simp [decimal, Lx.c]
  · have hc : isDigit c = true := isDigit_iff.2 ⟨by omega, h2⟩
    have h0 : c ≠ '0' := by rintro rfl; revert h1; decide
    have e1 : isNonZero c = true := by simp [isNonZero, h1, h2]
    simp only [decimal, Lx.c, List.headD_cons, h0, if_false, positiveDecimal,
      digits_run str c u d d' b r q e hc (fun x hx => isDigit_iff.2 (h3 x hx)) hd, Option.map_some]
    rw [if_pos e1]

theorem decimal_fail (str : List Char) (x : Lx) (h : isDigit x.c = false) : decimal str x = some (Bool.false, str, x) := by
  have h0 : x.c ≠ '0' := by intro hc; rw [hc] at h; revert h; decide
  have e1 : isNonZero x.c = false := by
    simp only [isDigit, isNonZero, Bool.and_eq_false_iff, decide_eq_false_iff_not] at h ⊢
    omega
  simp only [decimal, h0, if_false, positiveDecimal, e1, Bool.false_eq_true]

theorem fraction_fail (str : List Char) (x : Lx) (h : isDigit x.c = false) :
    decimalFraction str x = some (Bool.false, str, x) := by
  simp [decimalFraction, decimal_fail str x h]

theorem exponent_fail (str : List Char) (x : Lx) (h : isDigit x.c = false) :
    decimalExponent str x = some (Bool.false, str, x) := by
  simp [decimalExponent, decimal_fail str x h, fraction_fail str x h]

theorem real_fail (str : List Char) (x : Lx) (h : isDigit x.c = false) :
    unsignedReal str x = some (Bool.false, str, x) := by
  simp [unsignedReal, exponent_fail str x h, fraction_fail str x h]

theorem rational_fail (str : List Char) (x : Lx) (h : isDigit x.c = false) :
    unsignedRational str x = some (Bool.false, str, x) := by
  simp [unsignedRational, decimal_fail str x h]

theorem remove_cons (u : List Char) (c d : Char) (b r : List Char) (q : Nat) (e : Bool) :
    remove 1 ⟨d :: (u.reverse ++ c :: b), r, q, e⟩ = some ⟨u.reverse ++ c :: b, d :: r, q, e⟩ := by
  cases hw' : u.reverse ++ c :: b with
  | nil => simp at hw'
  | cons f g => exact remove_one d f g r q e

/-- A decimal not followed by a dot: nothing is consumed. -/
theorem fraction_no (str : List Char) (c : Char) (u : List Char) (d d' : Char) (b r : List Char) (q : Nat) (e : Bool)
    (hn : Dec c u) (hd : isDigit d = false) (hdot : d ≠ '.') :
    decimalFraction str ⟨c :: b, u ++ d :: d' :: r, q, e⟩ =
      some (Bool.false, str, ⟨c :: b, u ++ d :: d' :: r, q, e⟩) := by
  have e1 : (str ++ c :: u).length - str.length - 1 = u.length := by simp
  simp only [decimalFraction, decimal_run str c u d d' b r q e hn hd, Option.bind_eq_bind, Option.bind_some, advance,
    dotDecimal, Lx.c, List.headD_cons, hdot, if_false, remove_cons, e1, remove_run u c b (d :: d' :: r) q e u.length rfl]
  simp

/-- A decimal followed by a dot and digits. -/
theorem fraction_yes (str : List Char) (c : Char) (u : List Char) (f : Char) (v : List Char) (d d' : Char)
    (b r : List Char) (q : Nat) (e : Bool) (hn : Dec c u) (hf : Numeric f) (hv : ∀ x ∈ v, Numeric x) (hd : isDigit d = false) :
    decimalFraction str ⟨c :: b, u ++ '.' :: f :: (v ++ d :: d' :: r), q, e⟩ =
      some (Bool.true, str ++ c :: u ++ '.' :: f :: v, ⟨v.reverse ++ f :: '.' :: (u.reverse ++ c :: b), d :: d' :: r, q, e⟩) := by
  have hf' := isDigit_iff.2 hf
  simp only [decimalFraction, decimal_run str c u '.' f b _ q e hn (by decide), Option.bind_eq_bind, Option.bind_some, advance,
    dotDecimal, Lx.c, List.headD_cons, if_true, hf',
    digits_run _ f v d d' _ r q e hf' (fun x hx => isDigit_iff.2 (hv x hx)) hd, Option.map_some]
  simp

/-- A decimal not followed by an exponent. -/
theorem exponent_no (str : List Char) (c : Char) (u : List Char) (d d' : Char) (b r : List Char) (q : Nat) (e : Bool)
    (hn : Dec c u) (hd : isDigit d = false) (hdot : d ≠ '.') (he : d ≠ 'e' ∧ d ≠ 'E') :
    decimalExponent str ⟨c :: b, u ++ d :: d' :: r, q, e⟩ =
      some (Bool.false, str, ⟨c :: b, u ++ d :: d' :: r, q, e⟩) := by
  have e1 : (str ++ c :: u).length - str.length = (u ++ [d]).length := by simp
  have e2 : (d :: (u.reverse ++ c :: b)) = (u ++ [d]).reverse ++ c :: b := by simp
  simp only [decimalExponent, fraction_no str c u d d' b r q e hn hd hdot, decimal_run str c u d d' b r q e hn hd,
    Option.bind_eq_bind, Option.bind_some, advance, Lx.c, List.headD_cons, he.1, he.2, or_self, if_false, e1,
    Bool.false_eq_true]
  rw [e2, remove_run (u ++ [d]) c b (d' :: r) q e _ rfl]
  simp

/-- A fraction not followed by an exponent. -/
theorem exponent_frac (str : List Char) (c : Char) (u : List Char) (f : Char) (v : List Char) (d d' : Char)
    (b r : List Char) (q : Nat) (e : Bool) (hn : Dec c u) (hf : Numeric f) (hv : ∀ x ∈ v, Numeric x) (hd : isDigit d = false)
    (he : d ≠ 'e' ∧ d ≠ 'E') :
    decimalExponent str ⟨c :: b, u ++ '.' :: f :: (v ++ d :: d' :: r), q, e⟩ =
      some (Bool.false, str, ⟨c :: b, u ++ '.' :: f :: (v ++ d :: d' :: r), q, e⟩) := by
  have e1 : (str ++ c :: u ++ '.' :: f :: v).length - str.length = (u ++ '.' :: f :: (v ++ [d])).length := by
    simp; omega
  have e2 : (d :: (v.reverse ++ f :: '.' :: (u.reverse ++ c :: b))) = (u ++ '.' :: f :: (v ++ [d])).reverse ++ c :: b := by simp
  simp only [decimalExponent, fraction_yes str c u f v d d' b r q e hn hf hv hd,
    Option.bind_eq_bind, Option.bind_some, advance, Lx.c, List.headD_cons, he.1, he.2, or_self, if_false, e1, if_true]
  rw [e2, remove_run _ c b (d' :: r) q e _ rfl]
  simp

theorem unsignedExp_run (str : List Char) (c : Char) (u : List Char) (d d' : Char) (b r : List Char) (q : Nat) (e : Bool)
    (hc : Numeric c) (hu : ∀ x ∈ u, Numeric x) (hd : isDigit d = false) :
    unsignedExpInteger str ⟨c :: b, u ++ d :: d' :: r, q, e⟩ =
      some (Bool.true, str ++ c :: u, ⟨u.reverse ++ c :: b, d :: d' :: r, q, e⟩) := by
  have hc' := isDigit_iff.2 hc
  simp only [unsignedExpInteger, Lx.c, List.headD_cons, hc', if_true,
    digits_run str c u d d' b r q e hc' (fun x hx => isDigit_iff.2 (hu x hx)) hd, Option.map_some]

/-- The exponent after its letter: a sign and digits. -/
theorem exp_run (str : List Char) (s : List Char) (c : Char) (u : List Char) (d d' k : Char) (b a r : List Char) (q : Nat) (e : Bool)
    (hs : Sign s) (hc : Numeric c) (hu : ∀ x ∈ u, Numeric x) (hd : isDigit d = false)
    (ha : k :: a = s ++ c :: (u ++ d :: d' :: r)) :
    expInteger str ⟨k :: b, a, q, e⟩ =
      some (Bool.true, str ++ s ++ c :: u, ⟨u.reverse ++ c :: (s.reverse ++ b), d :: d' :: r, q, e⟩) := by
  rcases hs with rfl | rfl | rfl
  · simp only [List.nil_append, List.cons.injEq] at ha
    obtain ⟨rfl, rfl⟩ := ha
    have hsg : isSign k = false := by
      simp only [isSign, Bool.or_eq_false_iff, decide_eq_false_iff_not]
      constructor <;> rintro rfl <;> revert hc <;> unfold Numeric <;> decide
    simp only [expInteger, Lx.c, List.headD_cons, hsg, Bool.false_eq_true, if_false,
      unsignedExp_run str k u d d' b r q e hc hu hd]
    simp
  · simp only [List.cons_append, List.nil_append, List.cons.injEq] at ha
    obtain ⟨rfl, rfl⟩ := ha
    have hsg : isSign '-' = true := by decide
    simp only [expInteger, Lx.c, List.headD_cons, hsg, if_true, advance, Option.bind_eq_bind, Option.bind_some,
      unsignedExp_run (str ++ ['-']) c u d d' ('-' :: b) r q e hc hu hd]
    simp
  · simp only [List.cons_append, List.nil_append, List.cons.injEq] at ha
    obtain ⟨rfl, rfl⟩ := ha
    have hsg : isSign '+' = true := by decide
    simp only [expInteger, Lx.c, List.headD_cons, hsg, if_true, advance, Option.bind_eq_bind, Option.bind_some,
      unsignedExp_run (str ++ ['+']) c u d d' ('+' :: b) r q e hc hu hd]
    simp

/-- A decimal and an exponent. -/
theorem exponent_dec (str : List Char) (c : Char) (u : List Char) (E : Char) (s : List Char) (f : Char) (v : List Char)
    (d d' : Char) (b r : List Char) (q : Nat) (e : Bool) (hn : Dec c u) (hE : E = 'e' ∨ E = 'E') (hs : Sign s)
    (hf : Numeric f) (hv : ∀ x ∈ v, Numeric x) (hd : isDigit d = false) :
    decimalExponent str ⟨c :: b, u ++ E :: (s ++ f :: (v ++ d :: d' :: r)), q, e⟩ =
      some (Bool.true, str ++ c :: u ++ E :: (s ++ f :: v),
        ⟨v.reverse ++ f :: (s.reverse ++ E :: (u.reverse ++ c :: b)), d :: d' :: r, q, e⟩) := by
  have hEd : isDigit E = false := by rcases hE with rfl | rfl <;> decide
  have hEdot : E ≠ '.' := by rcases hE with rfl | rfl <;> decide
  obtain ⟨k, a, hka⟩ : ∃ k a, s ++ f :: (v ++ d :: d' :: r) = k :: a := by
    cases h : s ++ f :: (v ++ d :: d' :: r) with
    | nil => simp at h
    | cons k a => exact ⟨k, a, rfl⟩
  rw [hka]
  simp only [decimalExponent, fraction_no str c u E k b a q e hn hEd hEdot, decimal_run str c u E k b a q e hn hEd,
    Option.bind_eq_bind, Option.bind_some, advance, Lx.c, List.headD_cons, hE, if_true, Bool.false_eq_true, if_false,
    exp_run _ s f v d d' k _ a r q e hs hf hv hd hka.symm, Bool.not_true]
  simp

/-- A fraction and an exponent. -/
theorem exponent_fracExp (str : List Char) (c : Char) (u : List Char) (g : Char) (w : List Char) (E : Char) (s : List Char)
    (f : Char) (v : List Char)
    (d d' : Char) (b r : List Char) (q : Nat) (e : Bool) (hn : Dec c u) (hg : Numeric g) (hw : ∀ x ∈ w, Numeric x)
    (hE : E = 'e' ∨ E = 'E') (hs : Sign s)
    (hf : Numeric f) (hv : ∀ x ∈ v, Numeric x) (hd : isDigit d = false) :
    decimalExponent str ⟨c :: b, u ++ '.' :: g :: (w ++ E :: (s ++ f :: (v ++ d :: d' :: r))), q, e⟩ =
      some (Bool.true, str ++ c :: u ++ '.' :: g :: w ++ E :: (s ++ f :: v),
        ⟨v.reverse ++ f :: (s.reverse ++ E :: (w.reverse ++ g :: '.' :: (u.reverse ++ c :: b))), d :: d' :: r, q, e⟩) := by
  have hEd : isDigit E = false := by rcases hE with rfl | rfl <;> decide
  obtain ⟨k, a, hka⟩ : ∃ k a, s ++ f :: (v ++ d :: d' :: r) = k :: a := by
    cases h : s ++ f :: (v ++ d :: d' :: r) with
    | nil => simp at h
    | cons k a => exact ⟨k, a, rfl⟩
  rw [hka]
  simp only [decimalExponent, fraction_yes str c u g w E k b a q e hn hg hw hEd,
    Option.bind_eq_bind, Option.bind_some, advance, Lx.c, List.headD_cons, hE, if_true, Bool.false_eq_true, if_false,
    exp_run _ s f v d d' k _ a r q e hs hf hv hd hka.symm, Bool.not_true]
  simp

theorem signed_true {f : List Char → Lx → Option (Bool × List Char × Lx)} {s : List Char} {c k : Char} {a a' b t : List Char}
    {q : Nat} {e : Bool} {z : Lx} (hs : s = [] ∨ s = ['-']) (hc : isSign c = false) (hk : k :: a = s ++ c :: a')
    (hf : f s ⟨c :: (s.reverse ++ b), a', q, e⟩ = some (Bool.true, t, z)) :
    signed f [] ⟨k :: b, a, q, e⟩ = some (Bool.true, t, z) := by
  rcases hs with rfl | rfl
  · simp only [List.nil_append, List.cons.injEq] at hk
    obtain ⟨rfl, rfl⟩ := hk
    simp only [List.reverse_nil, List.nil_append] at hf
    simp [signed, Lx.c, hc, hf]
  · simp only [List.cons_append, List.nil_append, List.cons.injEq] at hk
    obtain ⟨rfl, rfl⟩ := hk
    have hsg : isSign '-' = true := by decide
    simp only [List.reverse_cons, List.reverse_nil, List.nil_append, List.cons_append] at hf
    simp [signed, Lx.c, hsg, advance, hf]

theorem signed_false {f : List Char → Lx → Option (Bool × List Char × Lx)} {s : List Char} {c k : Char} {a a' b : List Char}
    {q : Nat} {e : Bool} (hs : s = [] ∨ s = ['-']) (hc : isSign c = false) (hk : k :: a = s ++ c :: a')
    (hf : f s ⟨c :: (s.reverse ++ b), a', q, e⟩ = some (Bool.false, s, ⟨c :: (s.reverse ++ b), a', q, e⟩))
    (hf' : ∀ x : Lx, isDigit x.c = false → f [] x = some (Bool.false, [], x)) :
    signed f [] ⟨k :: b, a, q, e⟩ = some (Bool.false, [], ⟨k :: b, a, q, e⟩) := by
  rcases hs with rfl | rfl
  · simp only [List.nil_append, List.cons.injEq] at hk
    obtain ⟨rfl, rfl⟩ := hk
    simp only [List.reverse_nil, List.nil_append] at hf
    simp [signed, Lx.c, hc, hf]
  · simp only [List.cons_append, List.nil_append, List.cons.injEq] at hk
    obtain ⟨rfl, rfl⟩ := hk
    have hsg : isSign '-' = true := by decide
    simp only [List.reverse_cons, List.reverse_nil, List.nil_append, List.cons_append] at hf
    simp [signed, Lx.c, hsg, advance, hf, remove_one, hf' ⟨'-' :: b, c :: a', q, e⟩ rfl]

theorem num_not_sign {c : Char} (h : Numeric c) : isSign c = false := by
  simp only [isSign, Bool.or_eq_false_iff, decide_eq_false_iff_not]
  constructor <;> rintro rfl <;> revert h <;> unfold Numeric <;> decide

/-- The character after a number. -/
structure After (d : Char) : Prop where
  digit : isDigit d = false
  dot : d ≠ '.'
  exp : d ≠ 'e' ∧ d ≠ 'E'
  slash : d ≠ '/'

theorem real_no {s : List Char} {c k : Char} {a b u : List Char} {d d' : Char} {r : List Char} {q : Nat} {e : Bool}
    (hs : s = [] ∨ s = ['-']) (hn : Dec c u) (hd : isDigit d = false) (hdot : d ≠ '.') (he : d ≠ 'e' ∧ d ≠ 'E')
    (hk : k :: a = s ++ c :: (u ++ d :: d' :: r)) :
    signed unsignedReal [] ⟨k :: b, a, q, e⟩ = some (Bool.false, [], ⟨k :: b, a, q, e⟩) := by
  refine signed_false hs (num_not_sign hn.num.1) hk ?_ (fun x hx => real_fail [] x hx)
  simp [unsignedReal, exponent_no s c u d d' _ r q e hn hd hdot he, fraction_no s c u d d' _ r q e hn hd hdot]

theorem rat_no {s : List Char} {c k : Char} {a b u : List Char} {d d' : Char} {r : List Char} {q : Nat} {e : Bool}
    (hs : s = [] ∨ s = ['-']) (hn : Dec c u) (hd : After d) (hk : k :: a = s ++ c :: (u ++ d :: d' :: r)) :
    signed unsignedRational [] ⟨k :: b, a, q, e⟩ = some (Bool.false, [], ⟨k :: b, a, q, e⟩) := by
  refine signed_false hs (num_not_sign hn.num.1) hk ?_ (fun x hx => rational_fail [] x hx)
  have e1 : (s ++ c :: u).length - s.length = (u ++ [d]).length := by simp
  have e2 : (d :: (u.reverse ++ c :: (s.reverse ++ b))) = (u ++ [d]).reverse ++ c :: (s.reverse ++ b) := by simp
  simp only [unsignedRational, decimal_run s c u d d' _ r q e hn hd.digit, Option.bind_eq_bind, Option.bind_some,
    advance, Lx.c, List.headD_cons, hd.slash, if_false, e1, Bool.not_true, Bool.false_eq_true]
  rw [e2, remove_run (u ++ [d]) c _ (d' :: r) q e _ rfl]
  simp

theorem number_int {s : List Char} {c k : Char} {a b u : List Char} {d d' : Char} {r : List Char} {q : Nat} {e : Bool}
    (hs : s = [] ∨ s = ['-']) (hn : Dec c u) (hd : After d) (hk : k :: a = s ++ c :: (u ++ d :: d' :: r)) :
    number ⟨k :: b, a, q, e⟩ = some (some (.int (s ++ c :: u)), ⟨(s ++ c :: u).reverse ++ b, d :: d' :: r, q, e⟩) := by
  have h1 := real_no (b := b) (q := q) (e := e) hs hn hd.digit hd.dot hd.exp hk
  have h2 := rat_no (b := b) (q := q) (e := e) hs hn hd hk
  have h3 := signed_true (f := decimal) (b := b) hs (num_not_sign hn.num.1) hk (decimal_run s c u d d' _ r q e hn hd.digit)
  simp [number, h1, h2, h3]

theorem number_rat {s : List Char} {c k : Char} {a b u : List Char} {f : Char} {v : List Char} {d d' : Char} {r : List Char}
    {q : Nat} {e : Bool} (hs : s = [] ∨ s = ['-']) (hn : Dec c u) (hf1 : 49 ≤ f.toNat) (hf2 : f.toNat ≤ 57)
    (hv : ∀ x ∈ v, Numeric x) (hd : isDigit d = false)
    (hk : k :: a = s ++ c :: (u ++ '/' :: f :: (v ++ d :: d' :: r))) :
    number ⟨k :: b, a, q, e⟩ = some (some (.rat (s ++ c :: u ++ '/' :: f :: v)),
      ⟨(s ++ c :: u ++ '/' :: f :: v).reverse ++ b, d :: d' :: r, q, e⟩) := by
  have h1 := real_no (b := b) (q := q) (e := e) hs hn (by decide) (by decide) ⟨by decide, by decide⟩ hk
  have h2 : unsignedRational s ⟨c :: (s.reverse ++ b), u ++ '/' :: f :: (v ++ d :: d' :: r), q, e⟩ =
      some (Bool.true, s ++ c :: u ++ '/' :: f :: v,
        ⟨v.reverse ++ f :: '/' :: (u.reverse ++ c :: (s.reverse ++ b)), d :: d' :: r, q, e⟩) := by
    have e1 : isNonZero f = true := by simp [isNonZero, hf1, hf2]
    simp only [unsignedRational, decimal_run s c u '/' f _ _ q e hn (by decide), Option.bind_eq_bind, Option.bind_some,
      advance, Lx.c, List.headD_cons, if_true, Bool.not_true, Bool.false_eq_true, if_false, positiveDecimal, e1]
    rw [digits_run _ f v d d' _ r q e (isDigit_iff.2 ⟨by omega, hf2⟩) (fun x hx => isDigit_iff.2 (hv x hx)) hd]
    simp
  have h3 := signed_true (f := unsignedRational) (b := b) hs (num_not_sign hn.num.1) hk h2
  simp [number, h1, h3]

theorem number_frac {s : List Char} {c k : Char} {a b u : List Char} {f : Char} {v : List Char} {d d' : Char} {r : List Char}
    {q : Nat} {e : Bool} (hs : s = [] ∨ s = ['-']) (hn : Dec c u) (hf : Numeric f)
    (hv : ∀ x ∈ v, Numeric x) (hd : isDigit d = false) (he : d ≠ 'e' ∧ d ≠ 'E')
    (hk : k :: a = s ++ c :: (u ++ '.' :: f :: (v ++ d :: d' :: r))) :
    number ⟨k :: b, a, q, e⟩ = some (some (.real (s ++ c :: u ++ '.' :: f :: v)),
      ⟨(s ++ c :: u ++ '.' :: f :: v).reverse ++ b, d :: d' :: r, q, e⟩) := by
  have h2 : unsignedReal s ⟨c :: (s.reverse ++ b), u ++ '.' :: f :: (v ++ d :: d' :: r), q, e⟩ =
      some (Bool.true, s ++ c :: u ++ '.' :: f :: v,
        ⟨v.reverse ++ f :: '.' :: (u.reverse ++ c :: (s.reverse ++ b)), d :: d' :: r, q, e⟩) := by
    simp only [unsignedReal, exponent_frac s c u f v d d' _ r q e hn hf hv hd he, Option.bind_eq_bind, Option.bind_some,
      fraction_yes s c u f v d d' _ r q e hn hf hv hd, Bool.false_eq_true, if_false]
  have h3 := signed_true (f := unsignedReal) (b := b) hs (num_not_sign hn.num.1) hk h2
  simp [number, h3]

theorem real_of_exp {s t : List Char} {x z : Lx} (h : decimalExponent s x = some (Bool.true, t, z)) :
    unsignedReal s x = some (Bool.true, t, z) := by simp [unsignedReal, h]

theorem number_exp {s : List Char} {c k : Char} {a b u : List Char} {E : Char} {s' : List Char} {f : Char} {v : List Char}
    {d d' : Char} {r : List Char}
    {q : Nat} {e : Bool} (hs : s = [] ∨ s = ['-']) (hn : Dec c u) (hE : E = 'e' ∨ E = 'E') (hs' : Sign s') (hf : Numeric f)
    (hv : ∀ x ∈ v, Numeric x) (hd : isDigit d = false)
    (hk : k :: a = s ++ c :: (u ++ E :: (s' ++ f :: (v ++ d :: d' :: r)))) :
    number ⟨k :: b, a, q, e⟩ = some (some (.real (s ++ c :: u ++ E :: (s' ++ f :: v))),
      ⟨(s ++ c :: u ++ E :: (s' ++ f :: v)).reverse ++ b, d :: d' :: r, q, e⟩) := by
  have h2 := exponent_dec s c u E s' f v d d' (s.reverse ++ b) r q e hn hE hs' hf hv hd
  have h3 := signed_true (f := unsignedReal) (b := b) hs (num_not_sign hn.num.1) hk (real_of_exp h2)
  simp [number, h3]

theorem number_fracExp {s : List Char} {c k : Char} {a b u : List Char} {g : Char} {w : List Char} {E : Char} {s' : List Char}
    {f : Char} {v : List Char} {d d' : Char} {r : List Char}
    {q : Nat} {e : Bool} (hs : s = [] ∨ s = ['-']) (hn : Dec c u) (hg : Numeric g) (hw : ∀ x ∈ w, Numeric x)
    (hE : E = 'e' ∨ E = 'E') (hs' : Sign s') (hf : Numeric f)
    (hv : ∀ x ∈ v, Numeric x) (hd : isDigit d = false)
    (hk : k :: a = s ++ c :: (u ++ '.' :: g :: (w ++ E :: (s' ++ f :: (v ++ d :: d' :: r))))) :
    number ⟨k :: b, a, q, e⟩ = some (some (.real (s ++ c :: u ++ '.' :: g :: w ++ E :: (s' ++ f :: v))),
      ⟨(s ++ c :: u ++ '.' :: g :: w ++ E :: (s' ++ f :: v)).reverse ++ b, d :: d' :: r, q, e⟩) := by
  have h2 := exponent_fracExp s c u g w E s' f v d d' (s.reverse ++ b) r q e hn hg hw hE hs' hf hv hd
  have h3 := signed_true (f := unsignedReal) (b := b) hs (num_not_sign hn.num.1) hk (real_of_exp h2)
  simp [number, h3]

/-- Nothing before `number` takes a character that is not a letter, quote or symbol. -/
theorem lexTok_number {k : Char} (hk : Numeric k ∨ k = '-') (j : Char) (b a : List Char) (q : Nat) (e : Bool) (t : Tok) (z : Lx)
    (h : number ⟨k :: j :: b, a, q, e⟩ = some (some t, z)) :
    lexTok ⟨k :: j :: b, a, q, e⟩ = some (some t, z) := by
  have hpl : Plain k := by
    rcases hk with hk | rfl
    · exact plain_of_alnum (.inr (.inr (.inl hk)))
    · unfold Plain; decide
  have hasc : k.toNat < 128 := by
    rcases hk with hk | rfl
    · unfold Numeric at hk; omega
    · decide
  have hl : isLetter k = false := by
    rcases hk with hk | rfl
    · unfold Numeric at hk
      simp only [isLetter, Bool.or_eq_false_iff, Bool.and_eq_false_iff, decide_eq_false_iff_not, beq_eq_false_iff_ne]
      refine ⟨⟨⟨⟨⟨?_, ?_⟩, ?_⟩, ?_⟩, ?_⟩, ?_⟩ <;> omega
    · decide
  have hq : k ≠ '\'' ∧ k ≠ '"' ∧ k ≠ '$' := by
    rcases hk with hk | rfl
    · exact not_quote (.inr (.inr (.inl hk)))
    · decide
  have hup : isUpper k = false ∧ isLower k = false := by
    rcases hk with hk | rfl
    · unfold Numeric at hk
      simp only [isUpper, isLower, Bool.or_eq_false_iff, Bool.and_eq_false_iff, decide_eq_false_iff_not, beq_eq_false_iff_ne]
      refine ⟨⟨?_, ?_⟩, ⟨?_, ?_⟩, ?_⟩ <;> omega
    · decide
  have hw : word ⟨k :: j :: b, a, q, e⟩ = some (none, ⟨k :: j :: b, a, q, e⟩) := by
    simp [word, Lx.c, hq.2.2, hup.1, hup.2]
  simp [lexTok, syntacticLex_other hpl hasc hl, quotedWords_plain hq.1 hq.2.1, hw, h]

end Verif.Parser
