import Verif.Parser.LexNum
/-!
# Spaces, comments, and the sequence of tokens
-/

namespace Verif.Parser

/-! ### Special characters -/

theorem number_none (x : Lx) (h1 : isSign x.c = false) (h2 : isDigit x.c = false) : number x = some (none, x) := by
  simp [number, signed, h1, real_fail [] x h2, rational_fail [] x h2, decimal_fail [] x h2]

theorem signed_dash {f : List Char → Lx → Option (Bool × List Char × Lx)} (b a : List Char) (d : Char) (q : Nat) (e : Bool)
    (hd : isDigit d = false) (hf : ∀ (s : List Char) (x : Lx), isDigit x.c = false → f s x = some (Bool.false, s, x)) :
    signed f [] ⟨'-' :: b, d :: a, q, e⟩ = some (Bool.false, [], ⟨'-' :: b, d :: a, q, e⟩) := by
  have hsg : isSign '-' = true := by decide
  simp [signed, Lx.c, hsg, advance, hf ['-'] ⟨d :: '-' :: b, a, q, e⟩ hd, remove_one,
    hf [] ⟨'-' :: b, d :: a, q, e⟩ rfl]

theorem number_dash (b a : List Char) (d : Char) (q : Nat) (e : Bool) (hd : isDigit d = false) :
    number ⟨'-' :: b, d :: a, q, e⟩ = some (none, ⟨'-' :: b, d :: a, q, e⟩) := by
  simp [number, signed_dash b a d q e hd real_fail, signed_dash b a d q e hd rational_fail,
    signed_dash b a d q e hd decimal_fail]

/-- Special characters other than `<` and `-`. -/
theorem tok_special (t : Tok) (c j : Char) (b r : List Char) (q : Nat) (e : Bool)
    (h : (c = '>' ∧ t = .arrow) ∨ (c = '#' ∧ t = .hash) ∨ (c = '/' ∧ t = .slash) ∨ (c = '\\' ∧ t = .slosh)) :
    lexTok ⟨c :: j :: b, r, q, e⟩ = some (some t, ⟨c :: j :: b, r, q, e⟩) := by
  have hpl : Plain c := by
    rcases h with ⟨rfl, _⟩ | ⟨rfl, _⟩ | ⟨rfl, _⟩ | ⟨rfl, _⟩ <;> unfold Plain <;> decide
  have hasc : c.toNat < 128 := by rcases h with ⟨rfl, _⟩ | ⟨rfl, _⟩ | ⟨rfl, _⟩ | ⟨rfl, _⟩ <;> decide
  have hl : isLetter c = false := by rcases h with ⟨rfl, _⟩ | ⟨rfl, _⟩ | ⟨rfl, _⟩ | ⟨rfl, _⟩ <;> decide
  have hq : c ≠ '\'' ∧ c ≠ '"' ∧ c ≠ '$' := by rcases h with ⟨rfl, _⟩ | ⟨rfl, _⟩ | ⟨rfl, _⟩ | ⟨rfl, _⟩ <;> decide
  have hul : isUpper c = false ∧ isLower c = false := by
    rcases h with ⟨rfl, _⟩ | ⟨rfl, _⟩ | ⟨rfl, _⟩ | ⟨rfl, _⟩ <;> decide
  have hsd : isSign c = false ∧ isDigit c = false := by
    rcases h with ⟨rfl, _⟩ | ⟨rfl, _⟩ | ⟨rfl, _⟩ | ⟨rfl, _⟩ <;> decide
  have hw : word ⟨c :: j :: b, r, q, e⟩ = some (none, ⟨c :: j :: b, r, q, e⟩) := by
    simp [word, Lx.c, hq.2.2, hul.1, hul.2]
  have hsp : specialChars ⟨c :: j :: b, r, q, e⟩ = some t := by
    rcases h with ⟨rfl, rfl⟩ | ⟨rfl, rfl⟩ | ⟨rfl, rfl⟩ | ⟨rfl, rfl⟩ <;> rfl
  simp [lexTok, syntacticLex_other hpl hasc hl, quotedWords_plain hq.1 hq.2.1, hw,
    number_none ⟨c :: j :: b, r, q, e⟩ hsd.1 hsd.2, hsp]

theorem tok_dash (d j : Char) (b r : List Char) (q : Nat) (e : Bool) (hd : isDigit d = false) :
    lexTok ⟨'-' :: j :: b, d :: r, q, e⟩ = some (some .dash, ⟨'-' :: j :: b, d :: r, q, e⟩) := by
  have hw : word ⟨'-' :: j :: b, d :: r, q, e⟩ = some (none, ⟨'-' :: j :: b, d :: r, q, e⟩) := by
    simp [word, Lx.c, isUpper, isLower]
  have hpl : Plain '-' := by unfold Plain; decide
  have hsp : specialChars ⟨'-' :: j :: b, d :: r, q, e⟩ = some .dash := rfl
  simp [lexTok, syntacticLex_other hpl (by decide) (by decide), quotedWords_plain, hw, number_dash _ _ _ _ _ hd, hsp]

theorem tok_less (j : Char) (b r : List Char) (q : Nat) (e : Bool)
    (h : ∀ d r', r = d :: r' → ¬ (d = '=' ∨ d = '~' ∨ d = '<')) :
    lexTok ⟨'<' :: j :: b, r, q, e⟩ = some (some .less, ⟨'<' :: j :: b, r, q, e⟩) := by
  have ho : isOperator ⟨'<' :: j :: b, r, q, e⟩ = some (none, ⟨'<' :: j :: b, r, q, e⟩) := by
    cases r with
    | nil => simp [isOperator, Lx.c, failable, operators, checkAdvance, wlen, charLen, List.lookup]
    | cons d r =>
      have := h d r rfl
      simp only [not_or] at this
      simp [isOperator, Lx.c, failable, operators, checkAdvance, wlen, charLen, List.lookup, this]
  have hp : isPunctuation ⟨'<' :: j :: b, r, q, e⟩ = none := rfl
  have hpr : isPredicate ⟨'<' :: j :: b, r, q, e⟩ = some (none, ⟨'<' :: j :: b, r, q, e⟩) := by
    simp [isPredicate, Lx.c, failable, predicates, List.lookup, wlen, charLen]
  have hs : syntacticLex ⟨'<' :: j :: b, r, q, e⟩ = some (none, ⟨'<' :: j :: b, r, q, e⟩) := by
    simp [syntacticLex, hp, ho, isKeyword_other '<' j b r q e rfl (by decide), hpr]
  have hw : word ⟨'<' :: j :: b, r, q, e⟩ = some (none, ⟨'<' :: j :: b, r, q, e⟩) := by
    simp [word, Lx.c, isUpper, isLower]
  have hsp : specialChars ⟨'<' :: j :: b, r, q, e⟩ = some .less := rfl
  simp [lexTok, hs, quotedWords_plain, hw, number_none ⟨'<' :: j :: b, r, q, e⟩ rfl rfl, hsp]

/-! ### Spaces and comments -/

theorem spaces_split : ∀ {sep : List Char}, Sep sep → ∃ sp sep', sep = sp ++ sep' ∧ (∀ d ∈ sp, isSpace d = true) ∧
    Sep sep' ∧ ∀ g v, sep' = g :: v → isSpace g = false ∧ v ≠ []
  | _, .nil => ⟨[], [], rfl, by simp, .nil, by simp⟩
  | _, .space (d := d) hd h => by
    obtain ⟨sp, sep', rfl, h1, h2, h3⟩ := spaces_split h
    refine ⟨d :: sp, sep', rfl, ?_, h2, h3⟩
    intro x hx
    rcases List.mem_cons.1 hx with rfl | hx
    · rcases hd with rfl | rfl | rfl | rfl <;> decide
    · exact h1 x hx
  | _, .line (w := w) (r := r) hw h => by
    refine ⟨[], '%' :: (w ++ '\n' :: r), rfl, by simp, .line hw h, ?_⟩
    intro g v hg
    simp only [List.cons.injEq] at hg
    obtain ⟨rfl, rfl⟩ := hg
    exact ⟨by decide, by simp⟩
  | _, .block (w := w) (r := r) hw h => by
    refine ⟨[], '/' :: '*' :: (w ++ '*' :: '/' :: r), rfl, by simp, .block hw h, ?_⟩
    intro g v hg
    simp only [List.cons.injEq] at hg
    obtain ⟨rfl, rfl⟩ := hg
    exact ⟨by decide, by simp⟩

theorem filterSpaces_run (sp : List Char) (g k : Char) (v a b : List Char) (q : Nat) (e : Bool)
    (hs : ∀ d ∈ sp, isSpace d = true) (hg : isSpace g = false) (hk : k :: a = sp ++ g :: v) :
    filterSpaces ⟨k :: b, a, q, e⟩ = (!v.isEmpty, ⟨g :: (sp.reverse ++ b), v, q, e⟩) := by
  cases sp with
  | nil =>
    simp only [List.nil_append, List.cons.injEq] at hk
    obtain ⟨rfl, rfl⟩ := hk
    simp [filterSpaces, spanL_stop isSpace k b a q e hg, Lx.more]
  | cons d sp =>
    simp only [List.cons_append, List.cons.injEq] at hk
    obtain ⟨rfl, rfl⟩ := hk
    simp [filterSpaces, spanL_run isSpace sp k b g v q e (hs k (by simp)) (fun x hx => hs x (by simp [hx])) hg, Lx.more]

theorem spanC_all (p : Char → Bool) : ∀ (a : List Char) (c : Char) (b : List Char), p c = true → (∀ x ∈ a, p x = true) →
    (spanC p (c :: b) a).2.2 = []
  | [], c, b, _, _ => by simp [spanC]
  | x :: a, c, b, hc, ha => by
    simp [spanC, hc, spanC_all p a x (c :: b) (ha x (by simp)) (fun y hy => ha y (by simp [hy]))]

theorem filterSpaces_all (k : Char) (a b : List Char) (q : Nat) (e : Bool) (hs : ∀ d ∈ k :: a, isSpace d = true) :
    ∃ y, filterSpaces ⟨k :: b, a, q, e⟩ = (Bool.false, y) ∧ y.quants = q ∧ y.hasEq = e := by
  have := spanC_all isSpace a k b (hs k (by simp)) (fun x hx => hs x (by simp [hx]))
  exact ⟨⟨_, _, _, _⟩, by simp only [filterSpaces, spanL, Lx.more, this]; exact ⟨rfl, rfl, rfl⟩⟩

theorem filterComments_other (k : Char) (a b : List Char) (q : Nat) (e : Bool) (h1 : k ≠ '%') (h2 : k ≠ '/') :
    filterComments ⟨k :: b, a, q, e⟩ = some (Bool.true, ⟨k :: b, a, q, e⟩) := by
  simp [filterComments, Lx.c, h1, h2]

theorem filterComments_slash (d : Char) (a b : List Char) (q : Nat) (e : Bool) (h : d ≠ '*') :
    filterComments ⟨'/' :: b, d :: a, q, e⟩ = some (Bool.true, ⟨'/' :: b, d :: a, q, e⟩) := by
  simp [filterComments, Lx.c, checkAdvance, h, Lx.more]

theorem filterComments_line (w a b : List Char) (q : Nat) (e : Bool) (hw : ∀ d ∈ w, 32 ≤ d.toNat ∧ d.toNat ≤ 126) :
    filterComments ⟨'%' :: b, w ++ '\n' :: a, q, e⟩ =
      some (!a.isEmpty, ⟨'\n' :: (w.reverse ++ '%' :: b), a, q, e⟩) := by
  have hp : ∀ d ∈ w, isPrintable d = true := fun d hd => by simp [isPrintable, hw d hd]
  cases w with
  | nil => simp [filterComments, Lx.c, advance, spanL_stop isPrintable '\n' _ a q e (by decide), Lx.more]
  | cons c w =>
    simp [filterComments, Lx.c, advance,
      spanL_run isPrintable w c ('%' :: b) '\n' a q e (hp c (by simp)) (fun d hd => hp d (by simp [hd])) (by decide), Lx.more]

theorem blockLoop_run : ∀ (w : List Char) (k : Char) (a b r : List Char), (∀ u v, w ≠ u ++ '*' :: '/' :: v) →
    k :: a = w ++ '*' :: '/' :: r → blockLoop (k :: b) a = ('/' :: '*' :: (w.reverse ++ b), r)
  | [], k, a, b, r, _, hk => by
    simp only [List.nil_append, List.cons.injEq] at hk
    obtain ⟨rfl, rfl⟩ := hk
    simp [blockLoop]
  | c :: w, k, a, b, r, hw, hk => by
    simp only [List.cons_append, List.cons.injEq] at hk
    obtain ⟨rfl, rfl⟩ := hk
    cases ha : w ++ '*' :: '/' :: r with
    | nil => simp at ha
    | cons x a =>
      have ih := blockLoop_run w x a (k :: b) r (fun u v h => hw (k :: u) v (by simp [h])) ha.symm
      have hn : ¬ (k = '*' ∧ x = '/') := by
        rintro ⟨rfl, rfl⟩
        cases w with
        | nil => simp at ha
        | cons y w =>
          simp only [List.cons_append, List.cons.injEq] at ha
          exact hw [] w (by simp [ha.1])
      simp only [blockLoop, List.headD_cons, hn, if_false, ih]
      simp

theorem filterComments_block (w : List Char) (c : Char) (a b : List Char) (q : Nat) (e : Bool)
    (hw : ∀ u v, w ≠ u ++ '*' :: '/' :: v) :
    filterComments ⟨'/' :: b, '*' :: (w ++ '*' :: '/' :: c :: a), q, e⟩ =
      some (!a.isEmpty, ⟨c :: '/' :: '*' :: (w.reverse ++ '*' :: '/' :: b), a, q, e⟩) := by
  cases hx : w ++ '*' :: '/' :: c :: a with
  | nil => simp at hx
  | cons k a' =>
    have := blockLoop_run w k a' ('*' :: '/' :: b) (c :: a) hw hx.symm
    simp [filterComments, Lx.c, checkAdvance, advance, this, Lx.more]

/-- The first characters of a token. -/
def TokStart (t : List Char) : Prop :=
  ∀ c a, t = c :: a → isSpace c = false ∧ c ≠ '%' ∧ a ≠ [] ∧ (c = '/' → ∀ r, a ≠ '*' :: r)

/-- The result of skipping `sep` before `t`. -/
def FilterOk (n : Nat) (k : Char) (b a : List Char) (q : Nat) (e : Bool) (sep : List Char) : List Char → Prop
  | [] => ∃ y, filter n ⟨k :: b, a, q, e⟩ = some (Bool.false, y) ∧ y.quants = q ∧ y.hasEq = e
  | c :: r => filter n ⟨k :: b, a, q, e⟩ = some (Bool.true, ⟨c :: (sep.reverse ++ b), r, q, e⟩)

/-- A round of the loop after a comment or nothing has been skipped. -/
theorem filter_round (n : Nat) (x : Lx) (k' : Char) (b' a' : List Char) (q : Nat) (e : Bool) (sep t : List Char)
    (hc : filterComments x = some (Bool.true, ⟨k' :: b', a', q, e⟩)) (hsep : Sep sep) (hk : k' :: a' = sep ++ t)
    (ht : TokStart t)
    (hprog : ∀ sp sep' g v, sep = sp ++ sep' → (∀ g v, sep' = g :: v → isSpace g = false) → sep' ++ t = g :: v →
      (sp.reverse ++ b').length + 1 ≠ x.bef.length)
    (ih : ∀ sp sep' g v, sep = sp ++ sep' → Sep sep' → (∀ g v, sep' = g :: v → isSpace g = false) → sep' ++ t = g :: v →
      FilterOk n g (sp.reverse ++ b') v q e sep' t) :
    match t with
    | [] => ∃ y, filter (n + 1) x = some (Bool.false, y) ∧ y.quants = q ∧ y.hasEq = e
    | c :: r => filter (n + 1) x = some (Bool.true, ⟨c :: (sep.reverse ++ b'), r, q, e⟩) := by
  obtain ⟨sp, sep', rfl, hsp, hsep', hst⟩ := spaces_split hsep
  cases hgv : sep' ++ t with
  | nil =>
    simp only [List.append_eq_nil_iff] at hgv
    obtain ⟨rfl, rfl⟩ := hgv
    have hall : ∀ d ∈ k' :: a', isSpace d = true := by rw [hk]; simpa using hsp
    obtain ⟨y, hy, hq⟩ := filterSpaces_all k' a' b' q e hall
    exact ⟨y, by simp only [filter, hc, hy], hq⟩
  | cons g v =>
    have hg : isSpace g = false ∧ v ≠ [] := by
      cases sep' with
      | nil =>
        simp only [List.nil_append] at hgv
        have := ht g v hgv
        exact ⟨this.1, this.2.2.1⟩
      | cons g' v' =>
        simp only [List.cons_append, List.cons.injEq] at hgv
        obtain ⟨rfl, rfl⟩ := hgv
        have := hst g' v' rfl
        exact ⟨this.1, by simp [this.2]⟩
    have hf := filterSpaces_run sp g k' v a' b' q e hsp hg.1 (by rw [hk, List.append_assoc, hgv])
    have hve : (!v.isEmpty) = true := by cases v; exact absurd rfl hg.2; rfl
    rw [hve] at hf
    have hst' : ∀ g v, sep' = g :: v → isSpace g = false := fun g v h => (hst g v h).1
    have hp := hprog sp sep' g v rfl hst' hgv
    have hi := ih sp sep' g v rfl hsep' hst' hgv
    have hstep : filter (n + 1) x = filter n ⟨g :: (sp.reverse ++ b'), v, q, e⟩ := by
      simp only [filter, hc, hf]
      rw [if_neg]
      simpa using hp
    cases t with
    | nil => simpa [FilterOk, hstep] using hi
    | cons c r => simpa [FilterOk, hstep] using hi

/-- The text before the next token ends with the end of a line, if there is no further token. -/
def EndOk (sep t : List Char) : Prop := t = [] → ∃ u, sep = u ++ ['\n']

theorem EndOk.suffix {sp sep t : List Char} (h : EndOk (sp ++ sep) t) (hne : sep ++ t ≠ []) : EndOk sep t := by
  intro ht
  subst ht
  obtain ⟨u, hu⟩ := h rfl
  simp only [List.append_nil] at hne
  have h1 : (sp ++ sep).getLast? = some '\n' := by rw [hu]; simp
  have h2 : (sp ++ sep).getLast? = sep.getLast? := by
    rw [List.getLast?_append]
    cases hs : sep.getLast? with
    | none => exact absurd (List.getLast?_eq_none_iff.1 hs) hne
    | some x => simp
  rw [h2, List.getLast?_eq_some_iff] at h1
  exact h1

theorem filter_sep (q : Nat) (e : Bool) : ∀ (N : Nat) (sep : List Char), sep.length ≤ N → Sep sep →
    ∀ (t : List Char) (n : Nat) (b : List Char) (k : Char) (a : List Char), sep.length + 1 ≤ n → k :: a = sep ++ t →
    TokStart t → EndOk sep t → FilterOk n k b a q e sep t := by
  intro N
  induction N with
  | zero =>
    intro sep hN hsep t n b k a hn hk ht hend
    have : sep = [] := by cases sep; rfl; simp at hN
    subst this
    cases t with
    | nil => simp at hk
    | cons c r =>
      simp only [List.nil_append, List.cons.injEq] at hk
      obtain ⟨rfl, rfl⟩ := hk
      obtain ⟨h1, h2, h3, h4⟩ := ht k a rfl
      obtain ⟨n, rfl⟩ : ∃ m, n = m + 1 := ⟨n - 1, by simp at hn; omega⟩
      have hc : filterComments ⟨k :: b, a, q, e⟩ = some (Bool.true, ⟨k :: b, a, q, e⟩) := by
        by_cases hk : k = '/'
        · subst hk
          cases a with
          | nil => exact absurd rfl h3
          | cons d a => exact filterComments_slash d a b q e (fun hd => h4 rfl a (by rw [hd]))
        · exact filterComments_other k a b q e h2 hk
      have hf := filterSpaces_run [] k k a a b q e (by simp) h1 rfl
      have hve : (!a.isEmpty) = true := by cases a; exact absurd rfl h3; rfl
      rw [hve] at hf
      simp [FilterOk, filter, hc, hf]
  | succ N IH =>
    intro sep hN hsep t n b k a hn hk ht hend
    obtain ⟨n, rfl⟩ : ∃ m, n = m + 1 := ⟨n - 1, by omega⟩
    cases hsep with
    | nil => exact IH [] (by simp) .nil t (n + 1) b k a hn hk ht hend
    | space hd hr =>
      rename_i d r
      simp only [List.cons_append, List.cons.injEq] at hk
      obtain ⟨rfl, rfl⟩ := hk
      have hc : filterComments ⟨k :: b, r ++ t, q, e⟩ = some (Bool.true, ⟨k :: b, r ++ t, q, e⟩) :=
        filterComments_other k _ b q e (by rcases hd with rfl | rfl | rfl | rfl <;> decide)
          (by rcases hd with rfl | rfl | rfl | rfl <;> decide)
      have hks : isSpace k = true := by rcases hd with rfl | rfl | rfl | rfl <;> decide
      have hsp : ∀ sp sep', k :: r = sp ++ sep' → (∀ g v, sep' = g :: v → isSpace g = false) → ∃ sp', sp = k :: sp' := by
        intro sp sep' h1 h2
        cases sp with
        | nil =>
          simp only [List.nil_append] at h1
          have := h2 k r h1.symm
          rw [hks] at this; cases this
        | cons x sp => simp only [List.cons_append, List.cons.injEq] at h1; exact ⟨sp, by rw [h1.1]⟩
      have := filter_round n ⟨k :: b, r ++ t, q, e⟩ k b (r ++ t) q e (k :: r) t hc (.space hd hr) rfl ht
        (by
          intro sp sep' g v h1 h2 _
          obtain ⟨sp', rfl⟩ := hsp sp sep' h1 h2
          simp; omega)
        (by
          intro sp sep' g v h1 hS h2 h3
          obtain ⟨sp', rfl⟩ := hsp sp sep' h1 h2
          have hlen : (k :: r).length = (k :: sp').length + sep'.length := by rw [h1]; simp; omega
          simp only [List.length_cons] at hlen hN hn
          refine IH sep' (by omega) hS t n _ g v (by omega) h3.symm ht ?_
          exact EndOk.suffix (h1 ▸ hend) (by rw [h3]; simp))
      cases t with
      | nil => simpa [FilterOk] using this
      | cons c r' => simpa [FilterOk] using this
    | line hw hr =>
      rename_i w r
      simp only [List.cons_append, List.append_assoc, List.cons.injEq] at hk
      obtain ⟨rfl, rfl⟩ := hk
      have hc := filterComments_line w (r ++ t) b q e hw
      cases hrt : r ++ t with
      | nil =>
        simp only [List.append_eq_nil_iff] at hrt
        obtain ⟨rfl, rfl⟩ := hrt
        simp only [List.nil_append] at hc
        exact ⟨_, by simp only [filter, List.append_nil, List.nil_append, hc]; exact ⟨rfl, rfl, rfl⟩⟩
      | cons x y =>
        have hve : (!(r ++ t).isEmpty) = true := by rw [hrt]; rfl
        rw [hve, hrt] at hc
        have := filter_round n ⟨'%' :: b, w ++ '\n' :: (x :: y), q, e⟩ '\n' (w.reverse ++ '%' :: b) (x :: y) q e
          ('\n' :: r) t hc (.space (.inr (.inl rfl)) hr) (by rw [← hrt]; rfl) ht
          (by intro sp sep' g v _ _ _; simp; omega)
          (by
            intro sp sep' g v h1 hS h2 h3
            have hlen : ('\n' :: r).length = sp.length + sep'.length := by rw [h1]; simp
            simp only [List.length_cons, List.length_append] at hlen hN hn
            refine IH sep' (by omega) hS t n _ g v (by omega) h3.symm ht ?_
            refine EndOk.suffix (sp := '%' :: w ++ sp) ?_ (by rw [h3]; simp)
            have : ('%' :: w ++ sp) ++ sep' = '%' :: (w ++ '\n' :: r) := by rw [h1]; simp
            rw [this]; exact hend)
        simp only [FilterOk, List.cons_append, hrt]
        cases t with
        | nil => simpa [FilterOk] using this
        | cons c r' => simpa [FilterOk] using this
    | block hw hr =>
      rename_i w r
      simp only [List.cons_append, List.append_assoc, List.cons.injEq] at hk
      obtain ⟨rfl, rfl⟩ := hk
      have hne : r ++ t ≠ [] := by
        intro h
        simp only [List.append_eq_nil_iff] at h
        obtain ⟨rfl, rfl⟩ := h
        obtain ⟨u, hu⟩ := hend rfl
        have h1 : ('/' :: '*' :: (w ++ ['*', '/'])).getLast? = some '\n' := by rw [hu]; simp
        have h2 : ('/' :: '*' :: (w ++ ['*', '/'])).getLast? = some '/' := by
          have : '/' :: '*' :: (w ++ ['*', '/']) = ('/' :: '*' :: (w ++ ['*'])) ++ ['/'] := by simp
          rw [this, List.getLast?_append]; rfl
        rw [h2] at h1; revert h1; decide
      cases hrt : r ++ t with
      | nil => exact absurd hrt hne
      | cons x y =>
        have hc := filterComments_block w x y b q e hw
        have hend' : EndOk r t := by
          refine EndOk.suffix (sp := '/' :: '*' :: (w ++ ['*', '/'])) ?_ hne
          have : '/' :: '*' :: (w ++ ['*', '/']) ++ r = '/' :: '*' :: (w ++ '*' :: '/' :: r) := by simp
          rw [this]; exact hend
        simp only [hrt, FilterOk]
        cases y with
        | nil =>
          -- one character after the comment: it is the end of the last line
          cases t with
          | nil => exact ⟨_, by simp only [filter, hc]; exact ⟨rfl, rfl, rfl⟩⟩
          | cons c a' =>
            exfalso
            cases r with
            | nil =>
              simp only [List.nil_append, List.cons.injEq] at hrt
              exact (ht c a' rfl).2.2.1 hrt.2
            | cons z r => simp at hrt
        | cons y0 y =>
          simp only [List.isEmpty_cons, Bool.not_false] at hc
          have := filter_round n ⟨'/' :: b, '*' :: (w ++ '*' :: '/' :: x :: y0 :: y), q, e⟩ x
            ('/' :: '*' :: (w.reverse ++ '*' :: '/' :: b)) (y0 :: y) q e r t hc hr hrt.symm ht
            (by intro sp sep' g v _ _ _; simp; omega)
            (by
              intro sp sep' g v h1 hS h2 h3
              have hlen : r.length = sp.length + sep'.length := by rw [h1]; simp
              simp only [List.length_cons, List.length_append] at hlen hN hn
              exact IH sep' (by omega) hS t n _ g v (by omega) h3.symm ht
                (EndOk.suffix (sp := sp) (h1 ▸ hend') (by rw [h3]; simp)))
          cases t with
          | nil => simpa [FilterOk] using this
          | cons c r' => simpa [FilterOk] using this

end Verif.Parser
