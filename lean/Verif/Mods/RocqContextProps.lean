import Mathlib.Data.List.Nodup
import Verif.Mods.RocqContext
/-!
# C90: the declarations of the Rocq file
-/

namespace Verif.Rocq.Context
open Verif.AST.Full
open Verif.Parser (AlphaNum)

section lines
variable {α : Type} [DecidableEq α] {eqI : Nat} {line : Sym → α}

theorem mem_clean {x : α} {s l : List α} : x ∈ clean s l ↔ x ∈ l ∧ x ∉ s := by simp [clean]

theorem nodup_clean {s l : List α} (hs : s.Nodup) (hl : l.Nodup) : (s ++ clean s l).Nodup := by
  refine List.Nodup.append hs (hl.filter _) ?_
  intro x hx hx'
  exact (mem_clean.1 hx').2 hx

mutual
theorem mem_termLines {x : α} : ∀ t, x ∈ termLines line t ↔ ∃ s, TSym t s ∧ x = line s
  | .var i n => by
    simp only [termLines, List.not_mem_nil, false_iff]; rintro ⟨s, h, _⟩; cases h
  | .mv .. => by
    simp only [termLines, List.not_mem_nil, false_iff]; rintro ⟨s, h, _⟩; cases h
  | .fn i n tys args => by
    simp only [termLines]
    rw [mem_argLines args]
    constructor
    · rintro (h | ⟨a, ha, s, hs, hx⟩)
      · exact ⟨_, .here, by simpa using h⟩
      · exact ⟨s, .arg ha hs, hx⟩
    · rintro ⟨s, h, hx⟩
      cases h with
      | here => exact Or.inl (by simp [hx])
      | arg ha hs => exact Or.inr ⟨_, ha, s, hs, hx⟩
theorem mem_argLines {x : α} : ∀ (l : List GTerm) {acc : List α},
    x ∈ argLines line acc l ↔ x ∈ acc ∨ ∃ a ∈ l, ∃ s, TSym a s ∧ x = line s
  | [], acc => by simp [argLines]
  | a :: l, acc => by
    simp only [argLines]
    rw [mem_argLines l, List.mem_append, mem_clean, mem_termLines a]
    by_cases hx : x ∈ acc <;> simp [hx]
end

mutual
theorem nodup_termLines : ∀ t, (termLines line t).Nodup
  | .var .. => by simp [termLines]
  | .mv .. => by simp [termLines]
  | .fn _ _ _ args => by simp only [termLines]; exact nodup_argLines args (by simp)
theorem nodup_argLines : ∀ (l : List GTerm) {acc : List α}, acc.Nodup → (argLines line acc l).Nodup
  | [], acc, h => by simpa [argLines] using h
  | a :: l, acc, h => by
    simp only [argLines]
    exact nodup_argLines l (nodup_clean h (nodup_termLines a))
end

mutual
theorem mem_formLines {x : α} : ∀ f, x ∈ formLines eqI line f ↔ ∃ s, FSym eqI f s ∧ x = line s
  | .top _ => by simp only [formLines, List.not_mem_nil, false_iff]; rintro ⟨s, h, _⟩; cases h
  | .bot _ => by simp only [formLines, List.not_mem_nil, false_iff]; rintro ⟨s, h, _⟩; cases h
  | .all _ _ f => by
    simp only [formLines]; rw [mem_formLines f]
    exact ⟨fun ⟨s, h, e⟩ => ⟨s, .all h, e⟩, fun ⟨s, h, e⟩ => by cases h with | all h => exact ⟨s, h, e⟩⟩
  | .ex _ _ f => by
    simp only [formLines]; rw [mem_formLines f]
    exact ⟨fun ⟨s, h, e⟩ => ⟨s, .ex h, e⟩, fun ⟨s, h, e⟩ => by cases h with | ex h => exact ⟨s, h, e⟩⟩
  | .neg _ f => by
    simp only [formLines]; rw [mem_clean, mem_formLines f]
    exact ⟨fun ⟨⟨s, h, e⟩, _⟩ => ⟨s, .neg h, e⟩, fun ⟨s, h, e⟩ => by cases h with | neg h => exact ⟨⟨s, h, e⟩, by simp⟩⟩
  | .and _ fs => by
    simp only [formLines]; rw [mem_formLinesL fs]
    constructor
    · rintro (h | ⟨f, hf, s, hs, e⟩)
      · simp at h
      · exact ⟨s, .and hf hs, e⟩
    · rintro ⟨s, h, e⟩; cases h with | and hf h => exact Or.inr ⟨_, hf, s, h, e⟩
  | .or _ fs => by
    simp only [formLines]; rw [mem_formLinesL fs]
    constructor
    · rintro (h | ⟨f, hf, s, hs, e⟩)
      · simp at h
      · exact ⟨s, .or hf hs, e⟩
    · rintro ⟨s, h, e⟩; cases h with | or hf h => exact Or.inr ⟨_, hf, s, h, e⟩
  | .imp _ f g => by
    simp only [formLines]
    rw [List.mem_append, mem_clean, mem_clean, mem_clean, mem_formLines f, mem_formLines g]
    constructor
    · rintro (⟨⟨s, h, e⟩, _⟩ | ⟨⟨s, h, e⟩, _⟩)
      · exact ⟨s, .impl h, e⟩
      · exact ⟨s, .impr h, e⟩
    · rintro ⟨s, h, e⟩
      by_cases hx : ∃ s, FSym eqI f s ∧ x = line s
      · exact Or.inl ⟨hx, by simp⟩
      · cases h with
        | impl h => exact absurd ⟨s, h, e⟩ hx
        | impr h => exact Or.inr ⟨⟨s, h, e⟩, fun k => hx k.1⟩
  | .equ _ f g => by
    simp only [formLines]
    rw [List.mem_append, mem_clean, mem_clean, mem_clean, mem_formLines f, mem_formLines g]
    constructor
    · rintro (⟨⟨s, h, e⟩, _⟩ | ⟨⟨s, h, e⟩, _⟩)
      · exact ⟨s, .equl h, e⟩
      · exact ⟨s, .equr h, e⟩
    · rintro ⟨s, h, e⟩
      by_cases hx : ∃ s, FSym eqI f s ∧ x = line s
      · exact Or.inl ⟨hx, by simp⟩
      · cases h with
        | equl h => exact absurd ⟨s, h, e⟩ hx
        | equr h => exact Or.inr ⟨⟨s, h, e⟩, fun k => hx k.1⟩
  | .pred _ i n tys args => by
    simp only [formLines]; rw [mem_argLines args]
    constructor
    · rintro (h | ⟨a, ha, s, hs, e⟩)
      · by_cases hi : i = eqI
        · simp [hi] at h
        · simp only [hi, ↓reduceIte, List.mem_singleton] at h; exact ⟨_, .here hi, h⟩
      · exact ⟨s, .arg ha hs, e⟩
    · rintro ⟨s, h, e⟩
      cases h with
      | here hi => exact Or.inl (by simp [hi, e])
      | arg ha hs => exact Or.inr ⟨_, ha, s, hs, e⟩
theorem mem_formLinesL {x : α} : ∀ (l : List GForm) {acc : List α},
    x ∈ formLinesL eqI line acc l ↔ x ∈ acc ∨ ∃ f ∈ l, ∃ s, FSym eqI f s ∧ x = line s
  | [], acc => by simp [formLinesL]
  | f :: l, acc => by
    simp only [formLinesL]
    rw [mem_formLinesL l, List.mem_append, mem_clean, mem_formLines f]
    by_cases hx : x ∈ acc <;> simp [hx]
end

mutual
theorem nodup_formLines : ∀ f, (formLines eqI line f).Nodup
  | .top _ => by simp [formLines]
  | .bot _ => by simp [formLines]
  | .all _ _ f => by simp only [formLines]; exact nodup_formLines f
  | .ex _ _ f => by simp only [formLines]; exact nodup_formLines f
  | .neg _ f => by simp only [formLines]; exact (nodup_formLines f).filter _
  | .and _ fs => by simp only [formLines]; exact nodup_formLinesL fs (by simp)
  | .or _ fs => by simp only [formLines]; exact nodup_formLinesL fs (by simp)
  | .imp _ f g => by
    simp only [formLines]; exact nodup_clean ((nodup_formLines f).filter _) (nodup_formLines g)
  | .equ _ f g => by
    simp only [formLines]; exact nodup_clean ((nodup_formLines f).filter _) (nodup_formLines g)
  | .pred _ i _ _ args => by simp only [formLines]; exact nodup_argLines args (by split <;> simp)
theorem nodup_formLinesL : ∀ (l : List GForm) {acc : List α}, acc.Nodup → (formLinesL eqI line acc l).Nodup
  | [], acc, h => by simpa [formLinesL] using h
  | f :: l, acc, h => by
    simp only [formLinesL]
    exact nodup_formLinesL l (nodup_clean h (nodup_formLines f))
end

variable {β : Type} [DecidableEq β] {line' : Sym → β} {g : α → β} {P : α → Prop}

theorem clean_map (hg : ∀ x y, P x → P y → g x = g y → x = y) {s l : List α} (hs : ∀ x ∈ s, P x) (hl : ∀ x ∈ l, P x) :
    clean (s.map g) (l.map g) = (clean s l).map g := by
  simp only [clean, List.filter_map]
  congr 1
  apply List.filter_congr
  intro x hx
  simp only [Function.comp, List.mem_map]
  congr 1
  simp only [decide_eq_decide]
  constructor
  · rintro ⟨y, hy, e⟩; rw [hg x y (hl x hx) (hs y hy) e.symm]; exact hy
  · exact fun h => ⟨x, h, rfl⟩

theorem map_step (hg : ∀ x y, P x → P y → g x = g y → x = y) {s l : List α} (hs : ∀ x ∈ s, P x) (hl : ∀ x ∈ l, P x) :
    s.map g ++ clean (s.map g) (l.map g) = (s ++ clean s l).map g ∧ ∀ x ∈ s ++ clean s l, P x := by
  refine ⟨by rw [clean_map hg hs hl, List.map_append], ?_⟩
  intro x hx
  rcases List.mem_append.1 hx with h | h
  · exact hs x h
  · exact hl x (mem_clean.1 h).1

/-- The lines of a term are those of another way of writing them, translated. -/
def LinesT (line : Sym → α) (line' : Sym → β) (g : α → β) (P : α → Prop) (t : GTerm) : Prop :=
  termLines line' t = (termLines line t).map g ∧ ∀ x ∈ termLines line t, P x

mutual
theorem termLines_map (hg : ∀ x y, P x → P y → g x = g y → x = y) :
    ∀ t, (∀ s, TSym t s → P (line s) ∧ line' s = g (line s)) → LinesT line line' g P t
  | .var .., _ => by simp [LinesT, termLines]
  | .mv .., _ => by simp [LinesT, termLines]
  | .fn i n tys args, h => by
    obtain ⟨hP, e⟩ := h _ .here
    simp only [LinesT, termLines]
    have := argLines_map hg args (acc := [line ⟨false, n, args.length⟩]) (by simpa using hP)
      (fun a ha s hs => h s (.arg ha hs))
    simpa [e] using this
theorem argLines_map (hg : ∀ x y, P x → P y → g x = g y → x = y) :
    ∀ (l : List GTerm) {acc : List α}, (∀ x ∈ acc, P x) →
      (∀ a ∈ l, ∀ s, TSym a s → P (line s) ∧ line' s = g (line s)) →
      argLines line' (acc.map g) l = (argLines line acc l).map g ∧ ∀ x ∈ argLines line acc l, P x
  | [], acc, hacc, _ => by simpa [argLines] using hacc
  | a :: l, acc, hacc, h => by
    obtain ⟨e, hp⟩ := termLines_map hg a (h a (by simp))
    obtain ⟨e2, hp2⟩ := map_step hg hacc hp
    simp only [argLines, e, e2]
    exact argLines_map hg l hp2 (fun a ha => h a (List.mem_cons_of_mem _ ha))
end

mutual
theorem formLines_map (hg : ∀ x y, P x → P y → g x = g y → x = y) :
    ∀ f, (∀ s, FSym eqI f s → P (line s) ∧ line' s = g (line s)) →
      formLines eqI line' f = (formLines eqI line f).map g ∧ ∀ x ∈ formLines eqI line f, P x
  | .top _, _ => by simp [formLines]
  | .bot _, _ => by simp [formLines]
  | .all _ _ f, h => by
    simp only [formLines]; exact formLines_map hg f (fun s hs => h s (.all hs))
  | .ex _ _ f, h => by
    simp only [formLines]; exact formLines_map hg f (fun s hs => h s (.ex hs))
  | .neg _ f, h => by
    obtain ⟨e, hp⟩ := formLines_map hg f (fun s hs => h s (.neg hs))
    have := map_step hg (s := []) (by simp) hp
    simpa [formLines, e] using this
  | .and _ fs, h => by
    simp only [formLines]
    simpa using formLinesL_map hg fs (acc := []) (by simp) (fun f hf s hs => h s (.and hf hs))
  | .or _ fs, h => by
    simp only [formLines]
    simpa using formLinesL_map hg fs (acc := []) (by simp) (fun f hf s hs => h s (.or hf hs))
  | .imp _ f k, h => by
    obtain ⟨e, hp⟩ := formLines_map hg f (fun s hs => h s (.impl hs))
    obtain ⟨e', hp'⟩ := formLines_map hg k (fun s hs => h s (.impr hs))
    obtain ⟨e2, hp2⟩ := map_step hg (s := []) (by simp) hp
    obtain ⟨e3, hp3⟩ := map_step hg hp2 hp'
    simp only [List.nil_append, List.map_nil] at e2 e3 hp3 hp2
    simp only [formLines, e, e', e2, e3]
    exact ⟨trivial, hp3⟩
  | .equ _ f k, h => by
    obtain ⟨e, hp⟩ := formLines_map hg f (fun s hs => h s (.equl hs))
    obtain ⟨e', hp'⟩ := formLines_map hg k (fun s hs => h s (.equr hs))
    obtain ⟨e2, hp2⟩ := map_step hg (s := []) (by simp) hp
    obtain ⟨e3, hp3⟩ := map_step hg hp2 hp'
    simp only [List.nil_append, List.map_nil] at e2 e3 hp3 hp2
    simp only [formLines, e, e', e2, e3]
    exact ⟨trivial, hp3⟩
  | .pred x i n tys args, h => by
    simp only [formLines]
    by_cases hi : i = eqI
    · simpa [hi] using argLines_map hg args (acc := []) (by simp) (fun a ha s hs => h s (.arg ha hs))
    · obtain ⟨hP, e⟩ := h _ (.here hi)
      simpa [hi, e] using argLines_map hg args (acc := [line ⟨true, n, args.length⟩]) (by simpa using hP)
        (fun a ha s hs => h s (.arg ha hs))
theorem formLinesL_map (hg : ∀ x y, P x → P y → g x = g y → x = y) :
    ∀ (l : List GForm) {acc : List α}, (∀ x ∈ acc, P x) →
      (∀ f ∈ l, ∀ s, FSym eqI f s → P (line s) ∧ line' s = g (line s)) →
      formLinesL eqI line' (acc.map g) l = (formLinesL eqI line acc l).map g ∧ ∀ x ∈ formLinesL eqI line acc l, P x
  | [], acc, hacc, _ => by simpa [formLinesL] using hacc
  | a :: l, acc, hacc, h => by
    obtain ⟨e, hp⟩ := formLines_map hg a (h a (by simp))
    obtain ⟨e2, hp2⟩ := map_step hg hacc hp
    simp only [formLinesL, e, e2]
    exact formLinesL_map hg l hp2 (fun a ha => h a (List.mem_cons_of_mem _ ha))
end

end lines

/-! ### The text of a line -/

theorem join_replicate_length (n : Nat) : (join ['*'] (List.replicate (n + 1) uU)).length = 10 * n + 9 := by
  simp only [List.replicate_succ, join, List.length_append]
  induction n with
  | zero => rfl
  | succ n ih => simp only [List.replicate_succ, List.flatMap_cons, List.length_append] at *; simp [uU] at *; omega

theorem RTy.text_length (t : RTy) :
    t.text.length = (if t.args = 0 then 0 else 10 * t.args + 3) + (if t.prop then 4 else 9) := by
  obtain ⟨p, n⟩ := t
  cases n with
  | zero => cases p <;> rfl
  | succ n =>
    simp only [RTy.text, List.length_append, Nat.add_eq_zero_iff, Nat.succ_ne_self, and_false, ↓reduceIte,
      join_replicate_length]
    cases p <;> simp [uU] <;> omega

theorem RTy.text_inj {t u : RTy} (h : t.text = u.text) : t = u := by
  have := congrArg List.length h
  rw [RTy.text_length, RTy.text_length] at this
  obtain ⟨p, n⟩ := t; obtain ⟨q, m⟩ := u
  simp only at this
  cases p <;> cases q <;> simp only [Bool.false_eq_true, ↓reduceIte] at this <;> split at this <;> split at this <;>
    simp <;> omega

/-- No blanks. -/
def NoSp (n : List Char) : Prop := ∀ c ∈ n, c ≠ ' '

theorem sep_inj {a b r s : List Char} (ha : NoSp a) (hb : NoSp b) (h : a ++ ' ' :: r = b ++ ' ' :: s) :
    a = b ∧ r = s := by
  induction a generalizing b with
  | nil =>
    cases b with
    | nil => simpa using h
    | cons c b => simp at h; exact absurd h.1.symm (hb c (by simp))
  | cons c a ih =>
    cases b with
    | nil => simp at h; exact absurd h.1 (ha c (by simp))
    | cons d b =>
      simp only [List.cons_append, List.cons.injEq] at h
      obtain ⟨rfl, h⟩ := h
      obtain ⟨e, h⟩ := ih (fun x hx => ha x (List.mem_cons_of_mem _ hx)) (fun x hx => hb x (List.mem_cons_of_mem _ hx)) h
      exact ⟨by rw [e], h⟩

theorem text_inj {a b r s : List Char} (ha : NoSp a) (hb : NoSp b) (h : text a r = text b s) : a = b ∧ r = s := by
  unfold text at h
  obtain ⟨e, h⟩ := sep_inj ha hb (List.append_cancel_left h)
  simp only [List.cons.injEq, true_and] at h
  exact ⟨e, List.append_cancel_right h⟩

theorem topSpace_none {s : List Char} (h : NoSp s) : ∀ d, topSpace d s = false := by
  induction s with
  | nil => intro d; rfl
  | cons c r ih =>
    intro d
    simp only [topSpace, Bool.or_eq_false_iff]
    exact ⟨by simp [h c (by simp)], ih (fun x hx => h x (List.mem_cons_of_mem _ hx)) _⟩

theorem gchild_noSp {s : List Char} (h : NoSp s) (hat : ∀ c ∈ s, c ≠ '@') : gchild s = s := by
  have e : (('(' :: (s ++ [')'])).map fun c => if c = '@' then '_' else c) = '(' :: (s ++ [')']) := by
    conv_rhs => rw [← List.map_id ('(' :: (s ++ [')']))]
    apply List.map_congr_left
    intro c hc
    have : c ≠ '@' := by
      simp only [List.mem_cons, List.mem_append, List.not_mem_nil, or_false] at hc
      rcases hc with rfl | hc | rfl
      · decide
      · exact hat c hc
      · decide
    simp [this]
  unfold gchild generic
  rw [e]
  simp only [strip, List.getLast?_append, List.getLast?_singleton, Option.some_or, ↓reduceIte, List.dropLast_concat,
    topSpace_none h, Bool.false_eq_true]

theorem word_noSp {n : List Char} (h : ∀ c ∈ n, AlphaNum c) : NoSp n := by
  rintro c hc rfl
  have := h _ hc
  revert this; unfold AlphaNum; decide

theorem generic_word {n : List Char} (h : ∀ c ∈ n, AlphaNum c) : generic n = n := by
  have e : (n.map fun c => if c = '@' then '_' else c) = n := by
    conv_rhs => rw [← List.map_id n]
    apply List.map_congr_left
    intro c hc
    have : c ≠ '@' := by rintro rfl; have := h _ hc; revert this; unfold AlphaNum; decide
    simp [this]
  unfold generic
  rw [e]
  exact Verif.Parser.strip_plain h

theorem sanitize_i {ord} (h : ord ∈ orders) : generic (sanitize ord "$i".toList) = uU := by
  simp only [orders, List.mem_cons, List.not_mem_nil, or_false] at h
  rcases h with rfl | rfl | rfl | rfl | rfl | rfl <;> decide +kernel

theorem sanitize_o {ord} (h : ord ∈ orders) : generic (sanitize ord "$o".toList) = ['P', 'r', 'o', 'p'] := by
  simp only [orders, List.mem_cons, List.not_mem_nil, or_false] at h
  rcases h with rfl | rfl | rfl | rfl | rfl | rfl <;> decide +kernel

theorem replGo_id {o : List Char} {new s : List Char} (h : '$' ∉ s) : replGo ('$' :: o) new 0 s = s := by
  induction s with
  | nil => rfl
  | cons c r ih =>
    have hc : c ≠ '$' := fun e => h (e ▸ List.mem_cons_self ..)
    have : ('$' :: o).isPrefixOf (c :: r) = false := by
      simp only [List.isPrefixOf, Bool.and_eq_false_iff, beq_eq_false_iff_ne]
      exact .inl (Ne.symm hc)
    simp only [replGo, this, Bool.false_eq_true, if_false, ih fun h' => h (List.mem_cons_of_mem _ h')]

/-- **C90, names of types without `$`** are printed as they are. -/
theorem C90_type_kept {ord} (h : ord ∈ orders) {s : List Char} (hs : '$' ∉ s) : sanitize ord s = s := by
  simp only [orders, List.mem_cons, List.not_mem_nil, or_false] at h
  rcases h with rfl | rfl | rfl | rfl | rfl | rfl <;>
    simp only [sanitize, List.foldl, tI, tO, tT, replaceAll, replGo_id hs]

/-- **C90, types of TPTP whose names begin with `$i`**, such as `$int`: they become `goeland_U` followed by the rest, which is declared
nowhere. -/
theorem C90_type_prefix {ord} (h : ord ∈ orders) {s : List Char} (hs : '$' ∉ s) : sanitize ord ('$' :: 'i' :: s) = uU ++ s := by
  have h1 : ∀ n, replGo ['$', 'i'] n 0 ('$' :: 'i' :: s) = n ++ s := by
    intro n
    simp only [replGo, List.isPrefixOf, List.length_cons, List.length_nil, beq_self_eq_true, Bool.and_self, if_true]
    rw [replGo_id hs]
  have hi : '$' ∉ 'i' :: s := by simp [hs]
  have h2 : ∀ n, replGo ['$', 'o'] n 0 ('$' :: 'i' :: s) = '$' :: 'i' :: s := by
    intro n
    rw [replGo]
    simp [List.isPrefixOf, replGo_id hi]
  have h3 : ∀ n, replGo ['$', 't', 'T', 'y', 'p', 'e'] n 0 ('$' :: 'i' :: s) = '$' :: 'i' :: s := by
    intro n
    rw [replGo]
    simp [List.isPrefixOf, replGo_id hi]
  have hu : '$' ∉ uU ++ s := by
    have : '$' ∉ uU := by decide
    simp [this, hs]
  simp only [orders, List.mem_cons, List.not_mem_nil, or_false] at h
  rcases h with rfl | rfl | rfl | rfl | rfl | rfl <;>
    simp only [sanitize, List.foldl, tI, tO, tT, replaceAll, h1, h2, h3] <;>
    (have hu' := hu; simp only [uU] at hu' ⊢; try simp only [replGo_id hu'])

theorem tyStrL_replicate {ord} (h : ord ∈ orders) (n : Nat) :
    tyStrL ord (List.replicate n (.constr "$i" [])) = List.replicate n uU := by
  induction n with
  | zero => rfl
  | succ n ih =>
    simp only [List.replicate_succ, tyStrL, ih, tyStr, sanitize_i h, join, surroundArgs, List.isEmpty_nil, ↓reduceIte,
      List.append_nil]

theorem uU_ok : NoSp uU ∧ ∀ c ∈ uU, c ≠ '@' := by unfold NoSp; decide

theorem mem_join {sep : List Char} {c : Char} {l : List (List Char)} (h : c ∈ join sep l) : c ∈ sep ∨ ∃ a ∈ l, c ∈ a := by
  cases l with
  | nil => simp [join] at h
  | cons a l =>
    simp only [join, List.mem_append, List.mem_flatMap] at h
    rcases h with h | ⟨b, hb, h | h⟩
    · exact Or.inr ⟨a, by simp, h⟩
    · exact Or.inl h
    · exact Or.inr ⟨b, List.mem_cons_of_mem _ hb, h⟩

theorem tyStr_default {ord} (h : ord ∈ orders) (p : Bool) (n : Nat) :
    tyStr ord (defaultTy p n) = RTy.text ⟨p, n⟩ := by
  have hout : tyStr ord (.constr (if p then "$o" else "$i") []) = if p then ['P', 'r', 'o', 'p'] else uU := by
    cases p
    · simp only [tyStr, tyStrL, Bool.false_eq_true, sanitize_i h, join, surroundArgs, List.isEmpty_nil, ↓reduceIte, List.append_nil]
    · simp only [tyStr, tyStrL, sanitize_o h, join, surroundArgs, List.isEmpty_nil, ↓reduceIte, List.append_nil]
  unfold defaultTy
  by_cases hn : n = 0
  · simp only [hn, ↓reduceIte, hout, RTy.text, List.nil_append]
  · simp only [hn, ↓reduceIte, tyStr, tyStrL_replicate h, RTy.text]
    have hmap : (List.replicate n uU).map gchild = List.replicate n uU := by
      rw [List.map_replicate, gchild_noSp uU_ok.1 uU_ok.2]
    have hin : NoSp (join ['*'] (List.replicate n uU)) ∧ ∀ c ∈ join ['*'] (List.replicate n uU), c ≠ '@' := by
      constructor <;> intro c hc <;> rcases mem_join hc with hc | ⟨a, ha, hc⟩
      · simp at hc; subst hc; decide
      · rw [(List.mem_replicate.1 ha).2] at hc; exact uU_ok.1 c hc
      · simp at hc; subst hc; decide
      · rw [(List.mem_replicate.1 ha).2] at hc; exact uU_ok.2 c hc
    rw [hmap, gchild_noSp hin.1 hin.2]
    have hout' : gchild (if p then ['P', 'r', 'o', 'p'] else uU) = if p then ['P', 'r', 'o', 'p'] else uU := by
      cases p <;> simp only [Bool.false_eq_true, ↓reduceIte] <;> apply gchild_noSp <;> (try unfold NoSp) <;> decide
    have hout2 : generic (sanitize ord (if p then "$o" else "$i").toList) = if p then ['P', 'r', 'o', 'p'] else uU := by
      cases p
      · exact sanitize_i h
      · exact sanitize_o h
    simp only [tyStrL, join, surroundArgs, List.isEmpty_nil, ↓reduceIte, List.append_nil, hout2, hout']
    simp

/-! ### Well-typed formulas and the uses of symbols -/

mutual
theorem wtt_of {S : Sig} : ∀ t : GTerm, (∀ s, TSym t s → (s.name.toList, (⟨s.pred, s.arity⟩ : RTy)) ∈ S) → WTt S t
  | .var .., _ => .var
  | .mv .., _ => .mv
  | .fn _ _ _ args, h => .fn (h _ .here) (wttL_of args (fun a ha s hs => h s (.arg ha hs)))
theorem wttL_of {S : Sig} : ∀ l : List GTerm,
    (∀ a ∈ l, ∀ s, TSym a s → (s.name.toList, (⟨s.pred, s.arity⟩ : RTy)) ∈ S) → ∀ a ∈ l, WTt S a
  | [], _ => by simp
  | a :: l, h => by
    intro b hb
    rcases List.mem_cons.1 hb with e | hb
    · rw [e]; exact wtt_of a (h a (by simp))
    · exact wttL_of l (fun a ha => h a (List.mem_cons_of_mem _ ha)) b hb
end

theorem wtt_sym {S : Sig} {t : GTerm} {s : Sym} (h : TSym t s) (w : WTt S t) :
    (s.name.toList, (⟨s.pred, s.arity⟩ : RTy)) ∈ S := by
  induction h with
  | here => cases w with | fn h _ => exact h
  | arg ha _ ih => cases w with | fn _ h => exact ih (h _ ha)

mutual
theorem wt_of {eqI : Nat} {S : Sig} :
    ∀ f : GForm, (∀ s, FSym eqI f s → (s.name.toList, (⟨s.pred, s.arity⟩ : RTy)) ∈ S) → WT eqI S f
  | .top _, _ => .top
  | .bot _, _ => .bot
  | .neg _ f, h => .neg (wt_of f fun s hs => h s (.neg hs))
  | .all _ _ f, h => .all (wt_of f fun s hs => h s (.all hs))
  | .ex _ _ f, h => .ex (wt_of f fun s hs => h s (.ex hs))
  | .imp _ f g, h => .imp (wt_of f fun s hs => h s (.impl hs)) (wt_of g fun s hs => h s (.impr hs))
  | .equ _ f g, h => .equ (wt_of f fun s hs => h s (.equl hs)) (wt_of g fun s hs => h s (.equr hs))
  | .and _ fs, h => .and (wtL_of fs fun f hf s hs => h s (.and hf hs))
  | .or _ fs, h => .or (wtL_of fs fun f hf s hs => h s (.or hf hs))
  | .pred _ _ _ _ args, h => .pred (fun hi => h _ (.here hi)) (wttL_of args fun a ha s hs => h s (.arg ha hs))
theorem wtL_of {eqI : Nat} {S : Sig} : ∀ l : List GForm,
    (∀ f ∈ l, ∀ s, FSym eqI f s → (s.name.toList, (⟨s.pred, s.arity⟩ : RTy)) ∈ S) → ∀ f ∈ l, WT eqI S f
  | [], _ => by simp
  | a :: l, h => by
    intro b hb
    rcases List.mem_cons.1 hb with e | hb
    · rw [e]; exact wt_of a (h a (by simp))
    · exact wtL_of l (fun a ha => h a (List.mem_cons_of_mem _ ha)) b hb
end

theorem wt_sym {eqI : Nat} {S : Sig} {f : GForm} {s : Sym} (h : FSym eqI f s) (w : WT eqI S f) :
    (s.name.toList, (⟨s.pred, s.arity⟩ : RTy)) ∈ S := by
  induction h with
  | here hi => cases w with | pred h _ => exact h hi
  | arg ha hs => cases w with | pred _ h => exact wtt_sym hs (h _ ha)
  | neg _ ih => cases w with | neg w => exact ih w
  | and hf _ ih => cases w with | and w => exact ih (w _ hf)
  | or hf _ ih => cases w with | or w => exact ih (w _ hf)
  | impl _ ih => cases w with | imp w _ => exact ih w
  | impr _ ih => cases w with | imp _ w => exact ih w
  | equl _ ih => cases w with | equ w _ => exact ih w
  | equr _ ih => cases w with | equ _ w => exact ih w
  | all _ ih => cases w with | all w => exact ih w
  | ex _ ih => cases w with | ex w => exact ih w

theorem nodup_unique {α β : Type} {l : List (α × β)} (h : (l.map (·.1)).Nodup) {a : α} {b c : β} (hb : (a, b) ∈ l)
    (hc : (a, c) ∈ l) : b = c := by
  induction l with
  | nil => simp at hb
  | cons d l ih =>
    simp only [List.map_cons, List.nodup_cons, List.mem_map, not_exists, not_and] at h
    rcases List.mem_cons.1 hb with e | hb <;> rcases List.mem_cons.1 hc with e' | hc
    · rw [← e] at e'; injection e' with _ e'; exact e'.symm
    · exact absurd (by rw [← e]) (h.1 _ hc)
    · exact absurd (by rw [← e']) (h.1 _ hb)
    · exact ih h.2 hb hc

/-! ### The theorems -/

/-- The symbols of the formula are lower-case words without a declared type: an untyped problem. -/
def Untyped (eqI : Nat) (env : String → Option GTy) (f : GForm) : Prop :=
  ∀ s, FSym eqI f s → Word s.name.toList ∧ env s.name = none

/-- **C90, full statement**: for an untyped problem, the lines printed before the Rocq theorem are declarations
that Rocq takes, in which the statement is well typed, one for each symbol of the statement. -/
def C90_statement : Prop :=
  ∀ (eqI : Nat) (ord : List (List Char × List Char)) (env : String → Option GTy) (f : GForm), ord ∈ orders →
    Untyped eqI env f → Good eqI (declared eqI ord env f) f

/-- Each name is used in one way. -/
def OneUse (eqI : Nat) (f : GForm) : Prop :=
  ∀ s s', FSym eqI f s → FSym eqI f s' → s.name = s'.name → s = s'

/-- Each name can be declared in Rocq. -/
def FreeNames (eqI : Nat) (f : GForm) : Prop := ∀ s, FSym eqI f s → Free s.name.toList

theorem paramLine_untyped {ord} (h : ord ∈ orders) {env : String → Option GTy} {s : Sym} (hw : Word s.name.toList)
    (he : env s.name = none) :
    paramLine ord env s = text s.name.toList (RTy.text ⟨s.pred, s.arity⟩) := by
  unfold paramLine
  rw [he, generic_word hw.2]
  simp only [tyStr_default h]

/-- **C90 (partial)**: for an untyped problem the declarations are right if and only if each name has one use
(one kind and one number of arguments) and is none of Rocq's words and of the prelude's names. -/
theorem C90_iff_partial {eqI : Nat} {ord} (ho : ord ∈ orders) {env : String → Option GTy} {f : GForm}
    (hu : Untyped eqI env f) :
    Good eqI (declared eqI ord env f) f ↔ OneUse eqI f ∧ FreeNames eqI f := by
  constructor
  · rintro ⟨S, hS, hfree, _, hwt, _⟩
    refine ⟨?_, fun s hs => hfree _ (wt_sym hs hwt)⟩
    intro s s' hs hs' e
    have h1 := wt_sym hs hwt
    have h2 := wt_sym hs' hwt
    rw [← e] at h2
    have := nodup_unique hS h1 h2
    obtain ⟨p, n, k⟩ := s
    obtain ⟨p', n', k'⟩ := s'
    simp only [RTy.mk.injEq] at this e
    rw [this.1, this.2, e]
  · rintro ⟨hone, hfree⟩
    let line : Sym → List Char × RTy := fun s => (s.name.toList, ⟨s.pred, s.arity⟩)
    let g : List Char × RTy → List Char := fun d => text d.1 d.2.text
    have hmap := formLines_map (eqI := eqI) (line := line) (line' := paramLine ord env) (g := g) (P := fun d => NoSp d.1)
      (fun x y hx hy e => by
        obtain ⟨e1, e2⟩ := text_inj hx hy e
        exact Prod.ext e1 (RTy.text_inj e2)) f
      (fun s hs => ⟨word_noSp (hu s hs).1.2, paramLine_untyped ho (hu s hs).1 (hu s hs).2⟩)
    refine ⟨formLines eqI line f, ?_, ?_, hmap.1, ?_, ?_⟩
    · refine List.Nodup.map_on ?_ (nodup_formLines f)
      intro x hx y hy e
      obtain ⟨s, hs, rfl⟩ := (mem_formLines f).1 hx
      obtain ⟨s', hs', rfl⟩ := (mem_formLines f).1 hy
      rw [hone s s' hs hs' (String.toList_inj.1 e)]
    · intro d hd
      obtain ⟨s, hs, rfl⟩ := (mem_formLines f).1 hd
      exact hfree s hs
    · exact wt_of f fun s hs => (mem_formLines f).2 ⟨s, hs, rfl⟩
    · intro d hd
      obtain ⟨s, hs, rfl⟩ := (mem_formLines f).1 hd
      exact ⟨s, hs, rfl⟩

/-- No line is printed twice, and each line belongs to a symbol of the statement, whatever types are declared. -/
theorem C90_lines (eqI : Nat) (ord) (env : String → Option GTy) (f : GForm) :
    (declared eqI ord env f).Nodup ∧
    ∀ l, l ∈ declared eqI ord env f ↔ ∃ s, FSym eqI f s ∧ l = text (generic s.name.toList)
      (tyStr ord (match env s.name with | some t => t | none => defaultTy s.pred s.arity)) :=
  ⟨nodup_formLines f, fun _ => mem_formLines f⟩

/-- A type that the problem declares is not declared in the Rocq file: no line is about a name that is not a
predicate or function of the statement. -/
theorem C90_violated_types (eqI : Nat) (ord) (env : String → Option GTy) (f : GForm)
    (hw : ∀ s, FSym eqI f s → Word s.name.toList) (n : List Char) (hn : NoSp n)
    (hno : ∀ s, FSym eqI f s → s.name.toList ≠ n) (ty : List Char) : text n ty ∉ declared eqI ord env f := by
  intro h
  obtain ⟨s, hs, e⟩ := (mem_formLines f).1 h
  have hg : generic s.name.toList = s.name.toList := generic_word (hw s hs).2
  unfold paramLine at e
  rw [hg] at e
  exact hno s hs (text_inj hn (word_noSp (hw s hs).2) e).1.symm

/-! ### Concrete cases -/

def ca : GTerm := .fn 7 "a" [] []

/-- `p(a, f(a)) => q`. -/
def exF : GForm := .imp 0 (.pred 1 5 "p" [] [ca, .fn 8 "f" [] [ca]]) (.pred 2 6 "q" [] [])

example : (declared 1 [tI, tO, tT] (fun _ => none) exF).map String.ofList =
    ["Parameter p : goeland_U*goeland_U -> Prop.", "Parameter a : goeland_U.",
     "Parameter f : goeland_U -> goeland_U.", "Parameter q : Prop."] := by decide +kernel

theorem sym_iff {eqI : Nat} {f : GForm} {s : Sym} : FSym eqI f s ↔ s ∈ formLines eqI id f := by
  rw [mem_formLines]
  exact ⟨fun h => ⟨s, h, rfl⟩, fun ⟨_, h, e⟩ => e ▸ h⟩

theorem free_char {n : String} {c : Char} (e : n.toList = [c]) (h : 97 ≤ c.toNat ∧ c.toNat ≤ 122) : Free n.toList := by
  rw [e]
  refine ⟨⟨⟨c, [], rfl, h⟩, by intro d hd; rw [List.mem_singleton.1 hd]; exact Or.inl h⟩, ?_, ?_⟩
  · intro k hk e
    have hlen : ∀ k ∈ keywords, 1 < k.toList.length := by decide +kernel
    have := hlen k hk
    rw [← e] at this
    simp at this
  · intro h
    have := h.length_le
    simp at this

/-- The declarations above are those that Rocq needs. -/
example : ∀ ord ∈ orders, Good 1 (declared 1 ord (fun _ => none) exF) exF := by
  intro ord ho
  have hs : ∀ s, FSym 1 exF s ↔ s ∈ [⟨true, "p", 2⟩, ⟨false, "a", 0⟩, ⟨false, "f", 1⟩, ⟨true, "q", 0⟩] := by
    intro s
    rw [sym_iff]
    have : formLines 1 id exF = [⟨true, "p", 2⟩, ⟨false, "a", 0⟩, ⟨false, "f", 1⟩, ⟨true, "q", 0⟩] := by decide +kernel
    rw [this]
  have hf : FreeNames 1 exF := by
    intro s h
    rw [hs] at h
    simp only [List.mem_cons, List.not_mem_nil, or_false] at h
    rcases h with rfl | rfl | rfl | rfl
    · exact free_char (c := 'p') (by decide +kernel) (by decide)
    · exact free_char (c := 'a') (by decide +kernel) (by decide)
    · exact free_char (c := 'f') (by decide +kernel) (by decide)
    · exact free_char (c := 'q') (by decide +kernel) (by decide)
  refine (C90_iff_partial ho fun s h => ⟨(hf s h).1, rfl⟩).2 ⟨?_, hf⟩
  intro s s' h h'
  rw [hs] at h h'
  have key : ∀ s ∈ [(⟨true, "p", 2⟩ : Sym), ⟨false, "a", 0⟩, ⟨false, "f", 1⟩, ⟨true, "q", 0⟩],
      ∀ s' ∈ [(⟨true, "p", 2⟩ : Sym), ⟨false, "a", 0⟩, ⟨false, "f", 1⟩, ⟨true, "q", 0⟩], s.name = s'.name → s = s' := by
    decide
  exact key s h s' h'

/-- A problem with a declared type: `a : tau`, `p : tau > $o`; the statement is `p(a)`. -/
def exEnv : String → Option GTy := fun n =>
  if n = "a" then some (.constr "tau" []) else if n = "p" then some (.func (.constr "tau" []) (.constr "$o" [])) else none

/-- `tau` is used, and declared nowhere. -/
example : (declared 1 [tI, tO, tT] exEnv (.pred 0 5 "p" [] [ca])).map String.ofList =
    ["Parameter p : tau -> Prop.", "Parameter a : tau."] := by decide +kernel

/-- The type `$int` of TPTP becomes `goeland_Unt`. -/
example : ∀ ord ∈ orders, String.ofList (tyStr ord (.constr "$int" [])) = "goeland_Unt" := by decide +kernel

/-- `p(a) & p(a, a)`. -/
def twoF : GForm := .and 0 [.pred 1 5 "p" [] [ca], .pred 2 5 "p" [] [ca, ca]]

example : (declared 1 [tI, tO, tT] (fun _ => none) twoF).map String.ofList =
    ["Parameter p : goeland_U -> Prop.", "Parameter a : goeland_U.", "Parameter p : goeland_U*goeland_U -> Prop."] := by
  decide +kernel

theorem word_a : Word "a".toList := by
  refine ⟨⟨'a', [], by decide +kernel, by decide, by decide⟩, ?_⟩
  have : "a".toList = ['a'] := by decide +kernel
  rw [this]; unfold AlphaNum; decide

theorem word_p : Word "p".toList := by
  refine ⟨⟨'p', [], by decide +kernel, by decide, by decide⟩, ?_⟩
  have : "p".toList = ['p'] := by decide +kernel
  rw [this]; unfold AlphaNum; decide

theorem word_in : Word "in".toList := by
  have : "in".toList = ['i', 'n'] := by decide +kernel
  rw [this]
  refine ⟨⟨'i', ['n'], rfl, by decide, by decide⟩, ?_⟩
  unfold AlphaNum; decide

theorem sym_ca {s : Sym} (h : TSym ca s) : s = ⟨false, "a", 0⟩ := by
  cases h with
  | here => rfl
  | arg ha _ => simp at ha

theorem sym_two {s : Sym} (h : FSym 1 twoF s) : s.name = "p" ∨ s.name = "a" := by
  cases h with
  | and hf h =>
    simp only [List.mem_cons, List.not_mem_nil, or_false] at hf
    rcases hf with rfl | rfl
    all_goals
      cases h with
      | here _ => exact Or.inl rfl
      | arg ha hs =>
        simp only [List.mem_cons, List.not_mem_nil, or_false, or_self] at ha
        subst ha
        rw [sym_ca hs]; exact Or.inr rfl

/-- A predicate used with two numbers of arguments is declared twice. -/
theorem C90_violated_arity : Untyped 1 (fun _ => none) twoF ∧
    ∀ ord ∈ orders, ¬ Good 1 (declared 1 ord (fun _ => none) twoF) twoF := by
  have hu : Untyped 1 (fun _ => none) twoF := by
    intro s hs
    refine ⟨?_, rfl⟩
    rcases sym_two hs with e | e <;> rw [e]
    · exact word_p
    · exact word_a
  refine ⟨hu, fun ord ho h => ?_⟩
  have := ((C90_iff_partial ho hu).1 h).1 ⟨true, "p", 1⟩ ⟨true, "p", 2⟩ (.and (f := .pred 1 5 "p" [] [ca]) (by simp) (.here (by decide)))
    (.and (f := .pred 2 5 "p" [] [ca, ca]) (by simp) (.here (by decide))) rfl
  simp at this

/-- `in(a, a)`, as in the set theory problems of TPTP. -/
def inF : GForm := .pred 0 5 "in" [] [ca, ca]

/-- The name `in` is a keyword of Rocq. -/
theorem C90_violated_keyword : Untyped 1 (fun _ => none) inF ∧ OneUse 1 inF ∧
    ∀ ord ∈ orders, ¬ Good 1 (declared 1 ord (fun _ => none) inF) inF := by
  have hs : ∀ s, FSym 1 inF s → s = ⟨true, "in", 2⟩ ∨ s = ⟨false, "a", 0⟩ := by
    intro s h
    cases h with
    | here _ => exact Or.inl rfl
    | arg ha hs =>
      simp only [List.mem_cons, List.not_mem_nil, or_false, or_self] at ha
      subst ha
      exact Or.inr (sym_ca hs)
  have hu : Untyped 1 (fun _ => none) inF := by
    intro s h
    refine ⟨?_, rfl⟩
    rcases hs s h with e | e <;> rw [e]
    · exact word_in
    · exact word_a
  refine ⟨hu, ?_, fun ord ho h => ?_⟩
  · intro s s' h h' e
    rcases hs s h with rfl | rfl <;> rcases hs s' h' with rfl | rfl <;> first | rfl | exact absurd e (by decide)
  · exact (((C90_iff_partial ho hu).1 h).2 ⟨true, "in", 2⟩ (.here (by decide))).2.1 "in" (by decide) rfl

theorem C90_statement_false : ¬ C90_statement := fun h =>
  C90_violated_arity.2 [tI, tO, tT] (by simp [orders]) (h 1 _ _ _ (by simp [orders]) C90_violated_arity.1)

end Verif.Rocq.Context
