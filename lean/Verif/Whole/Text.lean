import Verif.Parser.LexMain
/-!
# Texts given by their pieces

A check, by computation, that a text given token by token is written with care (`CWritten`). It is for concrete texts only.
-/

namespace Verif.Whole
open Verif.Parser

/-- A token as written, after white space. -/
structure Piece where
  sep : List Char
  spell : List Char
  tok : Tok

/-- The pieces and the end of the last line. -/
def textOf : List Piece → List Char
  | [] => ['\n']
  | p :: ps => p.sep ++ (p.spell ++ textOf ps)

def alnum (d : Char) : Bool := decide ((97 ≤ d.toNat ∧ d.toNat ≤ 122) ∨ (65 ≤ d.toNat ∧ d.toNat ≤ 90) ∨ (48 ≤ d.toNat ∧ d.toNat ≤ 57) ∨ d = '_')

def spellOk : Tok → List Char → Bool
  | .lower v, w => decide (v = w) && (match w with
    | [] => false
    | d :: r => decide (97 ≤ d.toNat ∧ d.toNat ≤ 122) && r.all alnum && !(symbols.any fun p => decide (p.2 = w)))
  | .upper v, w => decide (v = w) && (match w with
    | [] => false
    | d :: r => decide (65 ≤ d.toNat ∧ d.toNat ≤ 90) && r.all alnum)
  | .squoted v, w => decide (w = '\'' :: (v ++ ['\''])) && decide (v ≠ []) && v.all fun c => alnum c || decide (c = '.')
  | t, w => decide ((t, w) ∈ symbols)

def glueOk : Tok → List Char → Bool
  | .lower _, c :: _ | .upper _, c :: _ | .kFof, c :: _ | .kInclude, c :: _ => !alnum c
  | .lpar, _ | .rpar, _ | .comma, _ | .dot, _ | .lbrk, _ | .rbrk, _ | .colon, _ | .squoted _, _ => true
  | .ex, _ | .vline, _ | .and, _ | .equiv, _ | .imply, _ | .neq, _ => true
  | .all, c :: _ => decide (c = ' ')
  | .not, c :: _ => !(decide (c = '|') || decide (c = '&'))
  | .eq, c :: _ => !decide (c = '>')
  | _, _ => false

def carefulOk : Tok → List Char → Bool
  | .all, c :: _ | .ex, c :: _ => decide (c = ' ')
  | .kFof, c :: _ | .kInclude, c :: _ => decide (c = '(')
  | .lower _, _ | .upper _, _ | .squoted _, _ | .lpar, _ | .rpar, _ | .comma, _ | .dot, _ | .lbrk, _ | .rbrk, _ | .colon, _ => true
  | .vline, _ | .and, _ | .equiv, _ | .imply, _ | .not, _ | .eq, _ | .neq, _ => true
  | _, _ => false

def piecesOk : List Piece → Bool
  | [] => true
  | p :: ps => p.sep.all (fun c => decide (c = ' ' ∨ c = '\n')) && spellOk p.tok p.spell && glueOk p.tok (textOf ps) &&
      carefulOk p.tok (textOf ps) && (!ps.isEmpty || decide (p.tok = .dot)) && piecesOk ps

theorem alnum_spec {d : Char} : alnum d = true ↔ AlphaNum d := by simp [alnum, AlphaNum]

theorem alnum_or {c : Char} (h : (alnum c || decide (c = '.')) = true) : 32 ≤ c.toNat ∧ c.toNat ≤ 126 ∧ c ≠ '\'' ∧ c ≠ '\\' := by
  simp only [Bool.or_eq_true, decide_eq_true_eq, alnum] at h
  have h1 : '\''.toNat = 39 := rfl
  have h2 : '\\'.toNat = 92 := rfl
  rcases h with (h | h | h | rfl) | rfl
  · exact ⟨by omega, by omega, by rintro rfl; omega, by rintro rfl; omega⟩
  · exact ⟨by omega, by omega, by rintro rfl; omega, by rintro rfl; omega⟩
  · exact ⟨by omega, by omega, by rintro rfl; omega, by rintro rfl; omega⟩
  · decide
  · decide

theorem plain_quoted : ∀ {v : List Char}, (∀ c ∈ v, (alnum c || decide (c = '.')) = true) → QChars '\'' v v
  | [], _ => .nil
  | c :: v, h =>
    let a := alnum_or (h c (List.mem_cons_self ..))
    .plain a.1 a.2.1 a.2.2.1 a.2.2.2 (plain_quoted fun c hc => h c (List.mem_cons_of_mem _ hc))

theorem spellOk_spec {t : Tok} {w : List Char} (h : spellOk t w = true) : Spell t w := by
  unfold spellOk at h
  split at h
  · simp only [Bool.and_eq_true, decide_eq_true_eq] at h
    obtain ⟨rfl, h⟩ := h
    split at h
    · cases h
    · simp only [Bool.and_eq_true, decide_eq_true_eq, List.all_eq_true, Bool.not_eq_true', List.any_eq_false] at h
      exact .lower h.1.1.1 h.1.1.2 (fun e he => alnum_spec.1 (h.1.2 e he)) (fun t ht => h.2 _ ht rfl)
  · simp only [Bool.and_eq_true, decide_eq_true_eq] at h
    obtain ⟨rfl, h⟩ := h
    split at h
    · cases h
    · simp only [Bool.and_eq_true, decide_eq_true_eq, List.all_eq_true] at h
      exact .upper h.1.1 h.1.2 (fun e he => alnum_spec.1 (h.2 e he))
  · simp only [Bool.and_eq_true, decide_eq_true_eq, List.all_eq_true] at h
    obtain ⟨⟨rfl, -⟩, h⟩ := h
    exact .squoted (plain_quoted h)
  · exact .sym (of_decide_eq_true h)

theorem glueOk_spec {t : Tok} {r : List Char} (h : glueOk t r = true) : ∀ d r', r = d :: r' → ¬ glue t d := by
  rintro d r' rfl
  cases t <;> simp_all [glueOk, glue, ← alnum_spec]

theorem carefulOk_spec {t : Tok} {w r : List Char} (hs : spellOk t w = true) (h : carefulOk t r = true) : careful t w r := by
  cases t <;> cases r <;> simp_all [carefulOk, careful, spellOk]
  all_goals
    obtain ⟨⟨rfl, -⟩, hs⟩ := hs
    intro hm
    exact (alnum_or (by simpa using hs _ hm)).2.2.2 rfl

theorem piecesOk_spec : ∀ {ps : List Piece}, piecesOk ps = true → CWritten (ps.map (·.tok)) (textOf ps)
  | [], _ => .nil (.space (.inr (.inl rfl)) .nil) ⟨[], rfl⟩
  | p :: ps, h => by
    simp only [piecesOk, Bool.and_eq_true] at h
    obtain ⟨⟨⟨⟨⟨h1, h2⟩, h3⟩, h4⟩, h5⟩, h6⟩ := h
    refine .cons ?_ (spellOk_spec h2) (glueOk_spec h3) (carefulOk_spec h2 h4) ?_ (piecesOk_spec h6)
    · have : ∀ l : List Char, l.all (fun c => decide (c = ' ' ∨ c = '\n')) = true → Sep l := by
        intro l
        induction l with
        | nil => intro _; exact .nil
        | cons c l ih =>
          intro h
          simp only [List.all_cons, Bool.and_eq_true, decide_eq_true_eq] at h
          exact .space (by rcases h.1 with h | h <;> simp [h]) (ih h.2)
      exact this _ h1
    · intro e
      cases ps with
      | nil => simpa using h5
      | cons => cases e

end Verif.Whole
