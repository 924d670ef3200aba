import Verif.Mods.RocqContextProps
/-!
# C92: the declarations before the Lambdapi theorem (`src/Mods/lambdapi/context.go`)

The Lambdapi file begins with one line for each symbol of the statement and one for the metavariables. The functions that collect the
symbols are those of the Rocq output (`Verif.Rocq.Context.formLines`), but for the line of a symbol; negation (`append(result, …)`, line 197) is the
same as cleaning with the empty list.

Simplifications: those of `Verif.Mods.RocqContext`; `getContextAsString`, `GlobContextPairs` and `getIdsFromFormula`
(src/Mods/lambdapi/context.go:69-168, 209-240) are not called by anything that runs.
-/

namespace Verif.Lambdapi.Context
open Verif.AST.Full
open Verif.Rocq.Context (Sym formLines FSym TSym clean replaceAll replGo Word mem_formLines nodup_formLines formLines_map NoSp word_noSp sep_inj)

/-! ### Model -/

/-- `mapDefault` (src/Mods/lambdapi/output.go:94-97). -/
def mapDefault (s : List Char) : List Char :=
  replaceAll ['*'] ['→'] (replaceAll ['-', '>'] ['→'] (replaceAll ['$', 'o'] ['P', 'r', 'o', 'p'] (replaceAll ['$', 'i'] ['ι'] s)))

def kw : List Char := ['s', 'y', 'm', 'b', 'o', 'l', ' ']

/-- The line for a symbol (src/Mods/lambdapi/context.go:200 and 246). -/
def symLine (s : Sym) : List Char := mapDefault (kw ++ (s.name.toList ++ [';']))

/-- `getContextFromFormula` (src/Mods/lambdapi/context.go:174-207; terms 242-252). -/
def declared (eqI : Nat) (f : GForm) : List (List Char) := formLines eqI symLine f

/-- `contextualizeMetas` (src/Mods/lambdapi/context.go:272-278), for the metavariables as they are printed. -/
def metaLine (metas : List (List Char)) : List Char := kw ++ (join [' '] metas ++ " : τ (ι);".toList)

/-- The lines of `makeContextIfNeeded` (src/Mods/lambdapi/context.go:44-67) after the first, which loads the library. -/
def lines (eqI : Nat) (f : GForm) (metas : List (List Char)) : List (List Char) :=
  declared eqI f ++ if metas.length > 0 then [metaLine metas] else []

/-! ### Specification -/

/-- The line is a Lambdapi declaration of `n` with a type: `symbol n p1 … pk : ty;`, where `p1`, …, `pk` are parameters, which are not
declared (as in `symbol nnpp p : ϵ (¬ ¬ p) → ϵ p;`, LambdaPi/CCC.lp:5). -/
def Declares (line n : List Char) : Prop :=
  ∃ (ps : List (List Char)) (ty : List Char), (∀ p ∈ ps, ' ' ∉ p ∧ ':' ∉ p) ∧
    line = "symbol ".toList ++ (n ++ (ps.flatMap (' ' :: ·) ++ (" : ".toList ++ (ty ++ [';']))))

/-- **C92, full statement**: for an untyped problem, each symbol of the statement and each metavariable is declared with a type, by one line
only. -/
def C92_statement : Prop := ∀ (eqI : Nat) (f : GForm) (metas : List (List Char)), (∀ s, FSym eqI f s → Word s.name.toList) →
  (∀ m ∈ metas, ∀ c ∈ m, Verif.Parser.AlphaNum c) → metas.Nodup → (∀ s, FSym eqI f s → s.name.toList ∉ metas) →
  ∀ n, ((∃ s, FSym eqI f s ∧ s.name.toList = n) ∨ n ∈ metas) → ∃ l ∈ lines eqI f metas, Declares l n ∧ ∀ l' ∈ lines eqI f metas, Declares l' n → l' = l

/-! ### What is printed -/

theorem replGo_none {a : Char} {o new s : List Char} (h : a ∉ s) : replGo (a :: o) new 0 s = s := by
  induction s with
  | nil => rfl
  | cons c r ih =>
    have hc : c ≠ a := fun e => h (e ▸ List.mem_cons_self ..)
    have : (a :: o).isPrefixOf (c :: r) = false := by
      simp only [List.isPrefixOf, Bool.and_eq_false_iff, beq_eq_false_iff_ne]
      exact .inl (Ne.symm hc)
    simp only [replGo, this, Bool.false_eq_true, if_false, ih fun h' => h (List.mem_cons_of_mem _ h')]

theorem mapDefault_id {s : List Char} (h : '$' ∉ s ∧ '-' ∉ s ∧ '*' ∉ s) : mapDefault s = s := by
  simp only [mapDefault, replaceAll, replGo_none h.1, replGo_none h.2.1, replGo_none h.2.2]

theorem not_alnum {c : Char} (hc : c = '$' ∨ c = '-' ∨ c = '*' ∨ c = ':' ∨ c = ' ' ∨ c = ';') : ¬ Verif.Parser.AlphaNum c := by
  rcases hc with rfl | rfl | rfl | rfl | rfl | rfl <;> unfold Verif.Parser.AlphaNum <;> decide

theorem symLine_word {s : Sym} (h : Word s.name.toList) : symLine s = kw ++ (s.name.toList ++ [';']) := by
  have hc : ∀ c, (c = '$' ∨ c = '-' ∨ c = '*' ∨ c = ':' ∨ c = ' ' ∨ c = ';') → c ∉ s.name.toList := fun c hc hm =>
    not_alnum hc (h.2 c hm)
  refine mapDefault_id ⟨?_, ?_, ?_⟩ <;> simp only [kw, List.mem_append, List.mem_cons, List.not_mem_nil, or_false] <;>
    simp [hc]

/-- The names of the symbols, each once, in the order of the lines. -/
theorem C92_names_partial (eqI : Nat) (f : GForm) (hw : ∀ s, FSym eqI f s → Word s.name.toList) :
    ∃ ns : List (List Char), ns.Nodup ∧ (∀ n, n ∈ ns ↔ ∃ s, FSym eqI f s ∧ s.name.toList = n) ∧
      declared eqI f = ns.map fun n => "symbol ".toList ++ (n ++ [';']) := by
  refine ⟨formLines eqI (fun s : Sym => s.name.toList) f, nodup_formLines f, ?_, ?_⟩
  · intro n
    rw [mem_formLines]
    exact ⟨fun ⟨s, h, e⟩ => ⟨s, h, e.symm⟩, fun ⟨s, h, e⟩ => ⟨s, h, e.symm⟩⟩
  · refine (formLines_map (P := fun _ => True) (g := fun n => "symbol ".toList ++ (n ++ [';'])) ?_ f fun s hs => ⟨trivial, ?_⟩).1
    · intro x y _ _ e
      exact List.append_cancel_right (List.append_cancel_left e)
    · rw [symLine_word (hw s hs)]
      rfl

/-- **C92 violated on every problem**: no symbol of the statement is declared with a type. -/
theorem C92_never (eqI : Nat) (f : GForm) (hw : ∀ s, FSym eqI f s → Word s.name.toList) (l n : List Char) (hl : l ∈ declared eqI f) :
    ¬ Declares l n := by
  rintro ⟨ps, ty, -, e⟩
  obtain ⟨s, hs, rfl⟩ := (mem_formLines f).1 hl
  rw [symLine_word (hw s hs)] at e
  have hm : ':' ∈ kw ++ (s.name.toList ++ [';']) := by
    rw [e]
    simp
  simp only [kw, List.mem_append, List.mem_cons, List.not_mem_nil, or_false] at hm
  rcases hm with hm | hm | hm
  · simp at hm
  · exact not_alnum (by simp) ((hw s hs).2 _ hm)
  · simp at hm

/-- One metavariable is declared as an individual. -/
theorem C92_meta_partial (eqI : Nat) (f : GForm) (m : List Char) : ∃ l ∈ lines eqI f [m], Declares l m := by
  refine ⟨metaLine [m], by simp [lines], [], "τ (ι)".toList, by simp, ?_⟩
  simp [metaLine, kw, join]

/-- In the line for the metavariables only the first is declared, the others are its parameters. -/
theorem metaLine_first (m k : List Char) (ms : List (List Char)) (hm : ∀ c ∈ m, Verif.Parser.AlphaNum c)
    (hk : ∀ c ∈ k, Verif.Parser.AlphaNum c) (hne : m ≠ k) : ¬ Declares (metaLine (m :: ms)) k := by
  rintro ⟨ps, ty, -, e⟩
  have h1 : metaLine (m :: ms) = kw ++ (m ++ (ms.flatMap ([' '] ++ ·) ++ " : τ (ι);".toList)) := by
    simp only [metaLine, join, List.append_assoc]
  rw [h1] at e
  have e' : m ++ (ms.flatMap ([' '] ++ ·) ++ " : τ (ι);".toList) = k ++ (ps.flatMap (' ' :: ·) ++ (" : ".toList ++ (ty ++ [';']))) := by
    have hk : "symbol ".toList = kw := by decide
    rw [hk] at e
    exact List.append_cancel_left e
  have key : ∀ (a : List (List Char)) (r : List Char), ∃ r', a.flatMap ([' '] ++ ·) ++ (' ' :: r) = ' ' :: r' := by
    intro a r
    cases a with
    | nil => exact ⟨r, rfl⟩
    | cons b a => exact ⟨b ++ (a.flatMap ([' '] ++ ·) ++ (' ' :: r)), by simp⟩
  have t1 : " : τ (ι);".toList = ' ' :: ": τ (ι);".toList := by decide
  have t2 : " : ".toList = ' ' :: ": ".toList := by decide
  obtain ⟨r1, h1⟩ := key ms ": τ (ι);".toList
  obtain ⟨r2, h2⟩ := key ps (": ".toList ++ (ty ++ [';']))
  rw [t1, h1, t2] at e'
  have h2' : ps.flatMap (' ' :: ·) ++ (' ' :: ": ".toList ++ (ty ++ [';'])) = ' ' :: r2 := by
    simpa using h2
  rw [h2'] at e'
  exact hne (sep_inj (word_noSp hm) (word_noSp hk) e').1

/-- **C92 violated for several metavariables**: no line declares another one than the first. -/
theorem C92_violated_metas (eqI : Nat) (f : GForm) (hw : ∀ s, FSym eqI f s → Word s.name.toList) (m k : List Char) (ms : List (List Char))
    (hm : ∀ c ∈ m, Verif.Parser.AlphaNum c) (hk : ∀ c ∈ k, Verif.Parser.AlphaNum c) (hne : m ≠ k) :
    ∀ l ∈ lines eqI f (m :: ms), ¬ Declares l k := by
  intro l hl
  rcases List.mem_append.1 hl with hl | hl
  · exact C92_never eqI f hw l k hl
  · obtain rfl : l = metaLine (m :: ms) := by simpa using hl
    exact metaLine_first m k ms hm hk hne

/-- `p(a)`. -/
def pa : GForm := .pred 1 5 "p" [] [.fn 7 "a" [] []]

example : (lines 1 pa [['X'], ['Y']]).map String.ofList = ["symbol p;", "symbol a;", "symbol X Y : τ (ι);"] := by decide +kernel

theorem pa_word : ∀ s, FSym 1 pa s → Word s.name.toList := by
  intro s h
  cases h with
  | here _ => exact Verif.Rocq.Context.word_p
  | arg ha h =>
    simp only [List.mem_singleton] at ha
    subst ha
    cases h with
    | here => exact Verif.Rocq.Context.word_a
    | arg ha _ => simp at ha

theorem C92_statement_false : ¬ C92_statement := by
  intro h
  obtain ⟨l, hm, hd, -⟩ := h 1 pa [] pa_word (by simp) (by simp) (by simp) ['p'] (.inl ⟨_, .here (by decide), by decide⟩)
  simp only [lines, List.length_nil, gt_iff_lt, Nat.lt_irrefl, if_false, List.append_nil] at hm
  exact C92_never 1 pa pa_word l _ hm hd

end Verif.Lambdapi.Context
