import Verif.Search.Verdict
/-!
# What a run writes to the standard output (`src/Search/print_proof.go`, `src/Search/destructive.go`, `src/Search/incremental/search.go`)

The verdict and the proof of the main search and of the incremental search (option `-incr`), and the way the text of a proof is
written. The result of a search is a parameter. Left out: lines of the logger (`Glob.PrintInfo`), the file written with `-wlogs`,
and the assisted mode.
-/

namespace Verif.Search.Output
open Verif.Search.Verdict (printResult)

/-! ### `fmt.Printf` with a format and no arguments -/

/-- Flags of a verb (documentation of the package `fmt` of Go). -/
def isFlag (c : Char) : Bool := c = '+' || c = '-' || c = '#' || c = ' ' || c = '0'

/-- Where the scanner is: in the text, or after a percent sign, having read flags, a width or a precision. -/
inductive Mode where
  | text | flags | width | precision
deriving DecidableEq

/-- The verb of a directive without an argument (documentation of the package `fmt` of Go: `%%` is a percent sign, otherwise
`%!verb(MISSING)`). -/
def verb (c : Char) : List Char := if c = '%' then ['%'] else ['%', '!', c] ++ "(MISSING)".toList

/-- The text `fmt.Printf` writes for a format and no arguments (documentation of the package `fmt` of Go). Explicit argument
indexes `[n]` and widths `*` are treated as verbs here. -/
def printf : Mode → List Char → List Char
  | .text, [] => []
  | .text, c :: cs => if c = '%' then printf .flags cs else c :: printf .text cs
  | _, [] => "%!(NOVERB)".toList
  | .flags, c :: cs => if isFlag c then printf .flags cs else if c.isDigit then printf .width cs
      else if c = '.' then printf .precision cs else verb c ++ printf .text cs
  | .width, c :: cs => if c.isDigit then printf .width cs else if c = '.' then printf .precision cs else verb c ++ printf .text cs
  | .precision, c :: cs => if c.isDigit then printf .precision cs else verb c ++ printf .text cs

/-! ### Printing -/

/-- What is written: the line `SZS status`, the lines around the proof, other text. -/
inductive Item where
  | verdict (l : Verdict.Line)
  | startProof
  | endProof
  | text (s : List Char)
deriving DecidableEq

variable {P : Type}

/-- The proof outputs asked for by the options (src/Search/print_proof.go:46-56): the text of a proof, or nothing if the program ends
with an error (`Glob.Fatal`). -/
abbrev Format (P : Type) := List P → Option (List Char)

/-- `printProofWithProofStruct` (src/Search/print_proof.go:72-88) for all outputs in turn: what is written, and whether the program
ended. -/
def printTexts (pr : List P) : List (Format P) → List Item × Bool
  | [] => ([], false)
  | φ :: φs => match φ pr with
    | none => ([], true)
    | some t => (.text (printf .text ('\n' :: t)) :: (printTexts pr φs).1, (printTexts pr φs).2)

/-- `PrintProof` (src/Search/print_proof.go:58-70). -/
def printProof (proof : Bool) (φs : List (Format P)) (pr : List P) : List Item × Bool :=
  if !proof then ([], false)
  else match printTexts pr φs with
    | (out, true) => (.startProof :: out, true)
    | (out, false) => (.startProof :: out ++ [.endProof], false)

/-- The options. -/
structure Opts (P : Type) where
  proof : Bool
  oneStep : Bool
  formats : List (Format P)

/-- The end of a run: the result and what was written; `fatal` if the program ended with an error. -/
structure End where
  closed : Bool
  out : List Item
  fatal : Bool
deriving DecidableEq

/-- `Search` and `doOneStep` of the main search (src/Search/destructive.go:82-154) from round `k`, for at most the given number of
rounds. `outcome k` is the proof found in round `k`, if there is one. -/
def mainSearch (o : Opts P) (conj : Bool) (bound : Bool) (outcome : Nat → Option (List P)) : Nat → Nat → Option End
  | 0, _ => none
  | n + 1, k => match outcome k with
    | some pr =>
      let first := if o.proof then [Item.verdict (printResult conj true)] else []
      match printProof o.proof o.formats pr with
      | (out, true) => some ⟨true, first ++ out, true⟩
      | (out, false) => some ⟨true, first ++ out ++ (if !o.proof then [.verdict (printResult conj true)] else []), false⟩
    | none => if bound && !o.oneStep then mainSearch o conj bound outcome n (k + 1)
      else some ⟨false, [.verdict (printResult conj false)], false⟩

/-- `Search` and `handleSearchResults` of the incremental search (src/Search/incremental/search.go:24-38), with `getResult`
(searchNode.go:194-212): without a closed tree the proof is the empty list. `Search.Search` (src/Search/search.go:78-85) drops the
result. -/
def incrSearch (o : Opts P) (outcome : Option (List P)) : End :=
  match printProof o.proof o.formats (outcome.getD []) with
  | (out, e) => ⟨outcome.isSome, out, e⟩

/-- `MakeTptpOutput`, `MakeRocqOutput`, `MakeLambdapiOutput` (src/Mods/tptp/output.go:56-71, src/Mods/rocq/output.go:57-70,
src/Mods/lambdapi/output.go:76-86) on a proof: an error for the empty one. -/
def guarded (φ : List P → List Char) : Format P := fun pr => if pr.isEmpty then none else some (φ pr)

/-! ### The basic output -/

/-- `JsonProofStruct` (src/Search/proof.go:68-86) as far as it is written: formulas are texts. -/
inductive JPS where
  | mk (node : Nat) (ruleName formula : List Char) (results : List (Nat × List (List Char))) (children : List (List JPS))

/-- `strconv.Itoa` for the numbers of nodes. -/
def itoa (n : Nat) : List Char := Nat.toDigits 10 n

/-- Formulas separated by commas (src/Search/proof.go:354-359). -/
def commas : List (List Char) → List Char
  | [] => []
  | [f] => f
  | f :: fs => f ++ ", ".toList ++ commas fs

/-- A line of result formulas (src/Search/proof.go:352-361). -/
def resultLine (r : Nat × List (List Char)) : List Char := "\t-> [".toList ++ itoa r.1 ++ "] ".toList ++ commas r.2 ++ ['\n']

mutual
/-- `ToText` (src/Search/proof.go:347-370). -/
def toText : JPS → List Char
  | .mk n rn f rs cs => ('[' :: itoa n) ++ "] ".toList ++ rn ++ " : ".toList ++ f ++ ['\n'] ++
      (rs.map resultLine).flatten ++ ['\n'] ++ toTextLL cs
/-- `JsonProofStructListToText` (src/Search/proof.go:372-378). -/
def toTextL : List JPS → List Char
  | [] => []
  | j :: js => toText j ++ toTextL js
def toTextLL : List (List JPS) → List Char
  | [] => []
  | c :: cs => toTextL c ++ toTextLL cs
end

/-- `ProofStructListToText` (src/Search/proof.go:380-383). -/
def basic : Format JPS := fun pr => some (toTextL pr)

/-! ### The claim -/

/-- What a user expects: one verdict, and for a closed tableau with option `-proof` the texts of the proof between the two lines. -/
def wanted (conj closed proof : Bool) (texts : List (List Char)) : List Item :=
  .verdict (Verdict.deserved conj closed) ::
    (if closed && proof then [.startProof] ++ texts.map (fun t => .text ('\n' :: t)) ++ [.endProof] else [])

/-- C94 in full: for both searches, whatever the result, the options and the outputs, a run that ends writes the verdict and, if the
tableau is closed and a proof is asked for, the proof texts as they are. -/
def C94_statement : Prop := ∀ (P : Type) (o : Opts P) (conj bound : Bool),
  (∀ (outcome : Nat → Option (List P)) (n : Nat) (e : End), mainSearch o conj bound outcome n 0 = some e → ∃ k,
    e.closed = (outcome k).isSome ∧
    (∀ texts, o.formats.mapM (fun φ => φ ((outcome k).getD [])) = some texts → e.out = wanted conj e.closed o.proof texts)) ∧
  (∀ (outcome : Option (List P)) texts, o.formats.mapM (fun φ => φ (outcome.getD [])) = some texts →
    (incrSearch o outcome).out = wanted conj outcome.isSome o.proof texts)

/-! ### Texts -/

theorem printf_plain {t : List Char} (h : '%' ∉ t) : printf .text t = t := by
  induction t with
  | nil => rfl
  | cons c cs ih =>
    simp only [List.mem_cons, not_or] at h
    rw [printf, if_neg (fun e => h.1 e.symm), ih h.2]

theorem printf_append {a b : List Char} (h : '%' ∉ a) : printf .text (a ++ b) = a ++ printf .text b := by
  induction a with
  | nil => rfl
  | cons c cs ih =>
    simp only [List.mem_cons, not_or] at h
    simp only [List.cons_append]
    rw [printf, if_neg (fun e => h.1 e.symm), ih h.2]

theorem alpha_not_flag {c : Char} (h : c.isAlpha = true) : isFlag c = false ∧ c.isDigit = false ∧ c ≠ '.' ∧ c ≠ '%' := by
  have hv : (65 ≤ c.val ∧ c.val ≤ 90) ∨ (97 ≤ c.val ∧ c.val ≤ 122) := by
    simpa [Char.isAlpha, Char.isUpper, Char.isLower] using h
  refine ⟨?_, ?_, ?_, ?_⟩
  · unfold isFlag
    simp only [Bool.or_eq_false_iff, decide_eq_false_iff_not]
    refine ⟨⟨⟨⟨?_, ?_⟩, ?_⟩, ?_⟩, ?_⟩ <;> rintro rfl <;> revert hv <;> decide
  · unfold Char.isDigit
    simp only [Bool.and_eq_false_iff, decide_eq_false_iff_not]
    right
    intro h'
    have h1 : c.val ≤ 57 := h'
    rcases hv with ⟨h2, -⟩ | ⟨h2, -⟩
    · exact absurd (UInt32.le_trans h2 h1) (by decide)
    · exact absurd (UInt32.le_trans h2 h1) (by decide)
  · rintro rfl; revert hv; decide
  · rintro rfl; revert hv; decide

/-- A percent sign followed by a letter is written as an error of `fmt`, and the letter after it. -/
theorem printf_letter {a b : List Char} {c : Char} (h : '%' ∉ a) (hc : c.isAlpha = true) :
    printf .text (a ++ '%' :: c :: b) = a ++ ['%', '!', c] ++ "(MISSING)".toList ++ printf .text b := by
  obtain ⟨h1, h2, h3, h4⟩ := alpha_not_flag hc
  rw [printf_append h, printf, if_pos rfl, printf]
  simp only [h1, h2, h3, Bool.false_eq_true, if_false, verb, h4]
  simp

theorem printTexts_ok {pr : List P} : ∀ {φs : List (Format P)} {texts : List (List Char)},
    φs.mapM (fun φ => φ pr) = some texts → printTexts pr φs = (texts.map fun t => .text (printf .text ('\n' :: t)), false)
  | [], texts, h => by
    simp only [List.mapM_nil, pure] at h
    cases h
    rfl
  | φ :: φs, texts, h => by
    simp only [List.mapM_cons, Option.bind_eq_bind, Option.bind_eq_some_iff] at h
    obtain ⟨t, ht, ts, hts, e⟩ := h
    cases e
    have := printTexts_ok hts
    simp only [printTexts, ht, this, List.map_cons]

/-- The texts as they arrive at the terminal. -/
def block (texts : List (List Char)) : List Item := [.startProof] ++ texts.map (fun t => .text (printf .text ('\n' :: t))) ++ [.endProof]

theorem printProof_ok {proof : Bool} {pr : List P} {φs : List (Format P)} {texts : List (List Char)}
    (h : φs.mapM (fun φ => φ pr) = some texts) : printProof proof φs pr = (if proof then block texts else [], false) := by
  unfold printProof
  rw [printTexts_ok h]
  cases proof <;> simp [block]

/-! ### The main search -/

/-- Every run of the main search that ends: the round that decided, and what was written. -/
theorem main_out {o : Opts P} {conj bound : Bool} {outcome : Nat → Option (List P)} : ∀ {n k : Nat} {e : End},
    mainSearch o conj bound outcome n k = some e → ∃ j, k ≤ j ∧ j < k + n ∧ (∀ i, k ≤ i → i < j → outcome i = none) ∧
      e.closed = (outcome j).isSome ∧ ∀ texts, o.formats.mapM (fun φ => φ ((outcome j).getD [])) = some texts →
        e.fatal = false ∧ e.out = .verdict (Verdict.deserved conj e.closed) :: if e.closed && o.proof then block texts else []
  | 0, k, e, h => by simp [mainSearch] at h
  | n + 1, k, e, h => by
    rw [mainSearch] at h
    cases hk : outcome k with
    | some pr =>
      simp only [hk] at h
      refine ⟨k, Nat.le_refl k, by omega, fun i h1 h2 => by omega, ?_, ?_⟩
      · rw [hk]
        split at h <;> cases h <;> rfl
      · intro texts ht
        rw [hk, Option.getD_some] at ht
        rw [printProof_ok ht] at h
        cases h
        refine ⟨rfl, ?_⟩
        cases o.proof <;> simp [Verdict.printResult_eq]
    | none =>
      simp only [hk] at h
      split at h
      · obtain ⟨j, h1, h2, h3, h4⟩ := main_out h
        refine ⟨j, by omega, by omega, fun i h5 h6 => ?_, h4⟩
        rcases Nat.lt_or_ge k i with h7 | h7
        · exact h3 i h7 h6
        · rw [show i = k by omega]; exact hk
      · cases h
        refine ⟨k, Nat.le_refl k, by omega, fun i h1 h2 => by omega, ?_, ?_⟩
        · rw [hk]; rfl
        · intro texts _
          exact ⟨rfl, by simp [Verdict.printResult_eq]⟩

/-! ### C94 -/

/-- The main search: one verdict, which is the deserved one, and a proof exactly for a closed tableau and if asked for; the texts of
the proof go through `fmt.Printf`. -/
theorem C94_main (o : Opts P) (conj bound : Bool) (outcome : Nat → Option (List P)) (n : Nat) (e : End)
    (h : mainSearch o conj bound outcome n 0 = some e) : ∃ k, (∀ i < k, outcome i = none) ∧ e.closed = (outcome k).isSome ∧
      ∀ texts, o.formats.mapM (fun φ => φ ((outcome k).getD [])) = some texts → e.fatal = false ∧
        e.out = .verdict (Verdict.deserved conj e.closed) :: if e.closed && o.proof then
          [.startProof] ++ texts.map (fun t => .text (printf .text ('\n' :: t))) ++ [.endProof] else [] := by
  obtain ⟨j, -, -, h3, h4⟩ := main_out h
  exact ⟨j, fun i hi => h3 i (Nat.zero_le i) hi, h4⟩

/-- The claim for the main search and proofs without percent signs. -/
theorem C94_main_partial (o : Opts P) (conj bound : Bool) (outcome : Nat → Option (List P)) (n : Nat) (e : End)
    (h : mainSearch o conj bound outcome n 0 = some e) : ∃ k, e.closed = (outcome k).isSome ∧
      ∀ texts, o.formats.mapM (fun φ => φ ((outcome k).getD [])) = some texts → (∀ t ∈ texts, '%' ∉ t) →
        e.out = wanted conj e.closed o.proof texts := by
  obtain ⟨k, -, h2, h3⟩ := C94_main o conj bound outcome n e h
  refine ⟨k, h2, fun texts ht hp => ?_⟩
  rw [(h3 texts ht).2, wanted]
  have : texts.map (fun t => Item.text (printf .text ('\n' :: t))) = texts.map (fun t => .text ('\n' :: t)) := by
    apply List.map_congr_left
    intro t hm
    rw [printf_plain (by simp [hp t hm])]
  rw [this]

/-- **C94, the rounds**: with `-one_step`, or without a bound, there is one round, and the answer is that of this round; otherwise the search
goes on until a round is closed, and it never says that the tableau is open. -/
theorem C94_rounds (o : Opts P) (conj bound : Bool) (outcome : Nat → Option (List P)) :
    ((bound && !o.oneStep) = false → ∀ n, ∃ e, mainSearch o conj bound outcome (n + 1) 0 = some e ∧ e.closed = (outcome 0).isSome) ∧
    ((bound && !o.oneStep) = true → ∀ n, (∀ e, mainSearch o conj bound outcome n 0 = some e → e.closed = true) ∧
      ((mainSearch o conj bound outcome n 0).isSome ↔ ∃ k < n, (outcome k).isSome)) := by
  constructor
  · intro hb n
    rw [mainSearch]
    cases hk : outcome 0 with
    | some pr =>
      dsimp only
      split <;> exact ⟨_, rfl, rfl⟩
    | none => simp only [hb]; exact ⟨_, rfl, rfl⟩
  · intro hb n
    have key : ∀ n k, (∀ e, mainSearch o conj bound outcome n k = some e → e.closed = true) ∧
        ((mainSearch o conj bound outcome n k).isSome ↔ ∃ j, k ≤ j ∧ j < k + n ∧ (outcome j).isSome) := by
      intro n
      induction n with
      | zero => intro k; simp [mainSearch]; omega
      | succ n ih =>
        intro k
        rw [mainSearch]
        cases hk : outcome k with
        | some pr =>
          dsimp only
          have : ∃ j, k ≤ j ∧ j < k + (n + 1) ∧ (outcome j).isSome := ⟨k, Nat.le_refl k, by omega, by rw [hk]; rfl⟩
          split <;> exact ⟨fun e h => by cases h; rfl, by simp [this]⟩
        | none =>
          simp only [hb, if_true]
          refine ⟨(ih (k + 1)).1, (ih (k + 1)).2.trans ⟨?_, ?_⟩⟩
          · rintro ⟨j, h1, h2, h3⟩
            exact ⟨j, by omega, by omega, h3⟩
          · rintro ⟨j, h1, h2, h3⟩
            refine ⟨j, ?_, by omega, h3⟩
            rcases Nat.lt_or_ge k j with h | h
            · exact h
            · rw [show j = k by omega, hk] at h3; cases h3
    refine ⟨(key n 0).1, (key n 0).2.trans ⟨?_, ?_⟩⟩
    · rintro ⟨j, -, h2, h3⟩; exact ⟨j, by omega, h3⟩
    · rintro ⟨j, h2, h3⟩; exact ⟨j, by omega, by omega, h3⟩

/-- A step is in a proof, at the top or in the proof of a branch. -/
inductive InProof (j : JPS) : List JPS → Prop
  | here {l l'} : InProof j (l ++ j :: l')
  | inside {n rn f rs cs c l l'} : c ∈ cs → InProof j c → InProof j (l ++ JPS.mk n rn f rs cs :: l')

theorem toTextL_append : ∀ (l l' : List JPS), toTextL (l ++ l') = toTextL l ++ toTextL l'
  | [], l' => rfl
  | j :: l, l' => by rw [List.cons_append, toTextL, toTextL, toTextL_append l l', List.append_assoc]

theorem toTextLL_infix : ∀ {cs : List (List JPS)} {c : List JPS}, c ∈ cs → toTextL c <:+: toTextLL cs
  | c' :: cs, c, h => by
    rw [toTextLL]
    rcases List.mem_cons.1 h with rfl | h
    · exact (List.prefix_append _ _).isInfix
    · exact (toTextLL_infix h).trans (List.suffix_append _ _).isInfix

theorem newline : "\n".toList = ['\n'] := by decide

theorem resultLine_eq (r : Nat × List (List Char)) :
    resultLine r = "\t-> [".toList ++ Nat.toDigits 10 r.1 ++ "] ".toList ++ commas r.2 ++ ['\n'] := by
  unfold resultLine itoa
  exact rfl

/-- **C94, the basic output**: every step of the proof is written, with its number, rule and formula and, on the lines that follow, the
formulas it makes. -/
theorem C94_basic_all (pr : List JPS) (n : Nat) (rn f : List Char) (rs : List (Nat × List (List Char))) (cs : List (List JPS))
    (h : InProof (.mk n rn f rs cs) pr) : ∃ text, basic pr = some text ∧
      "[".toList ++ Nat.toDigits 10 n ++ "] ".toList ++ rn ++ " : ".toList ++ f ++ "\n".toList ++
        (rs.map fun r => "\t-> [".toList ++ Nat.toDigits 10 r.1 ++ "] ".toList ++ (", ".toList).intercalate r.2 ++ "\n".toList).flatten <:+: text := by
  refine ⟨_, rfl, ?_⟩
  have hcom : ∀ l : List (List Char), commas l = (", ".toList).intercalate l := by
    intro l
    induction l with
    | nil => rfl
    | cons a l ih =>
      cases l with
      | nil => simp [commas, List.intercalate]
      | cons b l => rw [commas, ih]; simp [List.intercalate, List.intersperse]; simp
  have hres : (fun r : Nat × List (List Char) => "\t-> [".toList ++ Nat.toDigits 10 r.1 ++ "] ".toList ++ (", ".toList).intercalate r.2 ++ "\n".toList) =
      resultLine := by
    funext r
    rw [resultLine_eq, hcom, newline]
  rw [hres]
  induction h with
  | @here l l' =>
    rw [toTextL_append, toTextL]
    refine List.IsInfix.trans ?_ (List.suffix_append _ _).isInfix
    refine List.IsInfix.trans ?_ (List.prefix_append _ _).isInfix
    rw [toText]
    refine ⟨[], '\n' :: toTextLL cs, ?_⟩
    simp [itoa]
  | @inside n' rn' f' rs' cs' c l l' hc _ ih =>
    refine ih.trans ?_
    rw [toTextL_append, toTextL]
    refine List.IsInfix.trans ?_ (List.suffix_append _ _).isInfix
    refine List.IsInfix.trans ?_ (List.prefix_append _ _).isInfix
    rw [toText]
    exact (toTextLL_infix hc).trans (List.suffix_append _ _).isInfix

example : InProof (.mk 2 "CLOSURE".toList "p".toList [] []) [.mk 0 "BETA_OR".toList "p | q".toList [] [[.mk 2 "CLOSURE".toList "p".toList [] []], []]] :=
  .inside (l := []) (l' := []) (c := [.mk 2 "CLOSURE".toList "p".toList [] []]) (by simp) (.here (l := []) (l' := []))

mutual
/-- No percent sign in the names of the rules and in the formulas of a proof. -/
def Clean : JPS → Prop
  | .mk _ rn f rs cs => '%' ∉ rn ∧ '%' ∉ f ∧ (∀ r ∈ rs, ∀ t ∈ r.2, '%' ∉ t) ∧ CleanLL cs
def CleanL : List JPS → Prop
  | [] => True
  | j :: js => Clean j ∧ CleanL js
def CleanLL : List (List JPS) → Prop
  | [] => True
  | c :: cs => CleanL c ∧ CleanLL cs
end

theorem itoa_clean (n : Nat) : '%' ∉ itoa n := fun h => by
  have := Nat.isDigit_of_mem_toDigits (by decide) (by decide) h
  exact absurd this (by decide)

theorem commas_clean : ∀ {l : List (List Char)}, (∀ t ∈ l, '%' ∉ t) → '%' ∉ commas l
  | [], _ => by simp [commas]
  | [f], h => by simpa [commas] using h
  | f :: g :: l, h => by
    have h1 := h f (by simp)
    have h2 := commas_clean (l := g :: l) fun t ht => h t (by simp [ht])
    rw [commas, List.mem_append, List.mem_append, not_or, not_or]
    exact ⟨⟨h1, by decide⟩, h2⟩
    · simp

theorem resultLine_clean {r : Nat × List (List Char)} (h : ∀ t ∈ r.2, '%' ∉ t) : '%' ∉ resultLine r := by
  unfold resultLine
  simp only [List.mem_append, not_or]
  exact ⟨⟨⟨⟨by decide, itoa_clean _⟩, by decide⟩, commas_clean h⟩, by decide⟩

mutual
theorem toText_clean : ∀ (j : JPS), Clean j → '%' ∉ toText j
  | .mk n rn f rs cs, h => by
    obtain ⟨h1, h2, h3, h4⟩ := h
    simp only [toText, List.mem_append, not_or, List.mem_cons, List.mem_flatten, List.mem_map]
    refine ⟨⟨⟨⟨⟨⟨⟨⟨⟨by decide, itoa_clean n⟩, by decide⟩, h1⟩, by decide⟩, h2⟩, by decide⟩, ?_⟩, by decide⟩, toTextLL_clean cs h4⟩
    rintro ⟨l, ⟨r, hr, rfl⟩, hl⟩
    exact resultLine_clean (h3 r hr) hl
theorem toTextL_clean : ∀ (l : List JPS), CleanL l → '%' ∉ toTextL l
  | [], _ => by simp [toTextL]
  | j :: js, h => by
    rw [toTextL, List.mem_append, not_or]
    exact ⟨toText_clean j h.1, toTextL_clean js h.2⟩
theorem toTextLL_clean : ∀ (l : List (List JPS)), CleanLL l → '%' ∉ toTextLL l
  | [], _ => by simp [toTextLL]
  | c :: cs, h => by
    rw [toTextLL, List.mem_append, not_or]
    exact ⟨toTextL_clean c h.1, toTextLL_clean cs h.2⟩
end

/-- The claim for the main search and the basic output: names without percent signs are enough. -/
theorem C94_basic_partial (oneStep conj bound : Bool) (outcome : Nat → Option (List JPS)) (hc : ∀ k pr, outcome k = some pr → CleanL pr)
    (n : Nat) (e : End) (h : mainSearch ⟨true, oneStep, [basic]⟩ conj bound outcome n 0 = some e) :
    ∃ k, e.closed = (outcome k).isSome ∧ e.out = wanted conj e.closed true [toTextL ((outcome k).getD [])] := by
  obtain ⟨k, h1, h2⟩ := C94_main_partial _ _ _ _ _ _ h
  refine ⟨k, h1, h2 _ rfl ?_⟩
  intro t ht
  rw [List.mem_singleton] at ht
  subst ht
  cases hk : outcome k with
  | none => simp [toTextL]
  | some pr => exact toTextL_clean pr (hc k pr hk)

/-- A proof of two steps: the conjunction of `p`, `not p`. -/
def small : List JPS := [.mk 0 "ALPHA_AND".toList "(p & ~p)".toList [(1, ["p".toList, "~p".toList])] [],
  .mk 1 "CLOSURE".toList "~p".toList [] []]

/-- Non-trivial: a run of two rounds, its verdict and its proof. -/
example : mainSearch ⟨true, false, [basic]⟩ true true (fun k => if k = 1 then some small else none) 5 0 =
    some ⟨true, wanted true true true ["[0] ALPHA_AND : (p & ~p)\n\t-> [1] p, ~p\n\n[1] CLOSURE : ~p\n\n".toList], false⟩ := by decide +kernel

/-- A text with a percent sign followed by a letter is never written as it is. -/
theorem C94_violated_percent (a b : List Char) (c : Char) (ha : '%' ∉ a) (hc : c.isAlpha = true)
    (conj bound oneStep : Bool) (φ : Format P) (pr : List P) (hφ : φ pr = some (a ++ '%' :: c :: b)) (n : Nat) :
    ∃ e, mainSearch ⟨true, oneStep, [φ]⟩ conj bound (fun _ => some pr) (n + 1) 0 = some e ∧ e.closed = true ∧
      e.out ≠ wanted conj true true [a ++ '%' :: c :: b] ∧
      .text ('\n' :: a ++ ['%', '!', c] ++ "(MISSING)".toList ++ printf .text b) ∈ e.out := by
  have hb : c ≠ '!' := by rintro rfl; revert hc; decide
  have hm : [φ].mapM (fun φ => φ pr) = some [a ++ '%' :: c :: b] := by simp [hφ]
  have hp : printf .text ('\n' :: (a ++ '%' :: c :: b)) = '\n' :: a ++ ['%', '!', c] ++ "(MISSING)".toList ++ printf .text b :=
    printf_letter (a := '\n' :: a) (by simp [ha]) hc
  refine ⟨⟨true, .verdict (printResult conj true) :: block [a ++ '%' :: c :: b], false⟩, ?_, rfl, ?_, ?_⟩
  · simp only [mainSearch, printProof_ok hm]
    simp
  · unfold wanted block
    intro e
    simp only [List.map_cons, List.map_nil, hp, Bool.and_self, if_true, List.cons.injEq, List.nil_append, List.cons_append,
      Item.text.injEq, List.append_assoc, List.append_cancel_left_eq, true_and] at e
    exact hb e.2.1.1.symm
  · simp only [block, List.map_cons, List.map_nil, hp]
    simp

theorem printf_digits {m : Mode} (hm : m = .width ∨ m = .precision) {w t : List Char} (hw : ∀ c ∈ w, c.isDigit = true) :
    printf m (w ++ t) = printf m t := by
  induction w with
  | nil => rfl
  | cons c w ih =>
    have hc := hw c (by simp)
    rw [List.cons_append]
    rcases hm with rfl | rfl <;> rw [printf, if_pos hc, ih fun d hd => hw d (by simp [hd])]

/-- The width: digits, the first of which is not read as a flag. -/
theorem printf_width {w t : List Char} (hw : ∀ c ∈ w, c.isDigit = true ∧ isFlag c = false) :
    printf .flags (w ++ t) = printf (if w = [] then .flags else .width) t := by
  cases w with
  | nil => rfl
  | cons c w =>
    have hc := hw c (by simp)
    rw [List.cons_append, printf]
    simp only [hc.1, hc.2, Bool.false_eq_true, if_false, if_true, List.cons_ne_nil]
    exact printf_digits (Or.inl rfl) fun d hd => (hw d (by simp [hd])).1

theorem printf_flags {fl t : List Char} (hf : ∀ c ∈ fl, isFlag c = true) : printf .flags (fl ++ t) = printf .flags t := by
  induction fl with
  | nil => rfl
  | cons c fl ih => rw [List.cons_append, printf, if_pos (hf c (by simp)), ih fun d hd => hf d (by simp [hd])]

/-- **C94**: a percent sign, flags, a width, a precision and a letter are written as one error of `fmt`: the flags and the numbers are lost. -/
theorem C94_directive (fl w p b : List Char) (c : Char) (hf : ∀ x ∈ fl, isFlag x = true) (hw : ∀ x ∈ w, x.isDigit = true ∧ isFlag x = false)
    (hp : ∀ x ∈ p, x.isDigit = true) (hc : c.isAlpha = true) :
    printf .text ('%' :: fl ++ w ++ c :: b) = ['%', '!', c] ++ "(MISSING)".toList ++ printf .text b ∧
    printf .text ('%' :: fl ++ w ++ '.' :: p ++ c :: b) = ['%', '!', c] ++ "(MISSING)".toList ++ printf .text b := by
  obtain ⟨h1, h2, h3, h4⟩ := alpha_not_flag hc
  have hv : verb c = ['%', '!', c] ++ "(MISSING)".toList := by simp [verb, h4]
  rw [← hv]
  constructor
  · rw [List.cons_append, List.cons_append, printf, if_pos rfl, List.append_assoc, printf_flags hf, printf_width hw]
    split <;> rw [printf] <;> simp [h1, h2, h3]
  · rw [List.cons_append, List.cons_append, List.cons_append, printf, if_pos rfl, List.append_assoc, List.append_assoc, printf_flags hf,
      printf_width hw, List.cons_append]
    have e : ∀ m : Mode, m = .flags ∨ m = .width → printf m ('.' :: (p ++ c :: b)) = verb c ++ printf .text b := by
      intro m hm
      have : printf m ('.' :: (p ++ c :: b)) = printf .precision (p ++ c :: b) := by
        rcases hm with rfl | rfl <;> rw [printf] <;> simp [isFlag, show ('.').isDigit = false by decide]
      rw [this, printf_digits (Or.inr rfl) hp, printf]
      simp [h2]
    split
    · exact e _ (Or.inl rfl)
    · exact e _ (Or.inr rfl)

example : printf .text "%-05.2fx%% %".toList = "%!f(MISSING)x% %!(NOVERB)".toList := by decide +kernel

/-- With option `-incr` no verdict is written, whatever the result, the options and the outputs. -/
theorem C94_violated_incr_verdict (o : Opts P) (outcome : Option (List P)) (l : Verdict.Line) :
    Item.verdict l ∉ (incrSearch o outcome).out := by
  have key : ∀ (φs : List (Format P)) (pr : List P), Item.verdict l ∉ (printTexts pr φs).1 := by
    intro φs pr
    induction φs with
    | nil => simp [printTexts]
    | cons φ φs ih =>
      unfold printTexts
      split
      · simp
      · simpa using ih
  have k := key o.formats (outcome.getD [])
  unfold incrSearch printProof
  dsimp only
  split
  · simp
  · split <;> rename_i hh <;> rw [hh] at k <;> simpa using k

/-- With options `-incr` and `-proof` an open tree is announced as a proof, with an empty text. -/
theorem C94_violated_incr_open : (incrSearch ⟨true, false, [basic]⟩ none).closed = false ∧
    (incrSearch ⟨true, false, [basic]⟩ none).out = [.startProof, .text ['\n'], .endProof] := by decide +kernel

/-- With one of the other outputs the program ends with an error after the first line. -/
theorem C94_violated_incr_fatal (φ : List P → List Char) (φs : List (Format P)) :
    (incrSearch ⟨true, false, guarded φ :: φs⟩ none).out = [.startProof] ∧
    (incrSearch ⟨true, false, guarded φ :: φs⟩ none).fatal = true := by
  simp [incrSearch, printProof, printTexts, guarded]

theorem C94_statement_false : ¬ C94_statement := by
  intro h
  have := (h JPS ⟨true, false, [basic]⟩ true true).2 none [[]] rfl
  exact absurd this (by decide +kernel)

/-- The first violation with the basic output: a predicate named `'100%sure'`. -/
example : (mainSearch ⟨true, false, [basic]⟩ true true (fun _ => some [.mk 0 "CLOSURE".toList "~100%sure".toList [] []]) 1 0).map End.out =
    some [.verdict ⟨true, .theorem⟩, .startProof, .text "\n[0] CLOSURE : ~100%!s(MISSING)ure\n\n".toList, .endProof] := by decide +kernel

end Verif.Search.Output
