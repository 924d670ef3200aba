import Verif.Parser.PrintBack
import Verif.AST.Semantics
/-!
# C87: the problem stated by the TPTP output
-/

namespace Verif.Parser
open Verif.Engine (PTm PForm PTy WForm Str updN allNames exNames)
open Verif.AST (Form Term Interp upd forallVars existsVars TVar)
open Verif.AST.Full

/-! ### The meaning of the names -/

/-- The variable with this name and this number is one that is meant by both: the innermost binding of the name has
the number and the innermost binding of the number has the name. -/
def Vis (env : List (String × Nat)) (n : String) (i : Nat) : Prop :=
  env.find? (fun e => e.1 == n) = some (n, i) ∧ env.find? (fun e => e.2 == i) = some (n, i)

section
variable (num : String → Nat)

mutual
/-- The symbols have the numbers `num`, and the names of the variables mean their numbers. -/
def tmNamed (env : List (String × Nat)) : GTerm → Prop
  | .var i n => Vis env n i
  | .mv _ _ _ _ _ => False
  | .fn i n tys args => i = num n ∧ tys = [] ∧ tmNamedL env args
def tmNamedL (env : List (String × Nat)) : List GTerm → Prop
  | [] => True
  | a :: l => tmNamed env a ∧ tmNamedL env l
end

/-- The bindings of a quantifier. -/
def bindNames (vs : List GTypedVar) (env : List (String × Nat)) : List (String × Nat) :=
  vs.foldl (fun env v => (v.name, v.index) :: env) env

mutual
/-- The same for formulas; only equality has type arguments. -/
def named (env : List (String × Nat)) : GForm → Prop
  | .pred _ i n tys args => i = num n ∧ (tys = [] ∨ (n = "=" ∧ args.length = 2)) ∧ tmNamedL num env args
  | .top _ | .bot _ => True
  | .neg _ f => named env f
  | .and _ fs | .or _ fs => namedL env fs
  | .imp _ f g | .equ _ f g => named env f ∧ named env g
  | .all _ vs f | .ex _ vs f => named (bindNames vs env) f
def namedL (env : List (String × Nat)) : List GForm → Prop
  | [] => True
  | f :: l => named env f ∧ namedL env l
end

/-- The structure of names for an interpretation of numbers. -/
def strOfI {E : Type} (I : Interp E) : Str E := ⟨fun s xs => I.fn (num s) [] xs, fun s xs => I.pr (num s) [] xs⟩

end

section
variable {num : String → Nat} {E : Type} {I : Interp E}

/-- The two assignments agree. -/
def Agree (env : List (String × Nat)) (v : String → E) (ρ : Nat → E) : Prop := ∀ n i, Vis env n i → v n = ρ i

theorem Agree.bind {env : List (String × Nat)} {v : String → E} {ρ : Nat → E} (h : Agree env v ρ) (n : String) (i : Nat) (d : E) :
    Agree ((n, i) :: env) (updN v n d) (upd ρ i d) := by
  intro m j hv
  obtain ⟨h1, h2⟩ := hv
  simp only [List.find?_cons] at h1 h2
  by_cases hn : n = m
  · subst hn
    simp only [beq_self_eq_true, Option.some.injEq, Prod.mk.injEq, true_and] at h1
    subst h1
    simp [updN, upd]
  · have hnm : (n == m) = false := by simpa using hn
    have hij : (i == j) = false := by
      cases hij : i == j with
      | false => rfl
      | true =>
        rw [hij] at h2
        simp only [Option.some.injEq, Prod.mk.injEq] at h2
        exact absurd h2.1 hn
    rw [hnm] at h1
    rw [hij] at h2
    have := h m j ⟨h1, h2⟩
    have hji : j ≠ i := by rintro rfl; simp at hij
    simp [updN, upd, Ne.symm hn, hji, this]

mutual
theorem tm_val {env : List (String × Nat)} {v : String → E} {ρ μ : Nat → E} (h : Agree env v ρ) : ∀ a : GTerm, tmNamed num env a →
    PTm.val (strOfI num I) v (gBack a) = Term.eval I ρ μ a.erase
  | .var i n, hn => by
    simp only [tmNamed] at hn
    simp [gBack, PTm.val, GTerm.erase, Term.eval, h n i hn]
  | .mv _ _ _ _ _, hn => by simp [tmNamed] at hn
  | .fn i n tys args, hn => by
    simp only [tmNamed] at hn
    obtain ⟨rfl, rfl, hn⟩ := hn
    simp only [gBack, PTm.val, GTerm.erase, Term.eval, GTy.eraseL, tm_valL (μ := μ) h args hn]
    rfl
theorem tm_valL {env : List (String × Nat)} {v : String → E} {ρ μ : Nat → E} (h : Agree env v ρ) : ∀ as : List GTerm, tmNamedL num env as →
    PTm.valL (strOfI num I) v (gBackL as) = Term.evalL I ρ μ (GTerm.eraseL as)
  | [], _ => rfl
  | a :: as, hn => by
    simp only [tmNamedL] at hn
    simp [gBackL, PTm.valL, GTerm.eraseL, Term.evalL, tm_val (μ := μ) h a hn.1, tm_valL (μ := μ) h as hn.2]
end

theorem all_names {μ : Nat → E} {g : PForm} {f : Form} : ∀ (vs : List GTypedVar) {env : List (String × Nat)} {v : String → E} {ρ : Nat → E},
    Agree env v ρ → (∀ v' ρ', Agree (bindNames vs env) v' ρ' → (g.sat (strOfI num I) v' ↔ Form.holds I μ ρ' f)) →
    (allNames (fun v' => g.sat (strOfI num I) v') (vs.map (·.name)) v ↔
      forallVars (fun ρ' => Form.holds I μ ρ' f) (vs.map GTypedVar.erase) ρ)
  | [], _, v, ρ, h, hf => hf v ρ h
  | w :: vs, env, v, ρ, h, hf => by
    simp only [List.map_cons, allNames, forallVars]
    exact forall_congr' fun d => all_names vs (h.bind w.name w.index d) hf

theorem ex_names {μ : Nat → E} {g : PForm} {f : Form} : ∀ (vs : List GTypedVar) {env : List (String × Nat)} {v : String → E} {ρ : Nat → E},
    Agree env v ρ → (∀ v' ρ', Agree (bindNames vs env) v' ρ' → (g.sat (strOfI num I) v' ↔ Form.holds I μ ρ' f)) →
    (exNames (fun v' => g.sat (strOfI num I) v') (vs.map (·.name)) v ↔
      existsVars (fun ρ' => Form.holds I μ ρ' f) (vs.map GTypedVar.erase) ρ)
  | [], _, v, ρ, h, hf => hf v ρ h
  | w :: vs, env, v, ρ, h, hf => by
    simp only [List.map_cons, exNames, existsVars]
    exact exists_congr fun d => ex_names vs (h.bind w.name w.index d) hf

theorem foldl_and {S : Str E} {v : String → E} : ∀ (l : List PForm) (f : PForm),
    (l.foldl (.bin .and) f).sat S v ↔ f.sat S v ∧ ∀ g ∈ l, g.sat S v
  | [], f => by simp
  | g :: l, f => by simp [foldl_and l, PForm.sat, and_assoc]

theorem foldl_or {S : Str E} {v : String → E} : ∀ (l : List PForm) (f : PForm),
    (l.foldl (.bin .or) f).sat S v ↔ f.sat S v ∨ ∃ g ∈ l, g.sat S v
  | [], f => by simp
  | g :: l, f => by simp [foldl_or l, PForm.sat, or_assoc]

variable {eqI : Nat} (heq : ∀ tys x y, I.pr (num "=") tys [x, y] ↔ x = y)
include heq

mutual
theorem back_sat {μ : Nat → E} : ∀ (f : GForm) {env : List (String × Nat)} {v : String → E} {ρ : Nat → E}, GForm.good eqI f →
    Agree env v ρ → named num env f → ((fBack f).sat (strOfI num I) v ↔ Form.holds I μ ρ f.erase)
  | .pred _ i n tys args, env, v, ρ, _, h, hn => by
    simp only [named] at hn
    obtain ⟨rfl, ht, ha⟩ := hn
    simp only [fBack, PForm.sat, GForm.erase, Form.holds, tm_valL (μ := μ) h args ha]
    rcases ht with rfl | ⟨rfl, hl⟩
    · rfl
    · match args, hl with
      | [a, b], _ =>
        simp only [strOfI, GTerm.eraseL, Term.evalL]
        rw [heq, heq]
  | .top _, _, _, _, _, _, _ => by simp [fBack, PForm.sat, GForm.erase, Form.holds]
  | .bot _, _, _, _, _, _, _ => by simp [fBack, PForm.sat, GForm.erase, Form.holds]
  | .neg _ f, _, _, _, hg, h, hn => by
    simp only [GForm.good] at hg
    simp only [named] at hn
    simp only [fBack, PForm.sat, GForm.erase, Form.holds, back_sat (μ := μ) f hg h hn]
  | .and _ fs, _, v, ρ, hg, h, hn => by
    simp only [GForm.good] at hg
    simp only [named] at hn
    have := back_satL (μ := μ) fs hg.2 h hn
    cases fs with
    | nil => exact absurd rfl hg.1
    | cons f fs =>
      simp only [fBack, fBackL, chain, foldl_and, GForm.erase, Form.holds]
      rw [← this.1]
      simp [fBackL]
  | .or _ fs, _, v, ρ, hg, h, hn => by
    simp only [GForm.good] at hg
    simp only [named] at hn
    have := back_satL (μ := μ) fs hg.2 h hn
    cases fs with
    | nil => exact absurd rfl hg.1
    | cons f fs =>
      simp only [fBack, fBackL, chain, foldl_or, GForm.erase, Form.holds]
      rw [← this.2]
      simp [fBackL]
  | .imp _ f g, _, _, _, hg, h, hn => by
    simp only [GForm.good] at hg
    simp only [named] at hn
    simp only [fBack, PForm.sat, GForm.erase, Form.holds, back_sat (μ := μ) f hg.1 h hn.1, back_sat (μ := μ) g hg.2 h hn.2]
  | .equ _ f g, _, _, _, hg, h, hn => by
    simp only [GForm.good] at hg
    simp only [named] at hn
    simp only [fBack, PForm.sat, GForm.erase, Form.holds, back_sat (μ := μ) f hg.1 h hn.1, back_sat (μ := μ) g hg.2 h hn.2]
  | .all _ vs f, _, _, _, hg, h, hn => by
    simp only [GForm.good] at hg
    simp only [named] at hn
    simp only [fBack, PForm.sat, GForm.erase, Form.holds, List.map_map]
    exact all_names vs h fun v' ρ' h' => back_sat (μ := μ) f hg.2.2.2 h' hn
  | .ex _ vs f, _, _, _, hg, h, hn => by
    simp only [GForm.good] at hg
    simp only [named] at hn
    simp only [fBack, PForm.sat, GForm.erase, Form.holds, List.map_map]
    exact ex_names vs h fun v' ρ' h' => back_sat (μ := μ) f hg.2.2.2 h' hn
theorem back_satL {μ : Nat → E} : ∀ (fs : List GForm) {env : List (String × Nat)} {v : String → E} {ρ : Nat → E}, GForm.goodL eqI fs →
    Agree env v ρ → namedL num env fs →
    ((∀ g ∈ fBackL fs, g.sat (strOfI num I) v) ↔ Form.holdsAll I μ ρ (GForm.eraseL fs)) ∧
    ((∃ g ∈ fBackL fs, g.sat (strOfI num I) v) ↔ Form.holdsAny I μ ρ (GForm.eraseL fs))
  | [], _, _, _, _, _, _ => by simp [fBackL, GForm.eraseL, Form.holdsAll, Form.holdsAny]
  | f :: fs, _, _, _, hg, h, hn => by
    simp only [GForm.goodL] at hg
    simp only [namedL] at hn
    have h1 := back_sat (μ := μ) f hg.1 h hn.1
    have h2 := back_satL (μ := μ) fs hg.2 h hn.2
    simp only [fBackL, GForm.eraseL, Form.holdsAll, Form.holdsAny]
    refine ⟨by simp only [List.forall_mem_cons]; exact and_congr h1 h2.1, ?_⟩
    simp only [List.mem_cons, exists_eq_or_imp]
    exact or_congr h1 h2.2
end

end

/-! ### The statements -/

/-- The number of a formula (`GetIndex`). -/
def gIndex : GForm → Nat
  | .pred k _ _ _ _ | .top k | .bot k | .neg k _ | .and k _ | .or k _ | .imp k _ _ | .equ k _ _ | .all k _ _ | .ex k _ _ => k

/-- `strings.ReplaceAll` of `.`, `=` and `+` (src/Mods/tptp/proof.go:513). -/
def sanitize (pn : List Char) : List Char := pn.map fun c => if c = '.' ∨ c = '=' ∨ c = '+' then '_' else c

/-- One statement (src/Mods/tptp/proof.go:516-517 and 520). -/
def stmtText (name role s : List Char) : List Char :=
  ['f', 'o', 'f', '('] ++ (name ++ (',' :: ' ' :: (role ++ (',' :: ' ' :: (s ++ [')', '.', '\n', '\n'])))))

def axiomName (k : Nat) : List Char := 'a' :: 'x' :: Nat.toDigits 10 k
def rAxiom : List Char := ['a', 'x', 'i', 'o', 'm']
def rConj : List Char := ['c', 'o', 'n', 'j', 'e', 'c', 't', 'u', 'r', 'e']

/-- `makeTheorem` (src/Mods/tptp/proof.go:511-522), if there is no anomaly. -/
def makeTheorem (eqI : Nat) (tyStr : GTy → List Char) (pn : List Char) (axs : List GForm) (c : GForm) : Option (List Char) :=
  if GForm.aritiesL eqI (axs ++ [c]) then
    some (axs.flatMap (fun f => stmtText (axiomName (gIndex f)) rAxiom (GForm.str eqI tyStr f)) ++
      stmtText ('c' :: '_' :: sanitize pn) rConj (GForm.str eqI tyStr c))
  else none

/-! ### Reading the statements -/

/-- What is read from a text. -/
def ReadsFile (s : List Char) (ss : List Stmt) : Prop := ∃ ts, tokens s = some ts ∧ DFile ts ss

/-- There is one reading at most. -/
theorem ReadsFile.unique {s : List Char} {ss ss' : List Stmt} (h : ReadsFile s ss) (h' : ReadsFile s ss') : ss = ss' := by
  obtain ⟨ts, h1, h2⟩ := h
  obtain ⟨ts', h1', h2'⟩ := h'
  rw [h1] at h1'
  cases h1'
  exact C85_unique.2 _ _ _ h2 h2'

theorem CWritten.newline {ts : List Tok} {s : List Char} (h : CWritten ts s) : CWritten ts ('\n' :: s) := by
  cases h with
  | nil h1 h2 =>
    obtain ⟨u, rfl⟩ := h2
    exact .nil (.space (.inr (.inl rfl)) h1) ⟨'\n' :: u, rfl⟩
  | cons h1 h2 h3 h4 h5 h6 =>
    exact CWritten.cons (s := '\n' :: _) (.space (.inr (.inl rfl)) h1) h2 h3 h4 h5 h6

/-- A word as a list of characters. -/
def Word (w : List Char) : Prop := Spell (.lower w) w

theorem Word.frag {w : List Char} (h : Word w) : Frag [.lower w] w := Frag.word h (fun _ hd => hd) (fun _ => trivial)

/-- The tokens of a statement before those that follow. The text between may be empty, or the end of the file. -/
theorem stmt_written {name role s r : List Char} {ts us : List Tok} (hn : Word name) (hr : Word role) (hs : Frag ts s)
    (h : (us = [] ∧ r = []) ∨ CWritten us r) :
    CWritten (.kFof :: .lpar :: .lower name :: .comma :: .lower role :: .comma :: (ts ++ [.rpar, .dot]) ++ us)
      (stmtText name role s ++ r) := by
  have h0 : CWritten us ('\n' :: '\n' :: r) := by
    rcases h with ⟨rfl, rfl⟩ | h
    · exact .nil (.space (.inr (.inl rfl)) (.space (.inr (.inl rfl)) .nil)) ⟨['\n'], rfl⟩
    · exact h.newline.newline
  have h1 : CWritten (.dot :: us) ('.' :: '\n' :: '\n' :: r) :=
    CWritten.cons (s := []) (w := ['.']) .nil (.sym (by simp [symbols])) (by simp [glue]) trivial (fun _ => rfl) h0
  have h2 := CWritten.free (t := .rpar) (w := [')']) rfl (by simp [symbols]) (by simp) h1
  have h3 := hs _ _ (by simp) ⟨_, _, rfl, by simp⟩ h2
  have h4 := CWritten.free (t := .comma) (w := [',']) rfl (by simp [symbols]) (by simp) h3.space
  have h5 := hr.frag _ _ (by simp) ⟨_, _, rfl, by simp⟩ h4
  have h6 := CWritten.free (t := .comma) (w := [',']) rfl (by simp [symbols]) (by simp) h5.space
  have h7 := hn.frag _ _ (by simp) ⟨_, _, rfl, by simp⟩ h6
  have h8 := CWritten.free (t := .lpar) (w := ['(']) rfl (by simp [symbols]) (by simp) h7
  have h9 := CWritten.put (t := .kFof) (w := ['f', 'o', 'f']) (.sym (by simp [symbols])) (by
      intro d r' e; cases e; show ¬ AlphaNum '('; unfold AlphaNum; decide) ⟨_, rfl⟩ (by simp) h8
  simpa [stmtText] using h9

/-- Words that are not keywords: those that begin with two letters no keyword begins with. -/
theorem word_two {a b : Char} {r : List Char} (h1 : 97 ≤ a.toNat) (h2 : a.toNat ≤ 122) (hb : AlphaNum b) (hr : ∀ c ∈ r, AlphaNum c)
    (h : ∀ t w, (t, w) ∈ symbols → w.take 2 ≠ [a, b]) : Word (a :: b :: r) :=
  .lower h1 h2 (fun e he => by rcases List.mem_cons.1 he with rfl | he; exact hb; exact hr e he)
    (fun t ht => h t _ ht (by simp))

theorem symbols_take {a b : Char} (h : (symbols.all fun p => decide (p.2.take 2 ≠ [a, b])) = true) :
    ∀ t w, (t, w) ∈ symbols → w.take 2 ≠ [a, b] := by
  intro t w hm
  have := List.all_eq_true.1 h (t, w) hm
  simpa using this

theorem word_axiom (k : Nat) : Word (axiomName k) := by
  refine word_two (by decide) (by decide) (by unfold AlphaNum; decide) (fun c hc => ?_) (symbols_take (by decide))
  have := Nat.isDigit_of_mem_toDigits (by decide) (by decide) hc
  simp only [Char.isDigit, Bool.and_eq_true, decide_eq_true_eq, ge_iff_le] at this
  exact .inr (.inr (.inl ⟨by simpa [Char.le_def, UInt32.le_iff_toNat_le] using this.1, by simpa [Char.le_def, UInt32.le_iff_toNat_le] using this.2⟩))

theorem word_rAxiom : Word rAxiom :=
  word_two (by decide) (by decide) (by unfold AlphaNum; decide) (by unfold AlphaNum; decide) (symbols_take (by decide))

theorem word_rConj : Word rConj :=
  word_two (by decide) (by decide) (by unfold AlphaNum; decide) (by unfold AlphaNum; decide) (symbols_take (by decide))

/-- The name of the conjecture is a word if that of the file has only letters, digits, `_`, `.`, `=` and `+`. -/
theorem word_conj {pn : List Char} (h : ∀ c ∈ pn, AlphaNum c ∨ c = '.' ∨ c = '=' ∨ c = '+') : Word ('c' :: '_' :: sanitize pn) := by
  refine word_two (by decide) (by decide) (by unfold AlphaNum; decide) (fun c hc => ?_) (symbols_take (by decide))
  simp only [sanitize, List.mem_map] at hc
  obtain ⟨d, hd, rfl⟩ := hc
  split
  · unfold AlphaNum; decide
  · rename_i hn
    rcases h d hd with h | h
    · exact h
    · exact absurd h hn

section
variable {eqI : Nat} {tyStr : GTy → List Char}

mutual
theorem tm_arities : ∀ a : GTerm, GTerm.good eqI a → GTerm.arities eqI a = true
  | .var _ _, _ => rfl
  | .mv _ _ _ _ _, _ => rfl
  | .fn i n tys args, h => by
    simp only [GTerm.good] at h
    simp [GTerm.arities, arityOk, h.1, tms_arities args h.2.2.2]
theorem tms_arities : ∀ as : List GTerm, GTerm.goodL eqI as → GTerm.aritiesL eqI as = true
  | [], _ => rfl
  | a :: as, h => by
    simp only [GTerm.goodL] at h
    simp [GTerm.aritiesL, tm_arities a h.1, tms_arities as h.2]
end

mutual
theorem form_arities : ∀ f : GForm, GForm.good eqI f → GForm.arities eqI f = true
  | .pred _ i n tys args, h => by
    simp only [GForm.good] at h
    rcases h with ⟨rfl, _, hl, ha⟩ | ⟨hi, _, _, ha⟩
    · simp [GForm.arities, arityOk, hl, tms_arities args ha]
    · simp [GForm.arities, arityOk, hi, tms_arities args ha]
  | .top _, _ => rfl
  | .bot _, _ => rfl
  | .neg _ f, h => by simp only [GForm.good] at h; simpa [GForm.arities] using form_arities f h
  | .and _ fs, h | .or _ fs, h => by simp only [GForm.good] at h; simpa [GForm.arities] using forms_arities fs h.2
  | .imp _ f g, h | .equ _ f g, h => by
    simp only [GForm.good] at h
    simp [GForm.arities, form_arities f h.1, form_arities g h.2]
  | .all _ _ f, h | .ex _ _ f, h => by simp only [GForm.good] at h; simpa [GForm.arities] using form_arities f h.2.2.2
theorem forms_arities : ∀ fs : List GForm, GForm.goodL eqI fs → GForm.aritiesL eqI fs = true
  | [], _ => rfl
  | f :: fs, h => by
    simp only [GForm.goodL] at h
    simp [GForm.aritiesL, form_arities f h.1, forms_arities fs h.2]
end

theorem goodL_iff : ∀ fs : List GForm, GForm.goodL eqI fs ↔ ∀ f ∈ fs, GForm.good eqI f
  | [] => by simp [GForm.goodL]
  | f :: fs => by simp [GForm.goodL, goodL_iff fs]

/-- The statements of the axioms and the conjecture. -/
def stmts (pn : List Char) (axs : List GForm) (c : GForm) : List Stmt :=
  axs.map (fun f => .form (strOf (axiomName (gIndex f))) "axiom" (fBack f)) ++
    [.form (strOf ('c' :: '_' :: sanitize pn)) "conjecture" (fBack c)]

theorem theorem_written {pn : List Char} (hp : Word ('c' :: '_' :: sanitize pn)) {c : GForm} (hc : GForm.good eqI c) :
    ∀ (axs : List GForm), (∀ f ∈ axs, GForm.good eqI f) →
    ∃ ts, CWritten ts (axs.flatMap (fun f => stmtText (axiomName (gIndex f)) rAxiom (GForm.str eqI tyStr f)) ++
      stmtText ('c' :: '_' :: sanitize pn) rConj (GForm.str eqI tyStr c)) ∧ DFile ts (stmts pn axs c) ∧
      ∃ ts', ts = .kFof :: ts'
  | [], _ => by
    obtain ⟨us, h⟩ := form_ok (tyStr := tyStr) c hc
    have h1 := stmt_written hp word_rConj h.frag (us := []) (r := []) (.inl ⟨rfl, rfl⟩)
    rw [List.append_nil] at h1
    refine ⟨_, by simpa using h1, ?_, _, rfl⟩
    have h2 : DFile _ _ := .cons (.fof (t := .lower ('c' :: '_' :: sanitize pn)) (r := rConj) rfl h.logic) .nil
    simpa [stmts, show strOf rConj = "conjecture" from rfl] using h2
  | f :: axs, hg => by
    obtain ⟨us, h⟩ := form_ok (tyStr := tyStr) f (hg f (by simp))
    obtain ⟨ts, h1, h2, _⟩ := theorem_written hp hc axs (fun g h => hg g (by simp [h]))
    have h3 := stmt_written (word_axiom (gIndex f)) word_rAxiom h.frag (.inr h1)
    refine ⟨_, by simpa using h3, ?_, _, rfl⟩
    have h4 := DFile.cons (.fof (t := .lower (axiomName (gIndex f))) (r := rAxiom) rfl h.logic) h2
    simpa [stmts, show strOf rAxiom = "axiom" from rfl] using h4

/-- The statement that is read has the role and the meaning of the formula, for the names `num` of the symbols. -/
def Same (num : String → Nat) (role : String) (f : GForm) : Stmt → Prop
  | .form _ r g => r = role ∧ ∀ {E : Type} (I : Interp E), (∀ tys x y, I.pr (num "=") tys [x, y] ↔ x = y) →
      ∀ (v : String → E) (μ ρ : Nat → E), (g.sat (strOfI num I) v ↔ Form.holds I μ ρ f.erase)
  | .incl _ => False

/-- The statements are those of the problem. -/
def SameAll (num : String → Nat) (c : GForm) : List GForm → List Stmt → Prop
  | [], [s] => Same num "conjecture" c s
  | f :: fs, s :: ss => Same num "axiom" f s ∧ SameAll num c fs ss
  | _, _ => False

theorem stmts_same {num : String → Nat} {pn : List Char} {c : GForm} (hc : GForm.good eqI c) (hn : named num [] c) :
    ∀ axs : List GForm, (∀ f ∈ axs, GForm.good eqI f ∧ named num [] f) → SameAll num c axs (stmts pn axs c)
  | [], _ => by
    simp only [stmts, List.map_nil, List.nil_append, SameAll, Same, true_and]
    exact fun I heq v μ ρ => back_sat heq c hc (fun _ _ h => by simp [Vis] at h) hn
  | f :: axs, h => by
    have hf := h f (by simp)
    refine ⟨⟨rfl, fun I heq v μ ρ => back_sat heq f hf.1 (fun _ _ h => by simp [Vis] at h) hf.2⟩, ?_⟩
    exact stmts_same hc hn axs (fun g hg => h g (by simp [hg]))

end

/-- **C87 (the full claim).** The axioms and the conjecture that begin a TPTP output are read, in one way only, as
those of the problem. -/
def C87_statement : Prop :=
  ∀ (eqI : Nat) (tyStr : GTy → List Char) (num : String → Nat) (pn : List Char) (axs : List GForm) (c : GForm),
    num "=" = eqI → (∀ f ∈ axs, named num [] f) → named num [] c →
    ∃ text ss, makeTheorem eqI tyStr pn axs c = some text ∧ ReadsFile text ss ∧ SameAll num c axs ss

/-- **C87 (partial).** This holds for formulas with words as names and without empty connectives in which each
quantifier is followed by a formula that is not printed with a binary connective, and file names with letters, digits and
`_`, `.`, `=`, `+`. Missing: the cases of the violations. -/
theorem C87_partial {eqI : Nat} (tyStr : GTy → List Char) {num : String → Nat} {pn : List Char} {axs : List GForm} {c : GForm}
    (hp : ∀ d ∈ pn, AlphaNum d ∨ d = '.' ∨ d = '=' ∨ d = '+')
    (hg : ∀ f ∈ axs, GForm.good eqI f ∧ named num [] f) (hc : GForm.good eqI c ∧ named num [] c) :
    ∃ text ss, makeTheorem eqI tyStr pn axs c = some text ∧ ReadsFile text ss ∧ (∀ ss', ReadsFile text ss' → ss' = ss) ∧
      SameAll num c axs ss := by
  obtain ⟨ts, h1, h2, ts', rfl⟩ := theorem_written (tyStr := tyStr) (word_conj hp) hc.1 axs (fun f hf => (hg f hf).1)
  have hr : ReadsFile _ (stmts pn axs c) := ⟨_, (C84_partial _ _ h1 (by intro t us e; cases e; trivial)).1, h2⟩
  refine ⟨_, _, ?_, hr, fun ss' h => h.unique hr, stmts_same hc.1 hc.2 axs hg⟩
  rw [makeTheorem, if_pos]
  rw [forms_arities]
  rw [goodL_iff]
  intro f hf
  rcases List.mem_append.1 hf with hf | hf
  · exact (hg f hf).1
  · cases List.mem_singleton.1 hf; exact hc.1

/-! ### Concrete cases -/

/-- Numbers of some names. -/
def num0 (s : String) : Nat := if s = "=" then 0 else if s = "p" then 1 else if s = "q" then 2 else if s = "a" then 3 else 4

/-- The type of individuals. -/
def ti : GTy := .constr "$i" []

theorem word1 {a : Char} (h1 : 97 ≤ a.toNat) (h2 : a.toNat ≤ 122) (h : (symbols.all fun p => decide (p.2 ≠ [a])) = true) : Word [a] :=
  .lower h1 h2 (fun e he => by simp at he) (fun t ht => by have := List.all_eq_true.1 h (t, [a]) ht; simp at this)

/-- A problem that meets the hypotheses of `C87_partial`: `∀ X. ¬ (p(X) ∧ X = a ∧ q)` and `(p(a) ∧ ∃ Y. p(Y)) ⇒ ¬ q`. -/
def ex1 : GForm := .all 7 [⟨"X", 1, ti⟩] (.neg 8 (.and 9 [.pred 10 1 "p" [] [.var 1 "X"],
  .pred 11 0 "=" [ti] [.var 1 "X", .fn 3 "a" [] []], .pred 12 2 "q" [] []]))
def ex2 : GForm := .imp 13 (.and 14 [.pred 15 1 "p" [] [.fn 3 "a" [] []], .ex 16 [⟨"Y", 2, ti⟩] (.pred 17 1 "p" [] [.var 2 "Y"])])
  (.neg 18 (.pred 19 2 "q" [] []))

theorem lw_p : LowerWord "p" := by unfold LowerWord; exact word1 (a := 'p') (by decide) (by decide) (by decide)
theorem lw_q : LowerWord "q" := by unfold LowerWord; exact word1 (a := 'q') (by decide) (by decide) (by decide)
theorem lw_a : LowerWord "a" := by unfold LowerWord; exact word1 (a := 'a') (by decide) (by decide) (by decide)
theorem uw_X : UpperWord "X" := by
  unfold UpperWord; exact .upper (d := 'X') (r := []) (by decide) (by decide) (by simp)
theorem uw_Y : UpperWord "Y" := by
  unfold UpperWord; exact .upper (d := 'Y') (r := []) (by decide) (by decide) (by simp)

example : ∃ text ss, makeTheorem 0 (fun _ => []) "SYN001+1.p".toList [ex1] ex2 = some text ∧ ReadsFile text ss ∧
    SameAll num0 ex2 [ex1] ss := by
  obtain ⟨t, ss, h1, h2, _, h3⟩ := C87_partial (eqI := 0) (num := num0) (pn := "SYN001+1.p".toList) (axs := [ex1]) (c := ex2) (fun _ => [])
    (by unfold AlphaNum; decide)
    (by simp [ex1, GForm.good, GForm.goodL, GTerm.goodL, GTerm.good, lw_p, lw_q, lw_a, uw_X, isUnit, named, namedL, tmNamed, tmNamedL, num0, Vis, bindNames])
    (by simp [ex2, GForm.good, GForm.goodL, GTerm.goodL, GTerm.good, lw_p, lw_q, lw_a, uw_Y, isUnit, named, namedL, tmNamed, tmNamedL, num0, Vis, bindNames])
  exact ⟨t, ss, h1, h2, h3⟩

example : (makeTheorem 0 (fun _ => []) "SYN001+1.p".toList [ex1] ex2).map String.ofList =
    some "fof(ax7, axiom, ! [X]: ~(p(X) & (X = a) & q)).\n\nfof(c_SYN001_1_p, conjecture, (p(a) & (? [Y]: p(Y))) => ~q).\n\n" := by
  decide +kernel

/-! ### Violations -/

/-- An interpretation with two elements: `p` is true, `q` and all the others are true of `true`. -/
def I2 : Interp Bool := ⟨fun _ _ _ => true, fun i _ xs => match i, xs with
  | 0, [x, y] => x = y
  | 1, _ => True
  | _, xs => xs = [true]⟩

/-- **C87, violated.** The conjecture `∀ X. (p(X) ∧ q(X))` is printed as `! [X]: p(X) & q(X)`, which is read as
`(∀ X. p(X)) ∧ q(X)`. -/
theorem C87_violated_scope :
    let f : GForm := .all 0 [⟨"X", 0, ti⟩] (.and 1 [.pred 2 1 "p" [] [.var 0 "X"], .pred 3 2 "q" [] [.var 0 "X"]])
    ∃ text ss, named num0 [] f ∧ makeTheorem 0 (fun _ => []) ['x'] [] f = some text ∧
      text = "fof(c_x, conjecture, ! [X]: p(X) & q(X)).\n\n".toList ∧ ReadsFile text ss ∧ ¬ SameAll num0 f [] ss := by
  intro f
  refine ⟨_, [.form "c_x" "conjecture" (.bin .and (.all [("X", .fn "$i" [])] (.pred "p" [.var "X"])) (.pred "q" [.var "X"]))],
    by simp [f, named, namedL, tmNamedL, tmNamed, num0, Vis, bindNames], by decide +kernel, rfl, ⟨_, (by decide +kernel : _ = some
      [.kFof, .lpar, .lower ['c', '_', 'x'], .comma, .lower rConj, .comma, .all, .lbrk, .upper ['X'], .rbrk, .colon,
       .lower ['p'], .lpar, .upper ['X'], .rpar, .and, .lower ['q'], .lpar, .upper ['X'], .rpar, .rpar, .dot]), ?_⟩, ?_⟩
  · have h := DFile.cons (DStmt.fof (t := .lower ['c', '_', 'x']) (r := rConj) rfl
      (D.logicAnd (.and2 (.unit1 (.all (.one (w := ['X'])) (.unit1 (.atom (t := .lower ['p']) rfl (.one (.var (w := ['X'])))))))
        (.unit1 (.atom (t := .lower ['q']) rfl (.one (.var (w := ['X'])))))))) .nil
    exact h
  · intro h
    have := h.2 I2 (by intro tys x y; simp [I2, num0]) (fun _ => true) (fun _ => true) (fun _ => true)
    simp [f, PForm.sat, PTm.valL, PTm.val, strOfI, I2, num0, allNames, GForm.erase, GForm.eraseL, GTerm.eraseL, GTerm.erase,
      Form.holds, Form.holdsAll, forallVars, GTypedVar.erase, Term.evalL, Term.eval, upd] at this

/-- **C87, violated.** A constant with a capital (written `'A'` in the problem) is printed without quotes and read as a
variable. -/
theorem C87_violated_name :
    let f : GForm := .pred 0 2 "q" [] [.fn 4 "A" [] []]
    ∃ text ss, named num0 [] f ∧ makeTheorem 0 (fun _ => []) ['x'] [] f = some text ∧
      text = "fof(c_x, conjecture, q(A)).\n\n".toList ∧ ReadsFile text ss ∧ ¬ SameAll num0 f [] ss := by
  intro f
  refine ⟨_, [.form "c_x" "conjecture" (.pred "q" [.var "A"])],
    by simp [f, named, tmNamedL, tmNamed, num0], by decide +kernel, rfl, ⟨_, (by decide +kernel : _ = some
      [.kFof, .lpar, .lower ['c', '_', 'x'], .comma, .lower rConj, .comma, .lower ['q'], .lpar, .upper ['A'], .rpar,
       .rpar, .dot]), ?_⟩, ?_⟩
  · have h := DFile.cons (DStmt.fof (t := .lower ['c', '_', 'x']) (r := rConj) rfl
      (D.logicUnitary (.atom (t := .lower ['q']) rfl (.one (.var (w := ['A'])))))) .nil
    exact h
  · intro h
    have := h.2 I2 (by intro tys x y; simp [I2, num0]) (fun _ => false) (fun _ => true) (fun _ => true)
    simp [f, PForm.sat, PTm.valL, PTm.val, strOfI, I2, num0, GForm.erase, GTerm.eraseL, GTerm.erase, GTy.eraseL,
      Form.holds, Term.evalL, Term.eval] at this

/-- **C87, violated.** The output for a file whose name has a dash (`SYN001-1.p`) is not read at all, as the name of
the conjecture is not quoted. -/
theorem C87_violated_file :
    ∃ text, named num0 [] (.pred 0 2 "q" [] []) ∧ makeTheorem 0 (fun _ => []) "s-1.p".toList [] (.pred 0 2 "q" [] []) = some text ∧
      text = "fof(c_s-1_p, conjecture, q).\n\n".toList ∧ ¬ ∃ ss, ReadsFile text ss := by
  refine ⟨_, by simp [named, tmNamedL, num0], by decide +kernel, rfl, ?_⟩
  rintro ⟨ss, ts, h, hd⟩
  cases hd with
  | nil => revert h; decide +kernel
  | @cons w _ w' _ hs hd =>
    have h2 : ∃ r, tokens "fof(c_s-1_p, conjecture, q).\n\n".toList = some (.kFof :: .lpar :: .lower ['c', '_', 's'] :: .int ['-', '1'] :: r) :=
      ⟨[], by decide +kernel⟩
    obtain ⟨r, h2⟩ := h2
    rw [h] at h2
    cases hs <;> simp at h2

theorem C87_statement_false : ¬ C87_statement := by
  intro h
  obtain ⟨text, hn, h1, _, h2⟩ := C87_violated_file
  obtain ⟨text', ss, h3, h4, _⟩ := h 0 (fun _ => []) num0 _ [] _ rfl (by simp) hn
  rw [h1] at h3
  cases h3
  exact h2 ⟨ss, h4⟩

end Verif.Parser
