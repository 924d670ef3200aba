import Verif.Parser.Lex
import Verif.Engine.Elab
/-!
# The grammar of first-order formulas (`src/Parser/tptp_parse.y`)

`D` has one rule for each rule of the grammar between the lines 358 and 471, with its action. `pLogic` is a
parser by recursive descent for it; it is not code of the repository (the parser there is made by goyacc) but
the means to prove that derivations are unique (C85).

Simplifications: rules with one alternative that only pass on the value are contracted; the annotations after a
formula (src/Parser/tptp_parse.y:154-156) are not modelled; the TFF half of the grammar is not modelled.
-/

namespace Verif.Parser
open Verif.Engine (PTm PForm PTy mkPRevImp mkPXor mkPNotOr mkPNotAnd)

def strOf (w : List Char) : String := String.ofList w

/-- The tokens that stand for a symbol: `functor` (with `atomic_word`, src/Parser/tptp_parse.y:484-488 and 563-565)
and `defined_functor` (src/Parser/tptp_parse.y:490-494 and 567-568). -/
def tokSym : Tok → Option String
  | .lower w => some (strOf w)
  | .squoted w => some (strOf w)
  | .dword w => some (strOf w)
  | _ => none

/-- `defined_term` with `number` (src/Parser/tptp_parse.y:502-504 and 570-573); `MkDefinedConst`
(src/Parser/psyntax.go:210-212) and `MkFunConst` (src/Parser/psyntax.go:206-208). -/
def tokConst : Tok → Option PTm
  | .int w => some (.fn (strOf w) [] (some (.fn "$int" [])))
  | .rat w => some (.fn (strOf w) [] (some (.fn "$rat" [])))
  | .real w => some (.fn (strOf w) [] (some (.fn "$real" [])))
  | .distinct w => some (.fn (strOf w) [] none)
  | _ => none

mutual
/-- `fof_term` (src/Parser/tptp_parse.y:446-471). -/
inductive DTerm : List Tok → PTm → Prop
  | var {w} : DTerm [.upper w] (.var (strOf w))
  | const {t s} : tokSym t = some s → DTerm [t] (.fn s [] none)
  | defined {t c} : tokConst t = some c → DTerm [t] c
  | app {t s w as} : tokSym t = some s → DArgs w as → DTerm (t :: .lpar :: (w ++ [.rpar])) (.fn s as none)
/-- `fof_arguments` (src/Parser/tptp_parse.y:461-463). -/
inductive DArgs : List Tok → List PTm → Prop
  | one {w a} : DTerm w a → DArgs w [a]
  | cons {w a w' as} : DTerm w a → DArgs w' as → DArgs (w ++ .comma :: w') (a :: as)
end

/-- `fof_variable_list` (src/Parser/tptp_parse.y:414-418); `MkDefPAtomicType` is `$i`. -/
inductive DVars : List Tok → List (String × PTy) → Prop
  | one {w} : DVars [.upper w] [(strOf w, .fn "$i" [])]
  | cons {w r vs} : DVars r vs → DVars (.upper w :: .comma :: r) ((strOf w, .fn "$i" []) :: vs)

/-- The actions of `fof_binary_nonassoc` (src/Parser/tptp_parse.y:370-376). -/
def nonassoc : Tok → Option (PForm → PForm → PForm)
  | .equiv => some (.bin .equ)
  | .imply => some (.bin .imp)
  | .leftImply => some mkPRevImp
  | .xor => some mkPXor
  | .notVline => some mkPNotOr
  | .notAnd => some mkPNotAnd
  | _ => none

/-- The nonterminals for formulas. -/
inductive Cat where
  | unitary | unary | unit | or | and | logic

/-- src/Parser/tptp_parse.y:358-439. -/
inductive D : Cat → List Tok → PForm → Prop
  /-- `fof_quantified_formula` (408-412) -/
  | all {vs ws w f} : DVars vs ws → D .unit w f → D .unitary (.all :: .lbrk :: (vs ++ .rbrk :: .colon :: w)) (.all ws f)
  | ex {vs ws w f} : DVars vs ws → D .unit w f → D .unitary (.ex :: .lbrk :: (vs ++ .rbrk :: .colon :: w)) (.ex ws f)
  /-- `fof_plain_atomic_formula` and `fof_defined_plain_formula` (424-436) -/
  | prop {t s} : tokSym t = some s → D .unitary [t] (.pred s [])
  | atom {t s w as} : tokSym t = some s → DArgs w as → D .unitary (t :: .lpar :: (w ++ [.rpar])) (.pred s as)
  | top : D .unitary [.true] .top
  | bot : D .unitary [.false] .bot
  /-- `fof_defined_infix_formula` (438) -/
  | eq {w a w' b} : DTerm w a → DTerm w' b → D .unitary (w ++ .eq :: w') (.pred "=" [a, b])
  /-- `fof_unitary_formula` (405) -/
  | paren {w f} : D .logic w f → D .unitary (.lpar :: (w ++ [.rpar])) f
  /-- `fof_unary_formula`, `fof_infix_unary` (390-397) -/
  | not {w f} : D .unit w f → D .unary (.not :: w) (.neg f)
  | neq {w a w' b} : DTerm w a → DTerm w' b → D .unary (w ++ .neq :: w') (.neg (.pred "=" [a, b]))
  /-- `fof_unit_formula` (399-401) -/
  | unit1 {w f} : D .unitary w f → D .unit w f
  | unit2 {w f} : D .unary w f → D .unit w f
  /-- `fof_or_formula`, `fof_and_formula` (382-388) -/
  | or2 {w f w' g} : D .unit w f → D .unit w' g → D .or (w ++ .vline :: w') (.bin .or f g)
  | or3 {w f w' g} : D .or w f → D .unit w' g → D .or (w ++ .vline :: w') (.bin .or f g)
  | and2 {w f w' g} : D .unit w f → D .unit w' g → D .and (w ++ .and :: w') (.bin .and f g)
  | and3 {w f w' g} : D .and w f → D .unit w' g → D .and (w ++ .and :: w') (.bin .and f g)
  /-- `fof_logic_formula`, `fof_binary_formula`, `fof_binary_assoc` (361-380) -/
  | nonassoc {w f t c w' g} : D .unit w f → nonassoc t = some c → D .unit w' g → D .logic (w ++ t :: w') (c f g)
  | logicOr {w f} : D .or w f → D .logic w f
  | logicAnd {w f} : D .and w f → D .logic w f
  | logicUnary {w f} : D .unary w f → D .logic w f
  | logicUnitary {w f} : D .unitary w f → D .logic w f

/-! ### A parser by recursive descent -/

mutual
def pTerm : Nat → List Tok → Option (PTm × List Tok)
  | 0, _ => none
  | _ + 1, [] => none
  | n + 1, t :: r =>
    match tokSym t with
    | some s =>
      match r with
      | .lpar :: r' =>
        match pArgs n r' with
        | some (as, .rpar :: r'') => some (.fn s as none, r'')
        | _ => none
      | r => some (.fn s [] none, r)
    | none =>
      match tokConst t with
      | some c => some (c, r)
      | none =>
        match t with
        | .upper w => some (.var (strOf w), r)
        | _ => none
def pArgs : Nat → List Tok → Option (List PTm × List Tok)
  | 0, _ => none
  | n + 1, r =>
    match pTerm n r with
    | none => none
    | some (a, .comma :: r') => (pArgs n r').map fun (as, r'') => (a :: as, r'')
    | some (a, r') => some ([a], r')
end

def pVars : List Tok → Option (List (String × PTy) × List Tok)
  | .upper w :: .comma :: r => (pVars r).map fun (vs, r') => ((strOf w, .fn "$i" []) :: vs, r')
  | .upper w :: r => some ([(strOf w, .fn "$i" [])], r)
  | _ => none

/-- The variables with the brackets and the colon. -/
def pBound : List Tok → Option (List (String × PTy) × List Tok)
  | .lbrk :: r =>
    match pVars r with
    | some (vs, .rbrk :: .colon :: r') => some (vs, r')
    | _ => none
  | _ => none

/-- A term as a formula: its first token stands for a symbol. -/
def asAtom (t : Tok) : PTm → Option PForm
  | .fn s as _ => if (tokSym t).isSome then some (.pred s as) else none
  | .var _ => none

def pAtom (n : Nat) (ts : List Tok) : Option (PForm × List Tok) :=
  match pTerm n ts with
  | none => none
  | some (a, .eq :: r) => (pTerm n r).map fun (b, r') => (.pred "=" [a, b], r')
  | some (a, .neq :: r) => (pTerm n r).map fun (b, r') => (.neg (.pred "=" [a, b]), r')
  | some (a, r) => (ts.head?.bind fun t => asAtom t a).map fun f => (f, r)

mutual
def pUnit : Nat → List Tok → Option (PForm × List Tok)
  | 0, _ => none
  | n + 1, ts =>
    match ts with
    | .not :: r => (pUnit n r).map fun (f, r') => (.neg f, r')
    | .true :: r => some (.top, r)
    | .false :: r => some (.bot, r)
    | .all :: r =>
      match pBound r with
      | some (vs, r') => (pUnit n r').map fun (f, r'') => (.all vs f, r'')
      | none => none
    | .ex :: r =>
      match pBound r with
      | some (vs, r') => (pUnit n r').map fun (f, r'') => (.ex vs f, r'')
      | none => none
    | .lpar :: r =>
      match pLogic n r with
      | some (f, .rpar :: r') => some (f, r')
      | _ => none
    | ts => pAtom n ts
def pLogic : Nat → List Tok → Option (PForm × List Tok)
  | 0, _ => none
  | n + 1, ts =>
    match pUnit n ts with
    | none => none
    | some (f, r) => pRest n f r
/-- What follows a first unit formula. -/
def pRest : Nat → PForm → List Tok → Option (PForm × List Tok)
  | 0, _, _ => none
  | _ + 1, f, [] => some (f, [])
  | n + 1, f, t :: r =>
    match t with
    | .vline => pOrs n f r
    | .and => pAnds n f r
    | t =>
      match nonassoc t with
      | some c => (pUnit n r).map fun (g, r') => (c f g, r')
      | none => some (f, t :: r)
def pOrs : Nat → PForm → List Tok → Option (PForm × List Tok)
  | 0, _, _ => none
  | n + 1, f, r =>
    match pUnit n r with
    | none => none
    | some (g, .vline :: r') => pOrs n (.bin .or f g) r'
    | some (g, r') => some (.bin .or f g, r')
def pAnds : Nat → PForm → List Tok → Option (PForm × List Tok)
  | 0, _, _ => none
  | n + 1, f, r =>
    match pUnit n r with
    | none => none
    | some (g, .and :: r') => pAnds n (.bin .and f g) r'
    | some (g, r') => some (.bin .and f g, r')
end

/-! ### Each derivation is found -/

/-- For each large enough number. -/
def Ev (P : Nat → Prop) : Prop := ∃ N, ∀ n, N ≤ n → P n

theorem Ev.mono {P Q : Nat → Prop} (h : Ev P) (hq : ∀ n, P n → Q n) : Ev Q := by
  obtain ⟨N, hN⟩ := h; exact ⟨N, fun n hn => hq n (hN n hn)⟩

theorem Ev.and {P Q : Nat → Prop} (h : Ev P) (h' : Ev Q) : Ev fun n => P n ∧ Q n := by
  obtain ⟨N, hN⟩ := h; obtain ⟨M, hM⟩ := h'
  exact ⟨N + M, fun n hn => ⟨hN n (by omega), hM n (by omega)⟩⟩

theorem Ev.succ {P Q : Nat → Prop} (h : Ev P) (hq : ∀ n, P n → Q (n + 1)) : Ev Q := by
  obtain ⟨N, hN⟩ := h
  refine ⟨N + 1, fun n hn => ?_⟩
  obtain ⟨m, rfl⟩ : ∃ m, n = m + 1 := ⟨n - 1, by omega⟩
  exact hq m (hN m (by omega))

theorem Ev.const {P : Nat → Prop} (h : ∀ n, P (n + 1)) : Ev P :=
  ⟨1, fun n hn => by obtain ⟨m, rfl⟩ : ∃ m, n = m + 1 := ⟨n - 1, by omega⟩; exact h m⟩

theorem Ev.unique {α : Type} {f : Nat → Option α} {x y : α} (h : Ev fun n => f n = some x) (h' : Ev fun n => f n = some y) :
    x = y := by
  obtain ⟨N, hN⟩ := h.and h'
  have := hN N (Nat.le_refl N)
  have e := this.1.symm.trans this.2
  exact Option.some.inj e

/-- The list does not begin with one of the tokens. -/
def NotHead (l : List Tok) (r : List Tok) : Prop := ∀ t r', r = t :: r' → t ∉ l

theorem tokSym_const {t : Tok} {c : PTm} (h : tokConst t = some c) : tokSym t = none := by
  cases t <;> simp [tokConst, tokSym] at h ⊢

theorem pTerm_sym {t : Tok} {s : String} {r : List Tok} (n : Nat) (h : tokSym t = some s) (hr : NotHead [.lpar] r) :
    pTerm (n + 1) (t :: r) = some (.fn s [] none, r) := by
  simp only [pTerm, h]
  split
  · rename_i r'
    exact absurd (List.mem_singleton.2 rfl) (hr .lpar r' rfl)
  · rfl

mutual
theorem pTerm_complete : ∀ {w : List Tok} {a : PTm}, DTerm w a → ∀ (r : List Tok), NotHead [.lpar] r →
    Ev fun n => pTerm n (w ++ r) = some (a, r)
  | _, _, .var, r, _ => Ev.const fun n => by simp [pTerm, tokSym, tokConst]
  | _, _, .const h, r, hr => Ev.const fun n => pTerm_sym n h hr
  | _, _, .defined h, r, _ => Ev.const fun n => by simp [pTerm, h, tokSym_const h]
  | _, _, .app (w := w) (as := as) h h', r, _ =>
    (pArgs_complete h' (.rpar :: r) (by intro t r' h; cases h; simp)).succ fun n hn => by
      simp only [List.cons_append, List.append_assoc, List.nil_append, pTerm, h, hn]
theorem pArgs_complete : ∀ {w : List Tok} {as : List PTm}, DArgs w as → ∀ (r : List Tok), NotHead [.lpar, .comma] r →
    Ev fun n => pArgs n (w ++ r) = some (as, r)
  | _, _, .one h, r, hr =>
    (pTerm_complete h r (fun t r' e => by have := hr t r' e; simp at this ⊢; exact this.1)).succ fun n hn => by
      simp only [pArgs, hn]
      split
      · rename_i heq; cases heq
      · rename_i r' heq
        cases heq
        exact absurd (by simp) (hr .comma r' rfl)
      · rename_i heq; cases heq; rfl
  | _, _, .cons (w' := w') h h', r, hr =>
    ((pTerm_complete h (.comma :: (w' ++ r)) (by intro t r' h; cases h; simp)).and (pArgs_complete h' r hr)).succ
      fun n hn => by
        simp only [List.append_assoc, List.cons_append, pArgs, hn.1, hn.2, Option.map_some]
end

theorem pVars_complete : ∀ {w : List Tok} {vs : List (String × PTy)}, DVars w vs → ∀ (r : List Tok), NotHead [.comma] r →
    pVars (w ++ r) = some (vs, r)
  | _, _, .one (w := w), r, hr => by
    cases r with
    | nil => simp [pVars]
    | cons t r =>
      have := hr t r rfl
      simp only [List.mem_singleton] at this
      cases t <;> first | contradiction | simp [pVars]
  | _, _, .cons h, r, hr => by simp [pVars, pVars_complete h r hr]

theorem pBound_complete {w : List Tok} {vs : List (String × PTy)} (h : DVars w vs) (r : List Tok) :
    pBound (.lbrk :: (w ++ .rbrk :: .colon :: r)) = some (vs, r) := by
  simp [pBound, pVars_complete h (.rbrk :: .colon :: r) (by intro t r' h; cases h; simp)]

/-- The first token of a term is none of those that begin other formulas. -/
theorem term_head {w : List Tok} {a : PTm} (h : DTerm w a) : ∃ t u, w = t :: u ∧
    t ≠ .not ∧ t ≠ .true ∧ t ≠ .false ∧ t ≠ .all ∧ t ≠ .ex ∧ t ≠ .lpar := by
  cases h with
  | var => exact ⟨_, _, rfl, by simp⟩
  | const h => refine ⟨_, _, rfl, ?_⟩; rename_i t _; cases t <;> simp [tokSym] at h ⊢
  | defined h => refine ⟨_, _, rfl, ?_⟩; rename_i t; cases t <;> simp [tokConst] at h ⊢
  | app h => refine ⟨_, _, rfl, ?_⟩; rename_i t _ _ _ _; cases t <;> simp [tokSym] at h ⊢

theorem pUnit_atom {t : Tok} (n : Nat) (u : List Tok) (h : t ≠ .not ∧ t ≠ .true ∧ t ≠ .false ∧ t ≠ .all ∧ t ≠ .ex ∧ t ≠ .lpar) :
    pUnit (n + 1) (t :: u) = pAtom n (t :: u) := by
  obtain ⟨h1, h2, h3, h4, h5, h6⟩ := h
  cases t <;> first | rfl | contradiction

/-- The list does not begin with a token that can go on a term or an atom. -/
abbrev UnitEnd (r : List Tok) : Prop := NotHead [.lpar, .eq, .neq] r
/-- The list does not begin with a token that can go on a formula. -/
def LogicEnd (r : List Tok) : Prop := UnitEnd r ∧ ∀ t r', r = t :: r' → t ≠ .vline ∧ t ≠ .and ∧ nonassoc t = none

theorem pAtom_of_term {t : Tok} {s : String} {as : List PTm} {u r : List Tok} {n : Nat}
    (ht : (tokSym t).isSome) (h : pTerm n (t :: u) = some (.fn s as none, r)) (hr : UnitEnd r) :
    pAtom n (t :: u) = some (.pred s as, r) := by
  simp only [pAtom, h]
  split
  · rename_i heq; cases heq
  · rename_i r' heq; cases heq; exact absurd (by simp) (hr .eq r' rfl)
  · rename_i r' heq; cases heq; exact absurd (by simp) (hr .neq r' rfl)
  · rename_i heq; cases heq; simp [asAtom, ht]

theorem UnitEnd.term {r : List Tok} (h : UnitEnd r) : NotHead [.lpar] r := by
  intro t r' e; have := h t r' e; simp at this ⊢; exact this.1

def contOr (n : Nat) (f : PForm) : List Tok → Option (PForm × List Tok)
  | .vline :: r => pOrs n f r
  | r => some (f, r)

def contAnd (n : Nat) (f : PForm) : List Tok → Option (PForm × List Tok)
  | .and :: r => pAnds n f r
  | r => some (f, r)

theorem pOrs_succ {n : Nat} {f g : PForm} {r r' : List Tok} (h : pUnit n r = some (g, r')) :
    pOrs (n + 1) f r = contOr n (.bin .or f g) r' := by
  simp only [pOrs, h]
  cases r' with
  | nil => rfl
  | cons t _ => cases t <;> rfl

theorem pAnds_succ {n : Nat} {f g : PForm} {r r' : List Tok} (h : pUnit n r = some (g, r')) :
    pAnds (n + 1) f r = contAnd n (.bin .and f g) r' := by
  simp only [pAnds, h]
  cases r' with
  | nil => rfl
  | cons t _ => cases t <;> rfl

theorem notHead_cons {l : List Tok} {t : Tok} {r : List Tok} (h : t ∉ l) : NotHead l (t :: r) := by
  intro t' r' e; cases e; exact h

theorem pRest_end {n : Nat} {f : PForm} {r : List Tok} (h : LogicEnd r) : pRest (n + 1) f r = some (f, r) := by
  cases r with
  | nil => rfl
  | cons t r =>
    obtain ⟨h1, h2, h3⟩ := h.2 t r rfl
    cases t <;> first | contradiction | simp [pRest, nonassoc] | simp [nonassoc] at h3

/-- What is claimed of a derivation of each kind. -/
def Found : Cat → List Tok → PForm → Prop
  | .unitary, w, f | .unary, w, f | .unit, w, f =>
    ∀ r, UnitEnd r → Ev fun n => pUnit n (w ++ r) = some (f, r)
  | .or, w, f => ∀ r X, UnitEnd r → (Ev fun n => contOr n f r = X) → Ev fun n => pLogic n (w ++ r) = X
  | .and, w, f => ∀ r X, UnitEnd r → (Ev fun n => contAnd n f r = X) → Ev fun n => pLogic n (w ++ r) = X
  | .logic, w, f => ∀ r, LogicEnd r → Ev fun n => pLogic n (w ++ r) = some (f, r)

theorem pUnit_of_atom {w r : List Tok} {a : PTm} {f : PForm} {r' : List Tok} (h : DTerm w a)
    (he : Ev fun n => pAtom n (w ++ r) = some (f, r')) : Ev fun n => pUnit n (w ++ r) = some (f, r') := by
  obtain ⟨t, u, rfl, ht⟩ := term_head h
  exact he.succ fun n hn => by
    simp only [List.cons_append] at hn ⊢
    rw [pUnit_atom n _ ht]; exact hn

theorem pLogic_unit {w : List Tok} {f : PForm} {r : List Tok} (h : Ev fun n => pUnit n (w ++ r) = some (f, r)) (hr : LogicEnd r) :
    Ev fun n => pLogic n (w ++ r) = some (f, r) :=
  (h.and (Ev.const (P := fun n => pRest n f r = some (f, r)) fun _ => pRest_end hr)).succ fun n hn => by
    simp only [pLogic, hn.1, hn.2]

theorem found {c : Cat} {w : List Tok} {f : PForm} (h : D c w f) : Found c w f := by
  induction h with
  | all hv _ ih =>
    intro r hr
    exact (ih r hr).succ fun n hn => by
      simp only [List.cons_append, List.append_assoc, pUnit, pBound_complete hv, hn, Option.map_some]
  | ex hv _ ih =>
    intro r hr
    exact (ih r hr).succ fun n hn => by
      simp only [List.cons_append, List.append_assoc, pUnit, pBound_complete hv, hn, Option.map_some]
  | prop h =>
    intro r hr
    exact pUnit_of_atom (DTerm.const h) ((pTerm_complete (DTerm.const h) r hr.term).mono fun n hn =>
      pAtom_of_term (by simp [h]) hn hr)
  | atom h h' =>
    intro r hr
    exact pUnit_of_atom (DTerm.app h h') ((pTerm_complete (DTerm.app h h') r hr.term).mono fun n hn =>
      pAtom_of_term (by simp [h]) hn hr)
  | top => intro r _; exact Ev.const fun n => by simp [pUnit]
  | bot => intro r _; exact Ev.const fun n => by simp [pUnit]
  | @eq w a w' b h h' =>
    intro r hr
    have e := (pTerm_complete h (.eq :: (w' ++ r)) (notHead_cons (by simp))).and (pTerm_complete h' r hr.term)
    have := pUnit_of_atom (f := .pred "=" [a, b]) (r := .eq :: (w' ++ r)) (r' := r) h (e.mono fun n hn => by simp only [pAtom, hn.1, hn.2, Option.map_some])
    simpa using this
  | paren _ ih =>
    intro r hr
    exact (ih (.rpar :: r) ⟨notHead_cons (by simp), fun t r' e => by cases e; simp [Parser.nonassoc]⟩).succ fun n hn => by
      simp only [List.cons_append, List.append_assoc, List.nil_append, pUnit, hn]
  | not _ ih =>
    intro r hr
    exact (ih r hr).succ fun n hn => by simp only [List.cons_append, pUnit, hn, Option.map_some]
  | @neq w a w' b h h' =>
    intro r hr
    have e := (pTerm_complete h (.neq :: (w' ++ r)) (notHead_cons (by simp))).and (pTerm_complete h' r hr.term)
    have := pUnit_of_atom (f := .neg (.pred "=" [a, b])) (r := .neq :: (w' ++ r)) (r' := r) h (e.mono fun n hn => by simp only [pAtom, hn.1, hn.2, Option.map_some])
    simpa using this
  | unit1 _ ih => exact ih
  | unit2 _ ih => exact ih
  | @or2 w f w' g _ _ ih ih' =>
    intro r X hr hX
    have e1 := ih (.vline :: (w' ++ r)) (notHead_cons (by simp))
    have e2 : Ev fun n => pOrs n f (w' ++ r) = X := ((ih' r hr).and hX).succ fun n hn => by rw [pOrs_succ hn.1]; exact hn.2
    have e3 : Ev fun n => pRest n f (.vline :: (w' ++ r)) = X := e2.succ fun n hn => by simp only [pRest, hn]
    exact (e1.and e3).succ fun n hn => by simp only [List.append_assoc, List.cons_append, pLogic, hn.1, hn.2]
  | @or3 w f w' g _ _ ih ih' =>
    intro r X hr hX
    have e2 : Ev fun n => pOrs n f (w' ++ r) = X := ((ih' r hr).and hX).succ fun n hn => by rw [pOrs_succ hn.1]; exact hn.2
    have := ih (.vline :: (w' ++ r)) X (notHead_cons (by simp)) e2
    simpa using this
  | @and2 w f w' g _ _ ih ih' =>
    intro r X hr hX
    have e1 := ih (.and :: (w' ++ r)) (notHead_cons (by simp))
    have e2 : Ev fun n => pAnds n f (w' ++ r) = X := ((ih' r hr).and hX).succ fun n hn => by rw [pAnds_succ hn.1]; exact hn.2
    have e3 : Ev fun n => pRest n f (.and :: (w' ++ r)) = X := e2.succ fun n hn => by simp only [pRest, hn]
    exact (e1.and e3).succ fun n hn => by simp only [List.append_assoc, List.cons_append, pLogic, hn.1, hn.2]
  | @and3 w f w' g _ _ ih ih' =>
    intro r X hr hX
    have e2 : Ev fun n => pAnds n f (w' ++ r) = X := ((ih' r hr).and hX).succ fun n hn => by rw [pAnds_succ hn.1]; exact hn.2
    have := ih (.and :: (w' ++ r)) X (notHead_cons (by simp)) e2
    simpa using this
  | @nonassoc w f t c w' g _ hc _ ih ih' =>
    intro r hr
    have e1 := ih (t :: (w' ++ r)) (notHead_cons (by cases t <;> simp [Parser.nonassoc] at hc ⊢))
    have e2 : Ev fun n => pRest n f (t :: (w' ++ r)) = some (c f g, r) := (ih' r hr.1).succ fun n hn => by
      cases t <;> simp [Parser.nonassoc] at hc <;> subst hc <;> simp [pRest, Parser.nonassoc, hn]
    exact (e1.and e2).succ fun n hn => by simp only [List.append_assoc, List.cons_append, pLogic, hn.1, hn.2]
  | @logicOr w f _ ih =>
    intro r hr
    refine ih r (some (f, r)) hr.1 (Ev.const fun n => ?_)
    unfold contOr
    split
    · rename_i r'; exact absurd rfl (hr.2 .vline r' rfl).1
    · rfl
  | @logicAnd w f _ ih =>
    intro r hr
    refine ih r (some (f, r)) hr.1 (Ev.const fun n => ?_)
    unfold contAnd
    split
    · rename_i r'; exact absurd rfl (hr.2 .and r' rfl).2.1
    · rfl
  | logicUnary _ ih => intro r hr; exact pLogic_unit (ih r hr.1) hr
  | logicUnitary _ ih => intro r hr; exact pLogic_unit (ih r hr.1) hr

end Verif.Parser
