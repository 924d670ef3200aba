import Verif.Parser.Grammar
import Verif.Engine.ElabProps
/-!
# C85: the formulas of a file have one reading
-/

namespace Verif.Parser
open Verif.Engine (PTm PForm PTy WForm Str mkPRevImp mkPXor mkPNotOr mkPNotAnd)

theorem notHead_nil (l : List Tok) : NotHead l [] := fun _ _ h => by cases h

theorem logicEnd_nil : LogicEnd [] := ⟨notHead_nil _, fun _ _ h => by cases h⟩

theorem logicEnd_rpar (r : List Tok) : LogicEnd (.rpar :: r) :=
  ⟨notHead_cons (by simp), fun t r' e => by cases e; simp [nonassoc]⟩

/-- A formula that begins two lists of tokens: the two readings are the same and the rests too. -/
theorem logic_prefix {w w' r r' : List Tok} {f g : PForm} (h : D .logic w f) (h' : D .logic w' g) (hr : LogicEnd r)
    (hr' : LogicEnd r') (e : w ++ r = w' ++ r') : f = g ∧ r = r' := by
  have := Ev.unique (x := (f, r)) (y := (g, r')) (found h r hr) (e ▸ found h' r' hr')
  cases this; exact ⟨rfl, rfl⟩

/-! ### Files -/

/-- `name` (src/Parser/tptp_parse.y:559-561). -/
def tokName : Tok → Option String
  | .lower w => some (strOf w)
  | .squoted w => some (strOf w)
  | .int w => some (strOf w)
  | _ => none

/-- A statement of a file as the parser gives it (src/Parser/psyntax.go:360-365): the name and the role as written
(the role is translated by `PFormulaRoleFromStr`, src/Parser/psyntax.go:388-401) with the formula, or an include. -/
inductive Stmt where
  | form (name role : String) (f : PForm)
  | incl (file : String)

/-- `name_list` (src/Parser/tptp_parse.y:518-520). -/
inductive DNames : List Tok → Prop
  | one {t s} : tokName t = some s → DNames [t]
  | cons {t s w} : tokName t = some s → DNames w → DNames (t :: .comma :: w)

/-- `fof_annotated` without annotations (src/Parser/tptp_parse.y:144-146) and `include`
(src/Parser/tptp_parse.y:509-516). -/
inductive DStmt : List Tok → Stmt → Prop
  | fof {t n r w f} : tokName t = some n → D .logic w f →
      DStmt (.kFof :: .lpar :: t :: .comma :: .lower r :: .comma :: (w ++ [.rpar, .dot])) (.form n (strOf r) f)
  | incl {w} : DStmt [.kInclude, .lpar, .squoted w, .rpar, .dot] (.incl (strOf w))
  | inclSel {w ns} : DNames ns →
      DStmt (.kInclude :: .lpar :: .squoted w :: .comma :: .lbrk :: (ns ++ [.rbrk, .rpar, .dot])) (.incl (strOf w))

/-- `tptp_input_list` (src/Parser/tptp_parse.y:126-128). -/
inductive DFile : List Tok → List Stmt → Prop
  | nil : DFile [] []
  | cons {w s w' ss} : DStmt w s → DFile w' ss → DFile (w ++ w') (s :: ss)

theorem names_prefix : ∀ {w w' r r' : List Tok}, DNames w → DNames w' → w ++ .rbrk :: r = w' ++ .rbrk :: r' → r = r'
  | _, _, r, r', .one _, .one _, e => by simp at e; exact e.2
  | _, _, r, r', .one _, .cons _ _, e => by simp at e
  | _, _, r, r', .cons _ _, .one _, e => by simp at e
  | _, _, r, r', .cons _ h, .cons _ h', e => by simp at e; exact names_prefix h h' e.2

theorem stmt_prefix {w w' r r' : List Tok} {s s' : Stmt} (h : DStmt w s) (h' : DStmt w' s') (e : w ++ r = w' ++ r') :
    s = s' ∧ r = r' := by
  cases h with
  | fof hn hf =>
    cases h' with
    | fof hn' hf' =>
      simp only [List.cons_append, List.append_assoc, List.cons.injEq, true_and, List.nil_append, Tok.lower.injEq] at e
      obtain ⟨rfl, rfl, e⟩ := e
      obtain ⟨rfl, e'⟩ := logic_prefix hf hf' (logicEnd_rpar _) (logicEnd_rpar _) e
      simp only [List.cons.injEq, true_and] at e'
      rw [hn] at hn'
      cases hn'
      exact ⟨rfl, e'⟩
    | incl => simp at e
    | inclSel _ => simp at e
  | incl =>
    cases h' with
    | fof _ _ => simp at e
    | incl => simp at e; obtain ⟨rfl, rfl⟩ := e; exact ⟨rfl, rfl⟩
    | inclSel _ => simp at e
  | inclSel hn =>
    cases h' with
    | fof _ _ => simp at e
    | incl => simp at e
    | inclSel hn' =>
      simp only [List.cons_append, List.append_assoc, List.cons.injEq, true_and, List.nil_append, Tok.squoted.injEq] at e
      obtain ⟨rfl, e⟩ := e
      have := names_prefix hn hn' e
      simp at this
      exact ⟨rfl, this⟩

theorem stmt_ne_nil {w : List Tok} {s : Stmt} (h : DStmt w s) : w ≠ [] := by cases h <;> simp

theorem file_unique : ∀ {w w' : List Tok} {ss ss' : List Stmt}, DFile w ss → DFile w' ss' → w = w' → ss = ss'
  | _, _, _, _, .nil, .nil, _ => rfl
  | _, _, _, _, .nil, .cons h _, e => absurd (List.append_eq_nil_iff.1 e.symm).1 (stmt_ne_nil h)
  | _, _, _, _, .cons h _, .nil, e => absurd (List.append_eq_nil_iff.1 e).1 (stmt_ne_nil h)
  | _, _, _, _, .cons h h1, .cons h' h1', e => by
    obtain ⟨rfl, e'⟩ := stmt_prefix h h' e
    rw [file_unique h1 h1' e']

/-! ### Formulas written with parentheses -/

/-- A number of the given sort. -/
def numTok (w : List Char) : PTy → Option Tok
  | .fn "$int" [] => some (.int w)
  | .fn "$rat" [] => some (.rat w)
  | .fn "$real" [] => some (.real w)
  | _ => none

mutual
/-- A way to write a term (`sym` chooses how a symbol is written). -/
def tmToks (sym : String → Tok) : PTm → List Tok
  | .var n => [.upper n.toList]
  | .fn s as none => if as.isEmpty then [sym s] else sym s :: .lpar :: (tmsToks sym as ++ [.rpar])
  | .fn s _ (some ty) => match numTok s.toList ty with | some t => [t] | none => []
def tmsToks (sym : String → Tok) : List PTm → List Tok
  | [] => []
  | a :: as => if as.isEmpty then tmToks sym a else tmToks sym a ++ .comma :: tmsToks sym as
end

mutual
/-- Terms that can be written: only numbers have a given sort. -/
def tmOk : PTm → Bool
  | .var _ => true
  | .fn _ as none => tmsOk as
  | .fn s as (some ty) => as.isEmpty && (numTok s.toList ty).isSome
def tmsOk : List PTm → Bool
  | [] => true
  | a :: as => tmOk a && tmsOk as
end

def varToks : List (String × PTy) → List Tok
  | [] => []
  | v :: vs => if vs.isEmpty then [.upper v.1.toList] else .upper v.1.toList :: .comma :: varToks vs

/-- A way to write a formula: with parentheses around each binary connective, and nowhere else. -/
def toks (sym : String → Tok) : WForm → List Tok
  | .top => [.true]
  | .bot => [.false]
  | .atom s as => if as.isEmpty then [sym s] else sym s :: .lpar :: (tmsToks sym as ++ [.rpar])
  | .eq l r => tmToks sym l ++ .eq :: tmToks sym r
  | .neq l r => tmToks sym l ++ .neq :: tmToks sym r
  | .not f => .not :: toks sym f
  | .and l r => .lpar :: ((toks sym l ++ .and :: toks sym r) ++ [.rpar])
  | .or l r => .lpar :: ((toks sym l ++ .vline :: toks sym r) ++ [.rpar])
  | .imp l r => .lpar :: ((toks sym l ++ .imply :: toks sym r) ++ [.rpar])
  | .rimp l r => .lpar :: ((toks sym l ++ .leftImply :: toks sym r) ++ [.rpar])
  | .iff l r => .lpar :: ((toks sym l ++ .equiv :: toks sym r) ++ [.rpar])
  | .xor l r => .lpar :: ((toks sym l ++ .xor :: toks sym r) ++ [.rpar])
  | .nor l r => .lpar :: ((toks sym l ++ .notVline :: toks sym r) ++ [.rpar])
  | .nand l r => .lpar :: ((toks sym l ++ .notAnd :: toks sym r) ++ [.rpar])
  | .all vs f => .all :: .lbrk :: (varToks vs ++ .rbrk :: .colon :: toks sym f)
  | .ex vs f => .ex :: .lbrk :: (varToks vs ++ .rbrk :: .colon :: toks sym f)

/-- Formulas of FOF: each quantifier binds a variable, and the variables are individuals. -/
def fofOk : WForm → Bool
  | .top | .bot => true
  | .atom _ as => tmsOk as
  | .eq l r | .neq l r => tmOk l && tmOk r
  | .not f => fofOk f
  | .and l r | .or l r | .imp l r | .rimp l r | .iff l r | .xor l r | .nor l r | .nand l r => fofOk l && fofOk r
  | .all vs f | .ex vs f => !vs.isEmpty && (vs.all fun v => match v.2 with | .fn "$i" [] => true | _ => false) && fofOk f

theorem strOf_toList (s : String) : strOf s.toList = s := by simp [strOf]

mutual
theorem tm_written {sym : String → Tok} (hs : ∀ s, tokSym (sym s) = some s) : ∀ a : PTm, tmOk a = true → DTerm (tmToks sym a) a
  | .var n, _ => by
    have := DTerm.var (w := n.toList)
    rwa [strOf_toList] at this
  | .fn s as none, h => by
    simp only [tmOk] at h
    simp only [tmToks]
    cases as with
    | nil => exact .const (hs s)
    | cons a as => exact .app (hs s) (tms_written hs (a :: as) h (by simp))
  | .fn s as (some ty), h => by
    simp only [tmOk, Bool.and_eq_true, List.isEmpty_iff] at h
    obtain ⟨rfl, h⟩ := h
    simp only [tmToks]
    unfold numTok at h ⊢
    split at h <;> first | (cases h; done) | skip
    all_goals exact .defined (by simp [tokConst, strOf_toList])
theorem tms_written {sym : String → Tok} (hs : ∀ s, tokSym (sym s) = some s) : ∀ as : List PTm, tmsOk as = true → as ≠ [] →
    DArgs (tmsToks sym as) as
  | [], _, h => absurd rfl h
  | a :: as, h, _ => by
    simp only [tmsOk, Bool.and_eq_true] at h
    simp only [tmsToks]
    cases as with
    | nil => exact .one (tm_written hs a h.1)
    | cons b as => exact .cons (tm_written hs a h.1) (tms_written hs (b :: as) h.2 (by simp))
end

theorem vars_written : ∀ vs : List (String × PTy), vs ≠ [] →
    (vs.all fun v => match v.2 with | .fn "$i" [] => true | _ => false) = true → DVars (varToks vs) vs
  | [], h, _ => absurd rfl h
  | (n, ty) :: vs, _, h => by
    simp only [List.all_cons, Bool.and_eq_true] at h
    obtain ⟨h1, h2⟩ := h
    split at h1 <;> first | (cases h1; done) | skip
    simp only [varToks]
    cases vs with
    | nil =>
      have := DVars.one (w := n.toList)
      rwa [strOf_toList] at this
    | cons v vs =>
      have := DVars.cons (w := n.toList) (vars_written (v :: vs) (by simp) h2)
      rwa [strOf_toList] at this

theorem form_written {sym : String → Tok} (hs : ∀ s, tokSym (sym s) = some s) : ∀ f : WForm, fofOk f = true →
    D .unit (toks sym f) f.parse
  | .top, _ => .unit1 .top
  | .bot, _ => .unit1 .bot
  | .atom s as, h => by
    simp only [toks]
    cases as with
    | nil => exact .unit1 (.prop (hs s))
    | cons a as => exact .unit1 (.atom (hs s) (tms_written hs (a :: as) h (by simp)))
  | .eq l r, h => by
    simp only [fofOk, Bool.and_eq_true] at h
    exact .unit1 (.eq (tm_written hs l h.1) (tm_written hs r h.2))
  | .neq l r, h => by
    simp only [fofOk, Bool.and_eq_true] at h
    exact .unit2 (.neq (tm_written hs l h.1) (tm_written hs r h.2))
  | .not f, h => .unit2 (.not (form_written hs f h))
  | .and l r, h => by
    simp only [fofOk, Bool.and_eq_true] at h
    exact .unit1 (.paren (.logicAnd (.and2 (form_written hs l h.1) (form_written hs r h.2))))
  | .or l r, h => by
    simp only [fofOk, Bool.and_eq_true] at h
    exact .unit1 (.paren (.logicOr (.or2 (form_written hs l h.1) (form_written hs r h.2))))
  | .imp l r, h | .rimp l r, h | .iff l r, h | .xor l r, h | .nor l r, h | .nand l r, h => by
    simp only [fofOk, Bool.and_eq_true] at h
    exact .unit1 (.paren (.nonassoc (form_written hs l h.1) rfl (form_written hs r h.2)))
  | .all vs f, h => by
    simp only [fofOk, Bool.and_eq_true, Bool.not_eq_true', List.isEmpty_eq_false_iff] at h
    exact .unit1 (.all (vars_written vs h.1.1 h.1.2) (form_written hs f h.2))
  | .ex vs f, h => by
    simp only [fofOk, Bool.and_eq_true, Bool.not_eq_true', List.isEmpty_eq_false_iff] at h
    exact .unit1 (.ex (vars_written vs h.1.1 h.1.2) (form_written hs f h.2))

theorem unit_logic {w : List Tok} {f : PForm} (h : D .unit w f) : D .logic w f := by
  cases h with
  | unit1 h => exact .logicUnitary h
  | unit2 h => exact .logicUnary h

/-! ### C85 -/

/-- **C85 (one reading).** The tokens of a formula, and those of a file of formulas, have at most one reading. -/
theorem C85_unique : (∀ ts f g, D .logic ts f → D .logic ts g → f = g) ∧
    (∀ ts ss ss', DFile ts ss → DFile ts ss' → ss = ss') :=
  ⟨fun _ _ _ h h' => (logic_prefix h h' logicEnd_nil logicEnd_nil rfl).1, fun _ _ _ h h' => file_unique h h' rfl⟩

/-- **C85 (the reading is the formula as written).** A formula with parentheses around the binary connectives is
read, and what is read has the meaning of the formula in each structure. `sym` is the way the symbols are
written. -/
theorem C85_written {sym : String → Tok} (hs : ∀ s, tokSym (sym s) = some s) (f : WForm) (h : fofOk f = true) :
    ∃ g, D .logic (toks sym f) g ∧ (∀ g', D .logic (toks sym f) g' → g' = g) ∧
      ∀ {E : Type} (S : Str E) (v : String → E), g.sat S v ↔ f.sat S v :=
  ⟨f.parse, unit_logic (form_written hs f h),
    fun _ h' => C85_unique.1 _ _ _ h' (unit_logic (form_written hs f h)),
    fun S v => Verif.Engine.C16_connectives S f v⟩

/-- **C85 (without parentheses).** A quantifier and a negation end before the next binary connective, and
conjunctions and disjunctions are nested to the left. -/
theorem C85_scope {vs w w' w'' : List Tok} {ws : List (String × PTy)} {f g h : PForm} (hv : DVars vs ws)
    (hf : D .unit w f) (hg : D .unit w' g) (hh : D .unit w'' h) (k : PForm) :
    (D .logic (.all :: .lbrk :: (vs ++ .rbrk :: .colon :: (w ++ .and :: w'))) k ↔ k = .bin .and (.all ws f) g) ∧
    (D .logic (.not :: (w ++ .and :: w')) k ↔ k = .bin .and (.neg f) g) ∧
    (D .logic (w ++ .and :: w' ++ .and :: w'') k ↔ k = .bin .and (.bin .and f g) h) ∧
    (D .logic (w ++ .vline :: w' ++ .vline :: w'') k ↔ k = .bin .or (.bin .or f g) h) := by
  have key : ∀ {ts : List Tok} {k' : PForm}, D .logic ts k' → (D .logic ts k ↔ k = k') := fun hd =>
    ⟨fun h => C85_unique.1 _ _ _ h hd, fun h => h ▸ hd⟩
  refine ⟨key ?_, key ?_, key ?_, key ?_⟩
  · have := D.logicAnd (.and2 (.unit1 (.all hv hf)) hg)
    simpa using this
  · have := D.logicAnd (.and2 (.unit2 (.not hf)) hg)
    simpa using this
  · exact .logicAnd (.and3 (.and2 hf hg) hh)
  · exact .logicOr (.or3 (.or2 hf hg) hh)

/-- The connectives for two formulas. -/
def isBinary (t : Tok) : Bool := match t with | .vline => true | .and => true | t => (nonassoc t).isSome

theorem isBinary_end {t : Tok} (h : isBinary t = true) (r : List Tok) : UnitEnd (t :: r) := by
  refine notHead_cons ?_
  cases t <;> simp [isBinary, nonassoc] at h ⊢

theorem contAnd_end {n : Nat} {f : PForm} {t : Tok} {r : List Tok} (h : t ≠ .and) :
    contAnd n f (t :: r) = some (f, t :: r) := by
  unfold contAnd
  split
  · rename_i heq; cases heq; exact absurd rfl h
  · rfl

theorem contOr_end {n : Nat} {f : PForm} {t : Tok} {r : List Tok} (h : t ≠ .vline) :
    contOr n f (t :: r) = some (f, t :: r) := by
  unfold contOr
  split
  · rename_i heq; cases heq; exact absurd rfl h
  · rfl

theorem pRest_nonassoc {n : Nat} {f : PForm} {t : Tok} {r : List Tok} {c : PForm → PForm → PForm} (h : nonassoc t = some c) :
    pRest (n + 1) f (t :: r) = (pUnit n r).map fun (g, r') => (c f g, r') := by
  cases t <;> simp only [nonassoc, Option.some.injEq, reduceCtorEq] at h <;> subst h <;> rfl

/-- After a formula with one binary connective, another connective is not read. -/
theorem pLogic_two {w w' w'' : List Tok} {f g : PForm} {t t' : Tok} (hf : D .unit w f) (hg : D .unit w' g)
    (ht : isBinary t = true) (ht' : isBinary t' = true) (hne : t ≠ t' ∨ (t ≠ .and ∧ t ≠ .vline)) :
    Ev fun n => ∃ k, pLogic n (w ++ t :: (w' ++ t' :: w'')) = some (k, t' :: w'') := by
  have e1 := found hf (t :: (w' ++ t' :: w'')) (isBinary_end ht _)
  have e2 := found hg (t' :: w'') (isBinary_end ht' _)
  have e3 : Ev fun n => ∃ k, pRest n f (t :: (w' ++ t' :: w'')) = some (k, t' :: w'') := by
    by_cases ha : t = .and
    · subst ha
      have hn : t' ≠ .and := by rcases hne with h | h; exact fun e => h e.symm; exact absurd rfl h.1
      have e4 : Ev fun n => pAnds n f (w' ++ t' :: w'') = some (.bin .and f g, t' :: w'') := e2.succ fun n hn' => by
        rw [pAnds_succ hn', contAnd_end hn]
      exact e4.succ fun n hn' => ⟨_, by simp only [pRest]; exact hn'⟩
    · by_cases hv : t = .vline
      · subst hv
        have hn : t' ≠ .vline := by rcases hne with h | h; exact fun e => h e.symm; exact absurd rfl h.2
        have e4 : Ev fun n => pOrs n f (w' ++ t' :: w'') = some (.bin .or f g, t' :: w'') := e2.succ fun n hn' => by
          rw [pOrs_succ hn', contOr_end hn]
        exact e4.succ fun n hn' => ⟨_, by simp only [pRest]; exact hn'⟩
      · obtain ⟨c, hc⟩ : ∃ c, nonassoc t = some c := by
          cases hn : nonassoc t with
          | some c => exact ⟨c, rfl⟩
          | none =>
            unfold isBinary at ht
            split at ht
            · exact absurd rfl hv
            · exact absurd rfl ha
            · rw [hn] at ht; cases ht
        exact e2.succ fun n hn' => ⟨c f g, by rw [pRest_nonassoc hc]; simp only [hn', Option.map_some]⟩
  exact (e1.and e3).succ fun n hn => by
    obtain ⟨k, hk⟩ := hn.2
    exact ⟨k, by simp only [pLogic, hn.1, hk]⟩

/-- **C85 (no guessing).** Two different connectives, or one that is not associative twice, are not read without
parentheses. -/
theorem C85_mixed {w w' w'' : List Tok} {f g : PForm} {t t' : Tok} (hf : D .unit w f) (hg : D .unit w' g)
    (ht : isBinary t = true) (ht' : isBinary t' = true) (hne : t ≠ t' ∨ (t ≠ .and ∧ t ≠ .vline)) :
    ¬ ∃ k, D .logic (w ++ t :: (w' ++ t' :: w'')) k := by
  rintro ⟨k, hk⟩
  obtain ⟨N, hN⟩ := (found hk [] logicEnd_nil).and (pLogic_two (w'' := w'') hf hg ht ht' hne)
  obtain ⟨h1, k', h2⟩ := hN N (Nat.le_refl N)
  rw [List.append_nil, h2] at h1
  cases h1

/-- A symbol is written in quotes. -/
def Ex.sym (s : String) : Tok := .squoted s.toList

theorem Ex.sym_ok (s : String) : tokSym (Ex.sym s) = some s := by simp [Ex.sym, tokSym, strOf]

/-- `![X] : ((p(X) <~> ~ a != X) & q)`. -/
def Ex.w : WForm :=
  .all [("X", .fn "$i" [])] (.and (.xor (.atom "p" [.var "X"]) (.not (.neq (.fn "a" [] none) (.var "X")))) (.atom "q" []))

/-- The hypotheses of `C85_written` are met. -/
example : ∃ g, D .logic (toks Ex.sym Ex.w) g ∧ (∀ g', D .logic (toks Ex.sym Ex.w) g' → g' = g) ∧
    ∀ {E : Type} (S : Str E) (v : String → E), g.sat S v ↔ Ex.w.sat S v :=
  C85_written Ex.sym_ok Ex.w (by decide)

/-- The hypotheses of `C85_scope` and `C85_mixed` are met: `![X] : p & q` is a conjunction, `p & q | r` is not read. -/
example (k : PForm) : (D .logic [.all, .lbrk, .upper ['X'], .rbrk, .colon, .lower ['p'], .and, .lower ['q']] k ↔
    k = .bin .and (.all [(strOf ['X'], .fn "$i" [])] (.pred (strOf ['p']) [])) (.pred (strOf ['q']) [])) ∧
    ¬ ∃ k, D .logic [.lower ['p'], .and, .lower ['q'], .vline, .lower ['r']] k := by
  have hp : D .unit [.lower ['p']] (.pred (strOf ['p']) []) := .unit1 (.prop rfl)
  have hq : D .unit [.lower ['q']] (.pred (strOf ['q']) []) := .unit1 (.prop rfl)
  exact ⟨(C85_scope .one hp hq hq k).1, C85_mixed hp hq rfl rfl (.inl (by simp))⟩

/-- A file with two statements has a reading. -/
example : DFile [.kFof, .lpar, .lower ['a'], .comma, .lower ['x'], .comma, .lower ['p'], .rpar, .dot,
      .kInclude, .lpar, .squoted ['f'], .rpar, .dot]
    [.form (strOf ['a']) (strOf ['x']) (.pred (strOf ['p']) []), .incl (strOf ['f'])] :=
  .cons (w := [.kFof, .lpar, .lower ['a'], .comma, .lower ['x'], .comma, .lower ['p'], .rpar, .dot])
    (.fof (w := [.lower ['p']]) rfl (.logicUnitary (.prop rfl))) (.cons .incl .nil)

/-! ### C86: distinct objects -/

/-- **C86 (the full claim).** Distinct objects are read as constants of their own (src/Parser/tptp_lex.go:347-351):
`"a"` is not the constant `a`, and what is read for `"a" != "b"` holds in each structure with real equality. -/
def C86_statement : Prop :=
  (∀ w v, DTerm [.distinct w] v → ¬ DTerm [.lower w] v) ∧
  (∀ w w', w ≠ w' → ∀ f, D .logic [.distinct w, .neq, .distinct w'] f →
    ∀ {E : Type} (S : Str E) (v : String → E), (∀ x y, S.pr "=" [x, y] ↔ x = y) → f.sat S v)

/-- **C86 (partial).** Distinct objects with different texts are different constants. Missing: they can be equal to
each other in a structure and are the same as the ordinary constants with the same text. -/
theorem C86_partial {w w' : List Char} {a : PTm} (h : DTerm [.distinct w] a) (h' : DTerm [.distinct w'] a) : w = w' := by
  have key : ∀ {w a}, DTerm [.distinct w] a → a = .fn (strOf w) [] none := by
    intro w a h
    cases h with
    | const h => simp [tokSym] at h
    | defined h => simpa [tokConst, eq_comm] using h
  have := (key h).symm.trans (key h')
  simp only [PTm.fn.injEq, and_true, strOf] at this
  simpa using congrArg String.toList this

/-- Its hypothesis is met. -/
example : DTerm [.distinct ['c', 'a', 't']] (.fn (strOf ['c', 'a', 't']) [] none) := .defined rfl

/-- **C86, violated.** `a = "a"` is read as `a = a`, so it is proved. -/
theorem C86_violated_same (w : List Char) : ∃ c, D .logic [.lower w, .eq, .distinct w] (.pred "=" [c, c]) :=
  ⟨_, .logicUnitary (.eq (w := [.lower w]) (.const rfl) (.defined rfl))⟩

/-- **C86, violated.** What is read for `"a" != "b"` is false in a structure with one element. -/
theorem C86_violated_distinct (w w' : List Char) : ∃ f, D .logic [.distinct w, .neq, .distinct w'] f ∧
    ∃ S : Str Unit, (∀ x y, S.pr "=" [x, y] ↔ x = y) ∧ ∀ v, ¬ f.sat S v :=
  ⟨_, .logicUnary (.neq (w := [.distinct w]) (.defined rfl) (.defined rfl)),
    ⟨fun _ _ => (), fun _ _ => True⟩, by simp, by simp [PForm.sat]⟩

theorem C86_statement_false : ¬ C86_statement :=
  fun h => h.1 ['a'] _ (.defined rfl) (.const rfl)

end Verif.Parser
