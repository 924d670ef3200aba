import Verif.Whole.Ground
import Verif.Parser.GrammarProps
import Verif.Parser.LexMain
import Verif.Search.Verdict
import Verif.Search.MainGroundRun
/-!
# From the text of a problem to the verdict

The program as a whole: the files are read (`Verif.Parser`), the statements become a formula (`Verif.Engine`), the
formula is searched in rounds (`Verif.Search.Verdict`), each of them by the concurrent search (`Verif.Search.Main`).

Simplifications. The file system is a table of texts; where a file is found (`getFile`, src/main.go:377-403) is left to
it. Only problems in FOF are read, without annotations. Equality reasoning is left out: without positive equalities on
the branch it does nothing (src/Mods/equality/bse/equality_problem_list.go:262-267), so only formulas without equality
have runs. (That the plugin is switched off when no file has an equality sign, src/main.go:167-170, has no effect: nothing
asks whether it is on.) The proof output is left out.
-/

namespace Verif.Whole
open Verif.AST Verif.Engine Verif.Parser
open Verif.Search.Verdict (Opts Line St Returns limitAt)
open Verif.Search.Main (Env Start Verdict NoPred)

/-! ### The program -/

/-- The files: the directory of a file and its text, found from a directory by a name. -/
structure Files where
  Dir : Type
  get : Dir → String → Option (Dir × List Char)

/-- A formula given by the parser, as a written formula that is read as this one (`C88_up_parse`). -/
def PForm.up : PForm → WForm
  | .top => .top
  | .bot => .bot
  | .pred s args => .atom s args
  | .neg f => .not (PForm.up f)
  | .bin .or l r => .or (PForm.up l) (PForm.up r)
  | .bin .and l r => .and (PForm.up l) (PForm.up r)
  | .bin .imp l r => .imp (PForm.up l) (PForm.up r)
  | .bin .equ l r => .iff (PForm.up l) (PForm.up r)
  | .all vs f => .all vs (PForm.up f)
  | .ex vs f => .ex vs (PForm.up f)

/-- **C88**: a formula is handed on as it was read. -/
theorem C88_up_parse (f : PForm) : (PForm.up f).parse = f := by
  induction f with
  | bin op l r il ir => cases op <;> simp [PForm.up, WForm.parse, il, ir]
  | _ => simp_all [PForm.up, WForm.parse]

mutual
/-- `ParseTPTPFile` (src/Parser/tptp_lex.go:834-851) and the way `StatementListToFormula` (src/main.go:228-332) goes
through the files: the text is read to the statements, the bound returned and the counters, which are global variables
that no file resets. `lim` is the option `-l` for the main file, −1 (the default) for the others (src/main.go:154-156,
261). -/
inductive Reads (fs : Files) : fs.Dir → Int64 → Nat → Bool → List Char → List PStmt → Int64 → Nat → Bool → Prop
  | mk {d lim q e s ts y ss P b q' e'} : lexAll (s.length + 1) ⟨[], s, q, e⟩ = some (ts, y) → DFile ts ss →
      ReadsL fs d (if lim = -1 then Int64.ofNat y.quants else lim) y.quants y.hasEq ss P b q' e' →
      Reads fs d lim q e s P b q' e'
/-- The loop over the statements (src/main.go:244-313): an included file with a formula sets the bound. -/
inductive ReadsL (fs : Files) : fs.Dir → Int64 → Nat → Bool → List Stmt → List PStmt → Int64 → Nat → Bool → Prop
  | nil {d b q e} : ReadsL fs d b q e [] [] b q e
  | form {d b q e n r f ss P b' q' e'} : ReadsL fs d b q e ss P b' q' e' →
      ReadsL fs d b q e (.form n r f :: ss) (.form n (roleOf r) (PForm.up f) :: P) b' q' e'
  | incl {d b q e n d1 s P1 b1 q1 e1 ss P b' q' e'} : fs.get d n = some (d1, s) →
      Reads fs d1 (-1) q e s P1 b1 q1 e1 →
      ReadsL fs d (if PStmt.formsL P1 = 0 then b else b1) q1 e1 ss P b' q' e' →
      ReadsL fs d b q e (.incl n :: ss) (.incl none P1 :: P) b' q' e'
  | missing {d b q e n ss P b' q' e'} : fs.get d n = none → ReadsL fs d b q e ss P b' q' e' →
      ReadsL fs d b q e (.incl n :: ss) (.missing :: P) b' q' e'
end

/-- The options: `-l`, flattening, type checking, `-proof`, `-one_step`. -/
structure Cfg where
  limit : Int64
  flatten : Bool
  typeOk : Form → Bool
  opts : Opts

/-- The program run on a text prints this verdict (`main`, src/main.go:75-103, `Search`, src/Search/search.go:78-85,
and the rounds, src/Search/destructive.go:82-96). The rounds are scheduled in some way; the Skolem symbols are not those
of the problem. -/
def Prints (fs : Files) (e : Env) (cfg : Cfg) (d : fs.Dir) (s : List Char) (l : Line) : Prop :=
  ∃ P b q eq f c m outcome res t,
    Reads fs d cfg.limit 0 false s P b q eq ∧
    presearch cfg.flatten (fun _ => false) cfg.typeOk initMaker P = .search f c m ∧ NoPred eqId f ∧
    Returns cfg.opts (decide (0 < PStmt.conjsL P)) b outcome res t ∧
    (∀ k < t.round, ∃ st : Start, m.cpt ≤ st.sk ∧ Verdict e st (limitAt b k).toNatClampNeg f (outcome k)) ∧
    l ∈ t.printed

/-! ### What a text says (specification) -/

/-- A statement as written. -/
inductive SStmt where
  | form (name role : String) (f : PForm)
  | incl (sel : Option (List String)) (file : String)

/-- The names of a selection. -/
inductive SNames : List Tok → List String → Prop
  | one {t s} : tokName t = some s → SNames [t] [s]
  | cons {t s w l} : tokName t = some s → SNames w l → SNames (t :: .comma :: w) (s :: l)

/-- A statement of TPTP: a formula of FOF or an include, with or without a selection. -/
inductive SD : List Tok → SStmt → Prop
  | fof {t n r w f} : tokName t = some n → D .logic w f →
      SD (.kFof :: .lpar :: t :: .comma :: .lower r :: .comma :: (w ++ [.rpar, .dot])) (.form n (strOf r) f)
  | incl {w} : SD [.kInclude, .lpar, .squoted w, .rpar, .dot] (.incl none (strOf w))
  | inclSel {w ns l} : SNames ns l →
      SD (.kInclude :: .lpar :: .squoted w :: .comma :: .lbrk :: (ns ++ [.rbrk, .rpar, .dot])) (.incl (some l) (strOf w))

inductive SFile : List Tok → List SStmt → Prop
  | nil : SFile [] []
  | cons {w s w' ss} : SD w s → SFile w' ss → SFile (w ++ w') (s :: ss)

/-- What the roles mean: the user's and the theory's axioms, what is to be proved, and its negation. -/
inductive RoleSays : String → PRole → Prop
  | axiom : RoleSays "axiom" .ax
  | hypothesis : RoleSays "hypothesis" .ax
  | definition : RoleSays "definition" .ax
  | assumption : RoleSays "assumption" .ax
  | lemma : RoleSays "lemma" .ax
  | theorem : RoleSays "theorem" .ax
  | conjecture : RoleSays "conjecture" .conj
  | negatedConjecture : RoleSays "negated_conjecture" .negConj

/-- A quantifier sign (`!>` is not part of FOF). -/
def isQuant : Tok → Bool
  | .all | .ex | .allTy => true
  | _ => false

theorem isQuant_eq : isQuant = quantTok := rfl

mutual
/-- The text is written with care (`CWritten`, see C84), without distinct objects; it is that of the problem `P`, and the
number of quantifiers written in its files is `n`. -/
inductive Says (fs : Files) : fs.Dir → List Char → Nat → List PStmt → Prop
  | mk {d s ts ss n P} : CWritten ts s → (∀ w, .distinct w ∉ ts) → SFile ts ss → SaysL fs d ss n P →
      Says fs d s (ts.countP isQuant + n) P
inductive SaysL (fs : Files) : fs.Dir → List SStmt → Nat → List PStmt → Prop
  | nil {d} : SaysL fs d [] 0 []
  | form {d n r role f ss k P} : RoleSays r role → SaysL fs d ss k P →
      SaysL fs d (.form n r f :: ss) k (.form n role (PForm.up f) :: P)
  | incl {d sel n d1 s k1 P1 ss k P} : fs.get d n = some (d1, s) → Says fs d1 s k1 P1 → SaysL fs d ss k P →
      SaysL fs d (.incl sel n :: ss) (k1 + k) (.incl sel P1 :: P)
  | missing {d sel n ss k P} : fs.get d n = none → SaysL fs d ss k P → SaysL fs d (.incl sel n :: ss) k (.missing :: P)
end

/-- No structure makes all axioms of the problem true and its conjecture false. -/
def Follows (P : List PStmt) : Prop := ∀ (E : Type) (S : Str E), Nonempty E → ¬ ProblemMeans S P

/-! ### Reading is deterministic -/

variable {fs : Files}

mutual
theorem Reads.unique : ∀ {d lim q e s P b q' e'}, Reads fs d lim q e s P b q' e' → ∀ {P2 b2 q2 e2},
    Reads fs d lim q e s P2 b2 q2 e2 → P = P2 ∧ b = b2 ∧ q' = q2 ∧ e' = e2
  | _, _, _, _, _, _, _, _, _, .mk h1 h2 h3, _, _, _, _, .mk k1 k2 k3 => by
    rw [h1] at k1
    cases k1
    cases file_unique h2 k2 rfl
    exact ReadsL.unique h3 k3
theorem ReadsL.unique : ∀ {d b q e ss P b' q' e'}, ReadsL fs d b q e ss P b' q' e' → ∀ {P2 b2 q2 e2},
    ReadsL fs d b q e ss P2 b2 q2 e2 → P = P2 ∧ b' = b2 ∧ q' = q2 ∧ e' = e2
  | _, _, _, _, _, _, _, _, _, .nil, _, _, _, _, .nil => ⟨rfl, rfl, rfl, rfl⟩
  | _, _, _, _, _, _, _, _, _, .form h, _, _, _, _, .form k => by
    obtain ⟨rfl, rfl, rfl, rfl⟩ := ReadsL.unique h k
    exact ⟨rfl, rfl, rfl, rfl⟩
  | _, _, _, _, _, _, _, _, _, .incl h0 h1 h2, _, _, _, _, k => by
    cases k with
    | incl k0 k1 k2 =>
      rw [h0] at k0
      cases k0
      obtain ⟨rfl, rfl, rfl, rfl⟩ := Reads.unique h1 k1
      obtain ⟨rfl, rfl, rfl, rfl⟩ := ReadsL.unique h2 k2
      exact ⟨rfl, rfl, rfl, rfl⟩
    | missing k0 _ => rw [h0] at k0; cases k0
  | _, _, _, _, _, _, _, _, _, .missing h0 h, _, _, _, _, k => by
    cases k with
    | incl k0 k1 k2 => rw [h0] at k0; cases k0
    | missing _ k =>
      obtain ⟨rfl, rfl, rfl, rfl⟩ := ReadsL.unique h k
      exact ⟨rfl, rfl, rfl, rfl⟩
end

/-! ### Quantifiers among the tokens -/

/-- No quantifier. -/
def PForm.free : PForm → Bool
  | .neg f => PForm.free f
  | .bin _ l r => PForm.free l && PForm.free r
  | .all _ _ => false
  | .ex _ _ => false
  | _ => true

/-- Not a quantifier. -/
def dull (t : Tok) : Prop := quantTok t = false

theorem dull_sym {t : Tok} {s : String} (h : tokSym t = some s) : dull t := by cases t <;> simp_all [tokSym, dull, quantTok]
theorem dull_const {t : Tok} {s : PTm} (h : tokConst t = some s) : dull t := by cases t <;> simp_all [tokConst, dull, quantTok]
theorem dull_name {t : Tok} {s : String} (h : tokName t = some s) : dull t := by cases t <;> simp_all [tokName, dull, quantTok]
theorem dull_non {t : Tok} {c : PForm → PForm → PForm} (h : nonassoc t = some c) : dull t := by
  cases t <;> simp_all [nonassoc, dull, quantTok]

mutual
theorem dull_term : ∀ {w a}, DTerm w a → ∀ t ∈ w, dull t
  | _, _, .var => by simp [dull, quantTok]
  | _, _, .const h => by simp only [List.mem_singleton, forall_eq]; exact dull_sym h
  | _, _, .defined h => by simp only [List.mem_singleton, forall_eq]; exact dull_const h
  | _, _, .app h h' => by
    intro t ht
    simp only [List.mem_cons, List.mem_append, List.not_mem_nil, or_false] at ht
    rcases ht with rfl | rfl | ht | rfl
    · exact dull_sym h
    · simp [dull, quantTok]
    · exact dull_args h' t ht
    · simp [dull, quantTok]
theorem dull_args : ∀ {w as}, DArgs w as → ∀ t ∈ w, dull t
  | _, _, .one h => dull_term h
  | _, _, .cons h h' => by
    intro t ht
    simp only [List.mem_cons, List.mem_append] at ht
    rcases ht with ht | rfl | ht
    · exact dull_term h t ht
    · simp [dull, quantTok]
    · exact dull_args h' t ht
end

theorem dull_cons {t : Tok} {w : List Tok} (h : dull t) (h' : ∀ t ∈ w, dull t) : ∀ u ∈ t :: w, dull u := by
  intro u hu
  rcases List.mem_cons.1 hu with rfl | hu
  · exact h
  · exact h' u hu

theorem dull_append {v w : List Tok} (h : ∀ t ∈ v, dull t) (h' : ∀ t ∈ w, dull t) : ∀ u ∈ v ++ w, dull u := by
  intro u hu
  rcases List.mem_append.1 hu with hu | hu
  · exact h u hu
  · exact h' u hu

theorem dull_nil : ∀ t ∈ ([] : List Tok), dull t := by simp

theorem dull_form {c : Cat} {w : List Tok} {f : PForm} (h : D c w f) : PForm.free f = true → ∀ t ∈ w, dull t := by
  induction h with
  | all _ _ _ => intro h; simp [PForm.free] at h
  | ex _ _ _ => intro h; simp [PForm.free] at h
  | prop h => intro _; exact dull_cons (dull_sym h) dull_nil
  | atom h h' =>
    intro _
    exact dull_cons (dull_sym h) (dull_cons rfl (dull_append (dull_args h') (dull_cons rfl dull_nil)))
  | top => intro _; exact dull_cons rfl dull_nil
  | bot => intro _; exact dull_cons rfl dull_nil
  | eq h h' => intro _; exact dull_append (dull_term h) (dull_cons rfl (dull_term h'))
  | paren _ ih => intro h; exact dull_cons rfl (dull_append (ih h) (dull_cons rfl dull_nil))
  | not _ ih => intro h; exact dull_cons rfl (ih h)
  | neq h h' => intro _; exact dull_append (dull_term h) (dull_cons rfl (dull_term h'))
  | unit1 _ ih => exact ih
  | unit2 _ ih => exact ih
  | logicOr _ ih => exact ih
  | logicAnd _ ih => exact ih
  | logicUnary _ ih => exact ih
  | logicUnitary _ ih => exact ih
  | nonassoc _ hc _ ih ih' =>
    intro h
    rename_i f t c _ g _ _
    have h2 : PForm.free f = true ∧ PForm.free g = true := by
      cases t <;> simp [Verif.Parser.nonassoc] at hc <;> subst hc <;>
        simp [mkPRevImp, mkPXor, mkPNotOr, mkPNotAnd, PForm.free] at h <;> simp [h]
    exact dull_append (ih h2.1) (dull_cons (dull_non hc) (ih' h2.2))
  | _ _ _ ih ih' =>
    intro h
    simp only [PForm.free, Bool.and_eq_true] at h
    exact dull_append (ih h.1) (dull_cons rfl (ih' h.2))

theorem dull_names {w : List Tok} {l : List String} (h : SNames w l) : ∀ t ∈ w, dull t := by
  induction h with
  | one h => exact dull_cons (dull_name h) dull_nil
  | cons h _ ih => exact dull_cons (dull_name h) (dull_cons rfl ih)

/-- The formula of a statement. -/
def SStmt.free : SStmt → Bool
  | .form _ _ f => PForm.free f
  | .incl _ _ => true

theorem dull_stmt {w : List Tok} {s : SStmt} (h : SD w s) (hs : s.free = true) : ∀ t ∈ w, dull t := by
  cases h with
  | fof h h' =>
    exact dull_cons rfl (dull_cons rfl (dull_cons (dull_name h) (dull_cons rfl (dull_cons rfl
      (dull_cons rfl (dull_append (dull_form h' hs) (dull_cons rfl (dull_cons rfl dull_nil))))))))
  | incl =>
    exact dull_cons rfl (dull_cons rfl (dull_cons rfl (dull_cons rfl (dull_cons rfl dull_nil))))
  | inclSel h =>
    exact dull_cons rfl (dull_cons rfl (dull_cons rfl (dull_cons rfl (dull_cons rfl
      (dull_append (dull_names h) (dull_cons rfl (dull_cons rfl (dull_cons rfl dull_nil))))))))

theorem dull_file {w : List Tok} {ss : List SStmt} (h : SFile w ss) : (∀ s ∈ ss, s.free = true) → ∀ t ∈ w, dull t := by
  induction h with
  | nil => intro _; exact dull_nil
  | cons h _ ih => intro hs; exact dull_append (dull_stmt h (hs _ (by simp))) (ih fun s h => hs s (List.mem_cons_of_mem _ h))

/-! ### A text is read as it says -/

/-- The statement the parser gives: the selection is dropped (src/Parser/tptp_parse.y:509-516). -/
def SStmt.drop : SStmt → Stmt
  | .form n r f => .form n r f
  | .incl _ n => .incl n

theorem names_drop {w : List Tok} {l : List String} (h : SNames w l) : DNames w := by
  induction h with
  | one h => exact .one h
  | cons h _ ih => exact .cons h ih

theorem sd_drop {w : List Tok} {s : SStmt} (h : SD w s) : DStmt w s.drop := by
  cases h with
  | fof h h' => exact .fof h h'
  | incl => exact .incl
  | inclSel h => exact .inclSel (names_drop h)

theorem sfile_drop {w : List Tok} {ss : List SStmt} (h : SFile w ss) : DFile w (ss.map SStmt.drop) := by
  induction h with
  | nil => exact .nil
  | cons h _ ih => exact .cons (sd_drop h) ih

theorem sfile_head {w : List Tok} {ss : List SStmt} (h : SFile w ss) : ∀ t ts, w = t :: ts → isWord t := by
  intro t ts e
  cases h with
  | nil => cases e
  | cons h _ =>
    cases h with
    | fof _ _ => simp only [List.cons_append, List.cons.injEq] at e; rw [← e.1]; trivial
    | incl => simp only [List.cons_append, List.cons.injEq] at e; rw [← e.1]; trivial
    | inclSel _ => simp only [List.cons_append, List.cons.injEq] at e; rw [← e.1]; trivial

/-- No selection in the problem. -/
inductive Whole : PStmt → Prop
  | incl {file} : (∀ s ∈ file, Whole s) → Whole (.incl none file)
  | missing : Whole .missing
  | form {n r w} : Whole (.form n r w)
  | typ {n r s ty} : Whole (.typ n r s ty)

theorem says_noforms {d : fs.Dir} : ∀ {ss n P}, SaysL fs d ss n P → PStmt.formsL P = 0 → ∀ s ∈ ss, s.free = true
  | _, _, _, .nil, _ => by simp
  | _, _, _, .form _ _, h => by simp [PStmt.formsL, PStmt.forms] at h
  | _, _, _, .incl _ _ h2, h => by
    simp only [PStmt.formsL, Nat.add_eq_zero_iff] at h
    intro s hs
    rcases List.mem_cons.1 hs with rfl | hs
    · rfl
    · exact says_noforms h2 h.2 s hs
  | _, _, _, .missing _ h2, h => by
    simp only [PStmt.formsL, Nat.add_eq_zero_iff] at h
    intro s hs
    rcases List.mem_cons.1 hs with rfl | hs
    · rfl
    · exact says_noforms h2 h.2 s hs

theorem count_dull {w : List Tok} (h : ∀ t ∈ w, dull t) : w.countP quantTok = 0 :=
  List.countP_eq_zero.2 fun t ht => by simp only [dull] at h; simp [h t ht]

mutual
theorem Says.count0 : ∀ {d s n P}, Says fs d s n P → PStmt.formsL P = 0 → n = 0
  | _, _, _, _, .mk _ _ h3 h4, h => by
    rw [isQuant_eq, count_dull (dull_file h3 (says_noforms h4 h)), SaysL.count0 h4 h]
theorem SaysL.count0 : ∀ {d ss n P}, SaysL fs d ss n P → PStmt.formsL P = 0 → n = 0
  | _, _, _, _, .nil, _ => rfl
  | _, _, _, _, .form _ _, h => by simp [PStmt.formsL, PStmt.forms] at h
  | _, _, _, _, .incl _ h1 h2, h => by
    simp only [PStmt.formsL, PStmt.forms, Nat.add_eq_zero_iff] at h
    rw [Says.count0 h1 h.1, SaysL.count0 h2 h.2]
  | _, _, _, _, .missing _ h2, h => by
    simp only [PStmt.formsL, Nat.add_eq_zero_iff] at h
    exact SaysL.count0 h2 h.2
end

theorem RoleSays.roleOf {r : String} {role : PRole} (h : RoleSays r role) : Engine.roleOf r = role := by
  cases h <;> decide

mutual
/-- A text is read as the problem it says. Without `-l` the bound is the number of quantifiers. -/
theorem Says.reads : ∀ {d s n P}, Says fs d s n P → (∀ st ∈ P, Whole st) → ∀ (lim : Int64) (q : Nat) (e : Bool),
    ∃ b e', Reads fs d lim q e s P b (q + n) e' ∧ (lim = -1 → b = Int64.ofNat (q + n))
  | _, _, _, _, .mk (ts := ts) h1 _ h3 h4, hP, lim, q, e => by
    obtain ⟨y, hy, hq, _⟩ := lexAll_written h1 _ [] q e (Nat.le_refl _) (.inr (sfile_head h3))
    obtain ⟨b, e', h, h'⟩ := SaysL.reads h4 hP (if lim = -1 then Int64.ofNat y.quants else lim) y.quants y.hasEq
    rw [isQuant_eq, ← Nat.add_assoc, ← hq]
    exact ⟨b, e', .mk hy (sfile_drop h3) h, fun hl => h' (by rw [if_pos hl])⟩
theorem SaysL.reads : ∀ {d ss n P}, SaysL fs d ss n P → (∀ st ∈ P, Whole st) → ∀ (b : Int64) (q : Nat) (e : Bool),
    ∃ b' e', ReadsL fs d b q e (ss.map SStmt.drop) P b' (q + n) e' ∧ (b = Int64.ofNat q → b' = Int64.ofNat (q + n))
  | _, _, _, _, .nil, _, b, q, e => ⟨b, e, .nil, fun h => h⟩
  | _, _, _, _, .form hr h, hP, b, q, e => by
    obtain ⟨b', e', h, h'⟩ := SaysL.reads h (fun st hs => hP st (List.mem_cons_of_mem _ hs)) b q e
    rw [← hr.roleOf]
    exact ⟨b', e', .form h, h'⟩
  | _, _, _, _, .incl (k1 := k1) (P1 := P1) h0 h1 h2, hP, b, q, e => by
    have hw := hP _ (List.mem_cons_self ..)
    cases hw with
    | incl hw =>
    obtain ⟨b1, e1, r1, r1'⟩ := Says.reads h1 hw (-1) q e
    obtain ⟨b', e', r2, r2'⟩ := SaysL.reads h2 (fun st hs => hP st (List.mem_cons_of_mem _ hs))
      (if PStmt.formsL P1 = 0 then b else b1) (q + k1) e1
    rw [← Nat.add_assoc]
    refine ⟨b', e', .incl h0 r1 r2, fun hb => r2' ?_⟩
    split
    · next h => rw [Says.count0 h1 h]; exact hb
    · exact r1' rfl
  | _, _, _, _, .missing h0 h, hP, b, q, e => by
    obtain ⟨b', e', h, h'⟩ := SaysL.reads h (fun st hs => hP st (List.mem_cons_of_mem _ hs)) b q e
    exact ⟨b', e', .missing h0 h, h'⟩
end

/-! ### Problems without quantifiers -/

variable {ar : String → Nat}

theorem ground_whole {s : PStmt} (h : PStmt.Ground ar s) : Whole s := by
  induction h with
  | incl _ ih => exact .incl ih
  | form _ _ => exact .form

theorem ground_free (f : PForm) (h : (PForm.up f).Ground ar) : PForm.free f = true := by
  induction f with
  | top => rfl
  | bot => rfl
  | pred s args => rfl
  | neg f ih => exact ih h
  | bin op l r il ir => cases op <;> simp only [PForm.free, Bool.and_eq_true] <;> exact ⟨il h.1, ir h.2⟩
  | all => exact h.elim
  | ex => exact h.elim

theorem says_free {d : fs.Dir} : ∀ {ss n P}, SaysL fs d ss n P → (∀ st ∈ P, PStmt.Ground ar st) → ∀ s ∈ ss, s.free = true
  | _, _, _, .nil, _ => by simp
  | _, _, _, .form _ h, hP => by
    intro s hs
    rcases List.mem_cons.1 hs with rfl | hs
    · cases hP _ (List.mem_cons_self ..) with
      | form _ hw => exact ground_free _ hw
    · exact says_free h (fun st hs => hP st (List.mem_cons_of_mem _ hs)) s hs
  | _, _, _, .incl _ _ h2, hP => by
    intro s hs
    rcases List.mem_cons.1 hs with rfl | hs
    · rfl
    · exact says_free h2 (fun st hs => hP st (List.mem_cons_of_mem _ hs)) s hs
  | _, _, _, .missing _ h, hP => by
    cases hP _ (List.mem_cons_self ..)

mutual
theorem Says.none : ∀ {d s n P}, Says fs d s n P → (∀ st ∈ P, PStmt.Ground ar st) → n = 0
  | _, _, _, _, .mk _ _ h3 h4, hP => by
    rw [isQuant_eq, count_dull (dull_file h3 (says_free h4 hP)), SaysL.none h4 hP]
theorem SaysL.none : ∀ {d ss n P}, SaysL fs d ss n P → (∀ st ∈ P, PStmt.Ground ar st) → n = 0
  | _, _, _, _, .nil, _ => rfl
  | _, _, _, _, .form _ h, hP => SaysL.none h (fun st hs => hP st (List.mem_cons_of_mem _ hs))
  | _, _, _, _, .incl _ h1 h2, hP => by
    cases hP _ (List.mem_cons_self ..) with
    | incl hw =>
    rw [Says.none h1 hw, SaysL.none h2 (fun st hs => hP st (List.mem_cons_of_mem _ hs))]
  | _, _, _, _, .missing h0 h, hP => by
    cases hP _ (List.mem_cons_self ..)
end

end Verif.Whole
