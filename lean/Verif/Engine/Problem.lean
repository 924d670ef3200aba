import Verif.Engine.ElabOcc
/-!
# From the statements of a problem to the formula that is searched

`ToInternalSyntax` (src/Engine/syntax-translation.go) and `presearchLoader`,
`StatementListToFormula` (src/main.go).

Simplifications. Files are trees: an include statement carries the statements of the file it names, or
is a file that cannot be found; the search for files in directories (`getFile`, src/main.go:377) and the
parser are not modelled. The bound on the number of formulas and the flag for equality, computed on the
way, are left out: they do not influence the formula. Fatal errors and anomalies are `none`.
-/

namespace Verif.Engine
open Verif.AST

/-! ### Model -/

/-- `PFormulaRole` (src/Parser/psyntax.go:349) and `FormulaRole` of the core, without `Include`. -/
inductive PRole where
  | ax | conj | negConj | type | unknown
deriving DecidableEq

/-- `PFormulaRoleFromStr` (src/Parser/psyntax.go:388). -/
def roleOf (s : String) : PRole :=
  if s ∈ ["axiom", "hypothesis", "definition", "assumption", "lemma", "theorem"] then .ax
  else if s = "conjecture" then .conj
  else if s = "negated_conjecture" then .negConj
  else if s = "type" then .type
  else .unknown

/-- A statement of a file: `PStatement` (src/Parser/psyntax.go:360). The selection of names of an
include is part of the input; the parser drops it (src/Parser/tptp_parse.y:510-517). -/
inductive PStmt where
  | incl (sel : Option (List String)) (file : List PStmt)
  | missing
  | form (name : String) (role : PRole) (f : WForm)
  | typ (name : String) (role : PRole) (sym : String) (ty : PTy)

/-- `Core.Statement` after elaboration. -/
inductive CStmt where
  | incl (file : List PStmt)
  | missing
  | form (role : PRole) (f : Form)
  | typ (role : PRole) (sym : Nat) (ty : Ty)

/-- `ToInternalSyntax` (src/Engine/syntax-translation.go:61) and `elaborateParsingStatement` (line 73). -/
def toInternal (fl : Bool) : Ctx → Maker → List PStmt → Option (List CStmt × Bool × Maker)
  | _, m, [] => some ([], false, m)
  | con, m, .incl _ file :: l =>
    (toInternal fl con m l).map fun y => (.incl file :: y.1, y.2)
  | con, m, .missing :: l =>
    (toInternal fl con m l).map fun y => (.missing :: y.1, y.2)
  | con, m, .form _ role w :: l =>
    (elabForm fl con m w.parse).bind fun x =>
    (toInternal fl x.con x.m l).map fun y => (.form role x.val :: y.1, x.typed || y.2.1, y.2.2)
  | con, m, .typ _ role sym ty :: l =>
    (elabTy true (m.id sym).2 ty).bind fun x =>
    (toInternal fl (con ++ [(sym, ty)]) x.2 l).map fun y =>
      (.typ role (m.id sym).1 x.1 :: y.1, true, y.2.2)

/-- Local variables of `StatementListToFormula` (src/main.go:233-236). -/
structure LState where
  ands : List Form
  conj : Option Form
  typed : Bool
  m : Maker

/-- Result of reading a file: the formula if there is one, the flag of `ToInternalSyntax`, the flag
returned by `StatementListToFormula`. -/
structure FileOut where
  form : Option Form
  own : Bool
  inc : Bool
  m : Maker

/-- The loop of `StatementListToFormula` (src/main.go:244-313), with `doAxiomStatement` (line 338),
`doConjectureStatement` (line 359). `consume` is the answer of `dmt.RegisterAxiom`, constantly `false`
without that plugin; `g` reads an included file. The flag `is_typed` of the included file's own
statements is overwritten by the flag of the recursive call (lines 261-270). A statement with role
`type` and a formula, or another role and a type, raises an anomaly; unknown roles are fatal. -/
def loop (consume : Form → Bool) (g : Maker → List PStmt → Option FileOut) :
    List CStmt → LState → Option LState
  | [], st => some st
  | .incl file :: cs, st => (g st.m file).bind fun r =>
    loop consume g cs ⟨(match r.form with | some f => st.ands ++ [f] | none => st.ands), st.conj,
      st.typed || r.inc, r.m⟩
  | .missing :: _, _ => none
  | .form .ax f :: cs, st =>
    loop consume g cs ⟨if consume (f.rename st.m).1 then st.ands else st.ands ++ [(f.rename st.m).1],
      st.conj, st.typed, (f.rename st.m).2⟩
  | .form .conj f :: cs, st =>
    if st.conj.isSome then none else
    loop consume g cs ⟨st.ands, some (.neg (f.rename st.m).1), st.typed, (f.rename st.m).2⟩
  | .form .negConj f :: cs, st =>
    if st.conj.isSome then none else
    loop consume g cs ⟨st.ands, some (f.rename st.m).1, st.typed, (f.rename st.m).2⟩
  | .form .type _ :: _, _ => none
  | .form .unknown _ :: _, _ => none
  | .typ .type _ _ :: cs, st => loop consume g cs st
  | .typ _ _ _ :: _, _ => none

/-- The end of `StatementListToFormula` (src/main.go:315-331). -/
def finish (ands : List Form) (conj : Option Form) : Option Form :=
  match conj with
  | none => if ands.isEmpty then none else some (.and ands)
  | some c => if ands.isEmpty then some c else some (.and (flattenAnd ands ++ [c]))

/-- Elaboration of the statements of a file followed by `StatementListToFormula` (src/main.go:228); the
number bounds the nesting of includes. -/
def readFile (fl : Bool) (consume : Form → Bool) : Nat → Maker → List PStmt → Option FileOut
  | 0, _, _ => none
  | n + 1, m, file =>
    (toInternal fl initialContext m file).bind fun t =>
    (loop consume (readFile fl consume n) t.1 ⟨[], none, false, t.2.2⟩).map fun st =>
      ⟨finish st.ands st.conj, t.2.1, st.typed, st.m⟩

mutual
/-- Nesting of includes. -/
def PStmt.depth : PStmt → Nat
  | .incl _ file => PStmt.depthL file + 1
  | _ => 0
def PStmt.depthL : List PStmt → Nat
  | [] => 0
  | s :: l => max (PStmt.depth s) (PStmt.depthL l)
end

/-- How reading a problem ends. -/
inductive Outcome where
  | fatal
  | notFound
  | search (f : Form) (checked : Bool) (m : Maker)

/-- `presearchLoader` (src/main.go:128) and `checkForTypedProof` (line 405); `typeOk` is the type
checker. -/
def presearch (fl : Bool) (consume typeOk : Form → Bool) (m : Maker) (file : List PStmt) : Outcome :=
  match readFile fl consume (PStmt.depthL file + 1) m file with
  | none => .fatal
  | some r =>
    match r.form with
    | none => .notFound
    | some f =>
      if r.own || r.inc then (if typeOk f then .search f true r.m else .fatal)
      else .search f false r.m

/-! ### Specification -/

/-- What a formula contributes to the problem. -/
def PRole.means {D : Type u} (S : Str D) (w : WForm) : PRole → Prop
  | .ax => ∀ v, w.sat S v
  | .conj => ¬ ∀ v, w.sat S v
  | .negConj => ∀ v, w.sat S v
  | .type => True
  | .unknown => True

mutual
/-- All axioms of the problem and the negation of the conjecture hold in `S`; `pick` tells which names
are selected by the includes around. -/
def PStmt.means {D : Type u} (S : Str D) (pick : String → Bool) : PStmt → Prop
  | .incl sel file => PStmt.meansL S (fun n => pick n && (match sel with
      | none => true
      | some l => l.contains n)) file
  | .missing => True
  | .form n role w => pick n = true → role.means S w
  | .typ _ _ _ _ => True
def PStmt.meansL {D : Type u} (S : Str D) (pick : String → Bool) : List PStmt → Prop
  | [] => True
  | s :: l => PStmt.means S pick s ∧ PStmt.meansL S pick l
end

/-- The problem as a whole. -/
def ProblemMeans {D : Type u} (S : Str D) (file : List PStmt) : Prop := PStmt.meansL S (fun _ => true) file

mutual
/-- Number of conjectures in the problem. -/
def PStmt.conjs : PStmt → Nat
  | .incl _ file => PStmt.conjsL file
  | .form _ .conj _ => 1
  | .form _ .negConj _ => 1
  | _ => 0
def PStmt.conjsL : List PStmt → Nat
  | [] => 0
  | s :: l => PStmt.conjs s + PStmt.conjsL l
end

mutual
/-- Number of formulas in the problem. -/
def PStmt.forms : PStmt → Nat
  | .incl _ file => PStmt.formsL file
  | .form _ _ _ => 1
  | _ => 0
def PStmt.formsL : List PStmt → Nat
  | [] => 0
  | s :: l => PStmt.forms s + PStmt.formsL l
end

/-- The tables after `Init` (src/AST/maker.go:67). -/
def initMaker : Maker := (Maker.reset.id "=").2

/-- The statement of C43: for every problem that is read, the formula is satisfiable exactly when the
problem is; two conjectures are rejected; a problem is reported as empty exactly when it is. -/
def C43_statement : Prop :=
  ∀ (fl : Bool) (consume typeOk : Form → Bool) (file : List PStmt),
    (∀ f c m, presearch fl consume typeOk initMaker file = .search f c m → ∀ D : Type,
      (∃ (I : Interp D) (μ ρ : Nat → D), Form.holds I μ ρ f) ↔
        ∃ S : Str D, Nonempty D ∧ ProblemMeans S file) ∧
    (2 ≤ PStmt.conjsL file → presearch fl consume typeOk initMaker file = .fatal) ∧
    (presearch fl consume typeOk initMaker file = .notFound → PStmt.formsL file = 0)

/-! ### Untyped problems -/

/-- Untyped problems: formulas of FOF without free variables, in files included as a whole. -/
inductive PStmt.Fof (V F : String → Prop) : PStmt → Prop
  | incl {file} : (∀ s ∈ file, PStmt.Fof V F s) → PStmt.Fof V F (.incl none file)
  | form {n role w} : (role = .ax ∨ role = .conj ∨ role = .negConj) → w.Fof V F → w.AllI →
      (∀ x, x ∉ w.fv) → PStmt.Fof V F (.form n role w)

/-- Tables in order. -/
structure Inv (m : Maker) : Prop where
  ok : MOK m
  fresh : m.NamesFresh

theorem Inv_reset : Inv Maker.reset := ⟨MOK_reset, fun _ _ _ _ => rfl⟩

theorem Inv_init : Inv initMaker := ⟨(id_ok MOK_reset "=").2.1, id_fresh Inv_reset.fresh⟩

/-- Symbols keep their numbers. Variables need not: renaming gives their names new numbers. -/
structure IdsLe (m m' : Maker) : Prop where
  ids : ∀ s i, m.ids s = some i → m'.ids s = some i
  cpt : m.cpt ≤ m'.cpt

theorem IdsLe.refl (m : Maker) : IdsLe m m := ⟨fun _ _ h => h, Nat.le_refl _⟩
theorem IdsLe.trans {a b c : Maker} (h : IdsLe a b) (h' : IdsLe b c) : IdsLe a c :=
  ⟨fun s i x => h'.ids s i (h.ids s i x), Nat.le_trans h.cpt h'.cpt⟩

theorem Reads1.mono {D : Type u} {m m' : Maker} {S : Str D} {I : Interp D} (h : IdsLe m m')
    (r : Reads1 m' S I) : Reads1 m S I := fun s i hs => r s i (h.ids s i hs)

/-- Closed formula whose variables can be renamed. -/
structure Ready (f : Form) (m : Maker) : Prop where
  mono : f.mono
  names : ∀ s ∈ f.bnames, NoDigitEnd s
  binders : ∀ i ∈ f.binders, i < m.cpt ∧ i ∉ f.funs
  fvs : ∀ i, i ∉ f.fvs

theorem Ready.le {f : Form} {m m' : Maker} (h : Ready f m) (hl : m.cpt ≤ m'.cpt) : Ready f m' :=
  ⟨h.mono, h.names, fun i hi => ⟨Nat.lt_of_lt_of_le (h.binders i hi).1 hl, (h.binders i hi).2⟩, h.fvs⟩

/-- The internal formula is true exactly in the structures with property `P`. -/
def Tells (f : Form) (m : Maker) (P : ∀ (D : Type u), Str D → Prop) : Prop :=
  ∀ (D : Type u) (S : Str D) (I : Interp D) (μ ρ : Nat → D), Reads1 m S I →
    (Form.holds I μ ρ f ↔ P D S)

theorem Tells.le {f : Form} {m m' : Maker} {P : ∀ (D : Type u), Str D → Prop} (h : Tells f m P)
    (hl : IdsLe m m') : Tells f m' P := fun D S I μ ρ hr => h D S I μ ρ (hr.mono hl)

/-- Renaming a ready formula. -/
theorem rename_ready {f : Form} {m : Maker} {P : ∀ (D : Type u), Str D → Prop} (hi : Inv m)
    (h : Ready f m) (ht : Tells f m P) :
    Tells (f.rename m).1 (f.rename m).2 P ∧ IdsLe m (f.rename m).2 ∧ Inv (f.rename m).2 := by
  have s := Form.rename_spec.{u} f m h.mono h.names hi.fresh h.binders
    (fun i hi => absurd hi (h.fvs i))
  have k := rename_maker f m hi.ok
  have hle : IdsLe m (f.rename m).2 := ⟨fun s i hs => by rw [k.1]; exact hs, k.2.2⟩
  refine ⟨?_, hle, k.2.1, s.fresh⟩
  intro D S I μ ρ hr
  rw [s.holds I ρ μ]
  exact ht D S I μ ρ (hr.mono hle)

theorem Ext.idsLe {m m' : Maker} (h : Ext m m') (hc : m.cpt ≤ m'.cpt) : IdsLe m m' := ⟨h.ids, hc⟩

/-! #### The counter grows -/

theorem var_cpt (m : Maker) (n : String) : m.cpt ≤ (m.var n).2.cpt := by
  unfold Maker.var; split
  · exact Nat.le_refl _
  · exact Nat.le_succ _

theorem id_cpt (m : Maker) (n : String) : m.cpt ≤ (m.id n).2.cpt := by
  unfold Maker.id; split
  · exact Nat.le_refl _
  · exact Nat.le_succ _

mutual
theorem elabTy_cpt (top : Bool) : ∀ (ty : PTy) (m : Maker) (r : Ty × Maker), elabTy top m ty = some r →
    m.cpt ≤ r.2.cpt
  | .var n, m, r, h => by
    simp only [elabTy] at h
    split at h <;> cases h
    · exact Nat.le_refl _
    · exact var_cpt m n
  | .fn s args, m, r, h => by
    simp only [elabTy, Option.map_eq_some_iff] at h
    obtain ⟨x, hx, rfl⟩ := h
    exact elabTyL_cpt top args m x hx
  | .prod l r', m, r, h => by
    simp only [elabTy] at h
    split at h
    · cases h
    simp only [Option.bind_eq_some_iff, Option.map_eq_some_iff] at h
    obtain ⟨x, hx, y, hy, rfl⟩ := h
    exact Nat.le_trans (elabTy_cpt top l m x hx) (elabTy_cpt top r' _ y hy)
  | .map l r', m, r, h => by
    simp only [elabTy] at h
    split at h
    · cases h
    simp only [Option.bind_eq_some_iff, Option.map_eq_some_iff] at h
    obtain ⟨x, hx, y, hy, rfl⟩ := h
    exact Nat.le_trans (elabTy_cpt top l m x hx) (elabTy_cpt top r' _ y hy)
  | .all vs t, m, r, h => by
    simp only [elabTy, Option.bind_eq_some_iff] at h
    obtain ⟨x, hx, h⟩ := h
    have := elabTy_cpt top t m x hx
    split at h <;> cases h
    exact this
theorem elabTyL_cpt (top : Bool) : ∀ (l : List PTy) (m : Maker) (r : List Ty × Maker),
    elabTyL top m l = some r → m.cpt ≤ r.2.cpt
  | [], m, r, h => by simp only [elabTyL] at h; cases h; exact Nat.le_refl _
  | a :: l, m, r, h => by
    simp only [elabTyL, Option.bind_eq_some_iff, Option.map_eq_some_iff] at h
    obtain ⟨x, hx, y, hy, rfl⟩ := h
    exact Nat.le_trans (elabTy_cpt top a m x hx) (elabTyL_cpt top l _ y hy)
end

mutual
theorem elabT_cpt : ∀ (t : PTm) (con : Ctx) (m : Maker) (r : Out Term), elabT con m t = some r →
    m.cpt ≤ r.m.cpt
  | .var n, con, m, r, h => by simp only [elabT] at h; cases h; exact var_cpt m n
  | .fn s args dt, con, m, r, h => by
    simp only [elabT, Option.bind_eq_some_iff] at h
    obtain ⟨tys, _, x, hx, targs, _, y, hy, h⟩ := h
    have h1 := elabL_cpt args con m tys x hx
    have h2 := elabTyL_cpt false targs _ y hy
    have h3 := id_cpt x.m s
    split at h
    · cases h; exact Nat.le_trans (Nat.le_trans h1 h3) h2
    · simp only [Option.map_eq_some_iff] at h
      obtain ⟨z, hz, rfl⟩ := h
      exact Nat.le_trans (Nat.le_trans (Nat.le_trans h1 h3) h2) (elabTy_cpt false _ _ z hz)
theorem elabL_cpt : ∀ (l : List PTm) (con : Ctx) (m : Maker) (tys : List PTy) (r : Out (List Term)),
    elabL con m tys l = some r → m.cpt ≤ r.m.cpt
  | [], con, m, tys, r, h => by simp only [elabL] at h; cases h; exact Nat.le_refl _
  | a :: l, con, m, tys, r, h => by
    cases tys with
    | nil => simp only [elabL] at h; cases h; exact Nat.le_refl _
    | cons ty tys =>
    simp only [elabL] at h
    split at h
    · exact elabL_cpt l con m tys r h
    · simp only [Option.bind_eq_some_iff, Option.map_eq_some_iff] at h
      obtain ⟨x, hx, y, hy, rfl⟩ := h
      exact Nat.le_trans (elabT_cpt a con m x hx) (elabL_cpt l x.con x.m tys y hy)
end

theorem pretypeVars_cpt : ∀ (vs : List (String × PTy)) (m : Maker) (r : List TVar × Maker),
    pretypeVars m vs = some r → m.cpt ≤ r.2.cpt
  | [], m, r, h => by simp only [pretypeVars] at h; cases h; exact Nat.le_refl _
  | e :: vs, m, r, h => by
    simp only [pretypeVars, Option.bind_eq_some_iff, Option.map_eq_some_iff] at h
    obtain ⟨x, hx, y, hy, rfl⟩ := h
    exact Nat.le_trans (Nat.le_trans (elabTy_cpt false _ m x hx) (var_cpt _ _))
      (pretypeVars_cpt vs _ y hy)

theorem elabSeq_cpt {g : Ctx → Maker → PForm → Option (Out Form)}
    (hg : ∀ f con m r, g con m f = some r → m.cpt ≤ r.m.cpt) : ∀ (fs : List PForm) (con : Ctx) (m : Maker)
    (r : Out (List Form)), elabSeq g con m fs = some r → m.cpt ≤ r.m.cpt
  | [], con, m, r, h => by simp only [elabSeq] at h; cases h; exact Nat.le_refl _
  | f :: fs, con, m, r, h => by
    simp only [elabSeq, Option.bind_eq_some_iff, Option.map_eq_some_iff] at h
    obtain ⟨x, hx, y, hy, rfl⟩ := h
    exact Nat.le_trans (hg f con m x hx) (elabSeq_cpt hg fs x.con x.m y hy)

theorem elabN_cpt (fl : Bool) : ∀ (n : Nat) (f : PForm) (con : Ctx) (m : Maker) (r : Out Form),
    elabN fl n con m f = some r → m.cpt ≤ r.m.cpt := by
  intro n
  induction n with
  | zero => intro f con m r h; simp [elabN] at h
  | succ n ih =>
    intro f con m r h
    cases f with
    | top => simp only [elabN] at h; cases h; exact Nat.le_refl _
    | bot => simp only [elabN] at h; cases h; exact Nat.le_refl _
    | pred s args =>
      simp only [elabN, Option.bind_eq_some_iff, Option.map_eq_some_iff] at h
      obtain ⟨tys, _, x, hx, targs, _, y, hy, rfl⟩ := h
      exact Nat.le_trans (Nat.le_trans (elabL_cpt args con m tys x hx) (id_cpt x.m s))
        (elabTyL_cpt false targs _ y hy)
    | neg f =>
      simp only [elabN, Option.map_eq_some_iff] at h
      obtain ⟨x, hx, rfl⟩ := h
      exact ih f con m x hx
    | bin op l r' =>
      simp only [elabN, Option.bind_eq_some_iff, Option.map_eq_some_iff] at h
      obtain ⟨x, hx, f', _, rfl⟩ := h
      exact elabSeq_cpt ih _ con m x hx
    | all vs f =>
      simp only [elabN, Option.bind_eq_some_iff, Option.map_eq_some_iff] at h
      obtain ⟨q, hq, x, hx, rfl⟩ := h
      exact Nat.le_trans (pretypeVars_cpt vs m q hq) (ih _ _ _ x hx)
    | ex vs f =>
      simp only [elabN, Option.bind_eq_some_iff] at h
      obtain ⟨q, hq, h⟩ := h
      split at h
      · cases h
      simp only [Option.map_eq_some_iff] at h
      obtain ⟨x, hx, rfl⟩ := h
      exact Nat.le_trans (pretypeVars_cpt vs m q hq) (ih _ _ _ x hx)

/-! #### Elaboration of the statements of an untyped file -/

/-- The elaborated statements of a file correspond to the written ones. -/
def MatchL.{u} (m : Maker) : List PStmt → List CStmt → Prop
  | [], [] => True
  | .incl _ file :: l, .incl file' :: cs => file' = file ∧ MatchL m l cs
  | .form _ role w :: l, .form role' f :: cs =>
    role' = role ∧ Ready f m ∧ Tells.{u} f m (fun _ S => ∀ v, w.sat S v) ∧ MatchL m l cs
  | _, _ => False

theorem MatchL.le {m m' : Maker} (hl : IdsLe m m') : ∀ {l : List PStmt} {cs : List CStmt},
    MatchL.{u} m l cs → MatchL.{u} m' l cs
  | [], [], _ => trivial
  | .incl _ _ :: _, .incl _ :: _, h => ⟨h.1, MatchL.le hl h.2⟩
  | .form _ _ _ :: _, .form _ _ :: _, h => ⟨h.1, h.2.1.le hl.cpt, h.2.2.1.le hl, MatchL.le hl h.2.2.2⟩
  | [], _ :: _, h => h.elim
  | .incl _ _ :: _, [], h => h.elim
  | .incl _ _ :: _, .missing :: _, h => h.elim
  | .incl _ _ :: _, .form _ _ :: _, h => h.elim
  | .incl _ _ :: _, .typ _ _ _ :: _, h => h.elim
  | .form _ _ _ :: _, [], h => h.elim
  | .form _ _ _ :: _, .missing :: _, h => h.elim
  | .form _ _ _ :: _, .incl _ :: _, h => h.elim
  | .form _ _ _ :: _, .typ _ _ _ :: _, h => h.elim
  | .missing :: _, _, h => by simp [MatchL] at h
  | .typ _ _ _ _ :: _, _, h => by simp [MatchL] at h

section
variable {V F : String → Prop}

/-- One formula. -/
theorem elabForm_ready (fl : Bool) (L : Lex V F) (con : Ctx) (m : Maker) (w : WForm) (hw : w.Fof V F)
    (hI : w.AllI) (hcl : ∀ x, x ∉ w.fv) (hc : FofCon V F con) (hi : ConI V con) (hm : Inv m) :
    ∃ r, elabForm fl con m w.parse = some r ∧ IdsLe m r.m ∧ Inv r.m ∧ FofCon V F r.con ∧ ConI V r.con ∧
      r.typed = false ∧ Ready r.val r.m ∧ Tells.{u} r.val r.m (fun _ S => ∀ v, w.sat S v) := by
  obtain ⟨r, hr, _, sem, _⟩ := C16_fof_satisfiable.{u} fl con m w L hw hI hc hi hm.ok hm.fresh
  obtain ⟨e, k, fr, c, syn⟩ := elabN_syn fl L _ w.parse con m r (parse_fof hw) hc hm.ok hm.fresh hr
  have ci := (elabN_occ fl L _ w.parse con m r ⟨parse_fof hw, parse_allI w hI⟩ hc hi hm.ok hm.fresh hr).1
  have ht : r.typed = false := by
    obtain ⟨r', hr', _, _, _, ht, _⟩ := C16_fof.{0} fl con m w hw L.defined L.disj hc hm.ok
    rw [hr] at hr'; cases hr'; exact ht
  have hfv : ∀ i, i ∉ r.val.fvs := by
    intro i hi'
    obtain ⟨n, hn, _⟩ := syn.fvs i hi'
    exact hcl n (parse_fv w n hn)
  refine ⟨r, hr, e.idsLe (elabN_cpt fl _ _ _ _ _ hr), ⟨k, fr⟩, c, ci, ht,
    ⟨syn.mono, fun s hs => L.digits s (syn.names s hs), ?_, hfv⟩, ?_⟩
  · intro i hi'
    obtain ⟨n, hn⟩ := syn.binders i hi'
    refine ⟨k.vars_lt n i hn, ?_⟩
    intro hfun
    obtain ⟨s, hs⟩ := syn.funs i hfun
    exact k.disj s n i hs hn
  · intro D S I μ ρ hR
    have hany : ∀ v, (Form.holds I μ ρ r.val ↔ w.sat S v) := by
      intro v
      obtain ⟨ρ', hρ'⟩ := vreads_exists k v
      rw [← sem D S I v ρ' μ hR hρ']
      exact Form.holds_congr (fun i hi => absurd hi (hfv i)) (fun _ _ => rfl) (fun _ _ => rfl) rfl
    constructor
    · intro h v; exact (hany v).1 h
    · intro h; exact (hany fun _ => ρ 0).2 (h _)

theorem toInternal_fof (fl : Bool) (L : Lex V F) : ∀ (l : List PStmt) (con : Ctx) (m : Maker),
    (∀ s ∈ l, PStmt.Fof V F s) → FofCon V F con → ConI V con → Inv m →
    ∃ cs m', toInternal fl con m l = some (cs, false, m') ∧ IdsLe m m' ∧ Inv m' ∧ MatchL.{u} m' l cs
  | [], con, m, _, _, _, hm => ⟨[], m, rfl, IdsLe.refl m, hm, trivial⟩
  | s :: l, con, m, hl, hc, hi, hm => by
    cases hl s (by simp) with
    | @incl file hfile =>
      obtain ⟨cs, m', h1, h2, h3, h4⟩ := toInternal_fof fl L l con m
        (fun s hs => hl s (List.mem_cons_of_mem _ hs)) hc hi hm
      exact ⟨.incl file :: cs, m', by simp [toInternal, h1], h2, h3, rfl, h4⟩
    | @form n role w hrole hw hI hcl =>
      obtain ⟨r, hr, a1, a2, a3, a4, a5, a6, a7⟩ := elabForm_ready.{u} fl L con m w hw hI hcl hc hi hm
      obtain ⟨cs, m', h1, h2, h3, h4⟩ := toInternal_fof fl L l r.con r.m
        (fun s hs => hl s (List.mem_cons_of_mem _ hs)) a3 a4 a2
      exact ⟨.form role r.val :: cs, m', by simp [toInternal, hr, h1, a5], a1.trans h2, h3, rfl,
        a6.le h2.cpt, a7.le h2, h4⟩

/-- What is shown of a file that was read. -/
structure FileSpec (m : Maker) (file : List PStmt) (r : FileOut) : Prop where
  le : IdsLe m r.m
  inv : Inv r.m
  own : r.own = false
  inc : r.inc = false
  none : r.form = none ↔ PStmt.formsL file = 0
  some : ∀ f, r.form = some f → Tells.{u} f r.m (fun _ S => ProblemMeans S file)

theorem formsL_zero_means {D : Type u} (S : Str D) (file : List PStmt)
    (hf : ∀ s ∈ file, PStmt.Fof V F s) (h : PStmt.formsL file = 0) (pick : String → Bool) :
    PStmt.meansL S pick file := by
  suffices ∀ s, PStmt.Fof V F s → PStmt.forms s = 0 → ∀ pick, PStmt.means S pick s by
    induction file with
    | nil => trivial
    | cons s l ih =>
      simp only [PStmt.formsL, Nat.add_eq_zero_iff] at h
      exact ⟨this s (hf s (by simp)) h.1 pick, ih (fun s hs => hf s (List.mem_cons_of_mem _ hs)) h.2⟩
  intro s hs
  induction hs with
  | @incl file hfile ih =>
    intro h pick
    simp only [PStmt.forms] at h
    simp only [PStmt.means]
    generalize (fun n => pick n && true) = pick'
    clear pick hfile
    induction file with
    | nil => trivial
    | cons s l ih' =>
      simp only [PStmt.formsL, Nat.add_eq_zero_iff] at h
      exact ⟨ih s (by simp) h.1 pick', ih' (fun s hs => ih s (List.mem_cons_of_mem _ hs)) h.2⟩
  | form _ _ _ _ => intro h; simp [PStmt.forms] at h

/-- The formulas collected so far hold. -/
def LState.holds {D : Type u} (I : Interp D) (μ ρ : Nat → D) (st : LState) : Prop :=
  (∀ f ∈ st.ands, Form.holds I μ ρ f) ∧ ∀ f, st.conj = some f → Form.holds I μ ρ f

theorem means_incl {D : Type u} (S : Str D) (file : List PStmt) :
    PStmt.means S (fun _ => true) (.incl none file) ↔ ProblemMeans S file := by
  simp only [PStmt.means, Bool.and_true, ProblemMeans]

/-- The loop over the statements. -/
theorem loop_spec {g : Maker → List PStmt → Option FileOut}
    (hg : ∀ m file r, (∀ s ∈ file, PStmt.Fof V F s) → Inv m → g m file = some r → FileSpec.{u} m file r) :
    ∀ (cs : List CStmt) (l : List PStmt) (st st' : LState), (∀ s ∈ l, PStmt.Fof V F s) →
    MatchL.{u} st.m l cs → Inv st.m → st.typed = false →
    loop (fun _ => false) g cs st = some st' →
    IdsLe st.m st'.m ∧ Inv st'.m ∧ st'.typed = false ∧
    ((st'.ands = [] ∧ st'.conj = none) ↔ (st.ands = [] ∧ st.conj = none) ∧ PStmt.formsL l = 0) ∧
    ∀ (D : Type u) (S : Str D) (I : Interp D) (μ ρ : Nat → D), Reads1 st'.m S I →
      (st'.holds I μ ρ ↔ st.holds I μ ρ ∧ PStmt.meansL S (fun _ => true) l)
  | [], l, st, st', hl, hm, hi, ht, h => by
    simp only [loop, Option.some.injEq] at h
    subst h
    cases l with
    | nil =>
      exact ⟨IdsLe.refl _, hi, ht, by simp [PStmt.formsL], by intros; simp [PStmt.meansL]⟩
    | cons s l => cases s <;> exact hm.elim
  | c :: cs, [], st, st', hl, hm, hi, ht, h => hm.elim
  | c :: cs, s :: l, st, st', hl, hm, hi, ht, h => by
    have hl' : ∀ s ∈ l, PStmt.Fof V F s := fun s hs => hl s (List.mem_cons_of_mem _ hs)
    cases hl s (by simp) with
    | @incl file hfile =>
      cases c with
      | missing => exact hm.elim
      | form _ _ => exact hm.elim
      | typ _ _ _ => exact hm.elim
      | incl file' =>
      obtain ⟨rfl, hm⟩ := hm
      simp only [loop, Option.bind_eq_some_iff] at h
      obtain ⟨r, hr, h⟩ := h
      have sp := hg st.m file' r hfile hi hr
      obtain ⟨a1, a2, a3, a4, a5⟩ := loop_spec hg cs l _ st' hl' (hm.le sp.le) sp.inv
        (by simp [ht, sp.inc]) h
      refine ⟨sp.le.trans a1, a2, a3, ?_, ?_⟩
      · rw [a4]
        simp only [PStmt.formsL, PStmt.forms, Nat.add_eq_zero_iff]
        cases hrf : r.form with
        | none => simp [sp.none.1 hrf]
        | some f =>
          have : PStmt.formsL file' ≠ 0 := fun hz => by
            have := sp.none.2 hz; rw [hrf] at this; cases this
          simp [this]
      · intro D S I μ ρ hR
        rw [a5 D S I μ ρ hR]
        simp only [PStmt.meansL, means_incl]
        cases hrf : r.form with
        | none =>
          have := formsL_zero_means S file' hfile (sp.none.1 hrf) (fun _ => true)
          simp only [LState.holds, ProblemMeans, this, true_and]
        | some f =>
          have hT := sp.some f hrf D S I μ ρ (hR.mono a1)
          simp only [LState.holds, List.mem_append, List.mem_singleton, or_imp, forall_and, forall_eq,
            hT, and_assoc, and_comm, and_left_comm]
    | @form n role w hrole hw hI hcl =>
      cases c with
      | missing => exact hm.elim
      | incl _ => exact hm.elim
      | typ _ _ _ => exact hm.elim
      | form role' f =>
      obtain ⟨rfl, hrd, htl, hm⟩ := hm
      obtain ⟨b1, b2, b3⟩ := rename_ready hi hrd htl
      have key : ∀ (st1 : LState), st1.m = (f.rename st.m).2 → st1.typed = false →
          ¬ (st1.ands = [] ∧ st1.conj = none) → (∀ (D : Type u) (S : Str D) (I : Interp D) (μ ρ : Nat → D),
            Reads1 st1.m S I → (st1.holds I μ ρ ↔ st.holds I μ ρ ∧ role'.means S w)) →
          loop (fun _ => false) g cs st1 = some st' →
          IdsLe st.m st'.m ∧ Inv st'.m ∧ st'.typed = false ∧
          ((st'.ands = [] ∧ st'.conj = none) ↔
            (st.ands = [] ∧ st.conj = none) ∧ PStmt.formsL (.form n role' w :: l) = 0) ∧
          ∀ (D : Type u) (S : Str D) (I : Interp D) (μ ρ : Nat → D), Reads1 st'.m S I →
            (st'.holds I μ ρ ↔ st.holds I μ ρ ∧ PStmt.meansL S (fun _ => true) (.form n role' w :: l)) := by
        intro st1 h1 h2 h3 h4 h5
        obtain ⟨a1, a2, a3, a4, a5⟩ := loop_spec hg cs l st1 st' hl' (by rw [h1]; exact hm.le b2)
          (by rw [h1]; exact b3) h2 h5
        refine ⟨b2.trans (by rw [← h1]; exact a1), a2, a3, ?_, ?_⟩
        · rw [a4]
          simp only [h3, false_and, PStmt.formsL, PStmt.forms, Nat.add_eq_zero_iff, Nat.one_ne_zero,
            and_false]
        · intro D S I μ ρ hR
          rw [a5 D S I μ ρ hR, h4 D S I μ ρ (hR.mono a1)]
          simp only [PStmt.meansL, PStmt.means, forall_const, and_assoc]
      rcases hrole with rfl | rfl | rfl
      · simp only [loop, Bool.false_eq_true, if_false] at h
        refine key _ (by rfl) (by exact ht) (by simp) ?_ h
        intro D S I μ ρ hR
        have hT := b1 D S I μ ρ hR
        simp only [LState.holds, List.mem_append, List.mem_singleton, or_imp, forall_and, forall_eq, hT,
          PRole.means, and_assoc, and_comm, and_left_comm]
      · simp only [loop] at h
        split at h
        · cases h
        · next hn =>
          refine key _ (by rfl) (by exact ht) (by simp) ?_ h
          intro D S I μ ρ hR
          have hT := b1 D S I μ ρ hR
          have hcn : st.conj = none := by simpa using hn
          simp only [LState.holds, Option.some.injEq, forall_eq', Form.holds_neg, hT, hcn, PRole.means]
          simp
      · simp only [loop] at h
        split at h
        · cases h
        · next hn =>
          refine key _ (by rfl) (by exact ht) (by simp) ?_ h
          intro D S I μ ρ hR
          have hT := b1 D S I μ ρ hR
          have hcn : st.conj = none := by simpa using hn
          simp only [LState.holds, Option.some.injEq, forall_eq', hT, hcn, PRole.means]
          simp

theorem finish_none {ands : List Form} {conj : Option Form} :
    finish ands conj = none ↔ ands = [] ∧ conj = none := by
  cases conj with
  | none => cases ands <;> simp [finish]
  | some c => cases ands <;> simp [finish]

theorem finish_some {D : Type u} {I : Interp D} {μ ρ : Nat → D} {st : LState} {f : Form}
    (h : finish st.ands st.conj = some f) : Form.holds I μ ρ f ↔ st.holds I μ ρ := by
  simp only [finish, List.isEmpty_iff] at h
  cases hc : st.conj with
  | none =>
    simp only [hc] at h
    split at h
    · cases h
    · cases h
      simp only [Form.holds_and, LState.holds, hc]
      simp
  | some c =>
    simp only [hc] at h
    split at h
    · next ha => cases h; simp [LState.holds, hc, ha]
    · cases h
      simp only [Form.holds_and, LState.holds, hc, List.mem_append, List.mem_singleton, or_imp, forall_and,
        forall_eq, flattenAnd_holds, Option.some.injEq, forall_eq']

/-- A file. -/
theorem readFile_spec (fl : Bool) (L : Lex V F) (hV : ∀ s, V s → UserName s) (hF : ∀ s, F s → UserName s) :
    ∀ (n : Nat) (m : Maker) (file : List PStmt) (r : FileOut), (∀ s ∈ file, PStmt.Fof V F s) → Inv m →
    readFile fl (fun _ => false) n m file = some r → FileSpec.{u} m file r := by
  intro n
  induction n with
  | zero => intro m file r _ _ h; simp [readFile] at h
  | succ n ih =>
    intro m file r hf hi h
    have hci : ConI V initialContext := by
      intro e he hv
      have : e.1 ∈ initialContext.map (·.1) := List.mem_map_of_mem he
      exact absurd this (hV _ hv)
    obtain ⟨cs, m', h1, h2, h3, h4⟩ := toInternal_fof.{u} fl L file initialContext m hf
      (initialContext_fof hV hF) hci hi
    simp only [readFile, h1, Option.bind_some, Option.map_eq_some_iff] at h
    obtain ⟨st, hst, rfl⟩ := h
    obtain ⟨a1, a2, a3, a4, a5⟩ := loop_spec ih cs file _ st hf h4 h3 rfl hst
    refine ⟨h2.trans a1, a2, rfl, a3, ?_, ?_⟩
    · simp only [finish_none, a4]
      simp
    · intro f hff D S I μ ρ hR
      rw [finish_some hff, a5 D S I μ ρ hR]
      simp [LState.holds, ProblemMeans]

end

/-- **C43 for untyped problems without rewriting.** Whenever a problem of closed FOF formulas, spread
over any tree of files included as a whole, is sent to the search, the formula searched is satisfiable
over a domain exactly when there is a structure over this domain in which all axioms hold and the
conjecture does not. In particular the formula is unsatisfiable exactly when the conjecture is a
consequence of the axioms. Missing: selections in includes, axioms turned into rewrite rules, types. -/
theorem C43_meaning_partial {V F : String → Prop} (fl : Bool) (typeOk : Form → Bool) (L : Lex V F)
    (hV : ∀ s, V s → UserName s) (hF : ∀ s, F s → UserName s) (m : Maker) (hi : Inv m)
    (file : List PStmt) (hf : ∀ s ∈ file, PStmt.Fof V F s) (f : Form) (c : Bool) (m' : Maker)
    (h : presearch fl (fun _ => false) typeOk m file = .search f c m') :
    (∀ (D : Type u) (S : Str D) (I : Interp D) (μ ρ : Nat → D), Reads1 m' S I →
      (Form.holds I μ ρ f ↔ ProblemMeans S file)) ∧
    ∀ (D : Type u), (∃ (I : Interp D) (μ ρ : Nat → D), Form.holds I μ ρ f) ↔
      ∃ S : Str D, Nonempty D ∧ ProblemMeans S file := by
  unfold presearch at h
  cases hr : readFile fl (fun _ => false) (PStmt.depthL file + 1) m file with
  | none => rw [hr] at h; cases h
  | some r =>
    have sp := readFile_spec.{u} fl L hV hF _ m file r hf hi hr
    rw [hr] at h
    simp only at h
    cases hrf : r.form with
    | none => rw [hrf] at h; cases h
    | some f' =>
      rw [hrf] at h
      simp only [sp.own, sp.inc, Bool.or_self, Bool.false_eq_true, if_false] at h
      cases h
      have hT := sp.some f hrf
      refine ⟨fun D S I μ ρ hR => hT D S I μ ρ hR, ?_⟩
      intro D
      constructor
      · rintro ⟨I, μ, ρ, h⟩
        obtain ⟨S, hS⟩ := reads1_of_interp r.m I
        exact ⟨S, ⟨ρ 0⟩, (hT D S I μ ρ hS).1 h⟩
      · rintro ⟨S, ⟨d⟩, h⟩
        obtain ⟨I, hI⟩ := reads_exists sp.inv.ok S
        exact ⟨I, fun _ => d, fun _ => d, (hT D S I _ _ hI.one).2 h⟩

end Verif.Engine
