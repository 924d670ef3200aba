/-!
# Terms, types and formulas (`src/AST`)

`Equals` on identifiers, variables and metavariables compares only the index
(src/AST/termsDef.go:64,277,331). The core model therefore keeps only the index; the file
`Verif.AST.Full` models the full Go records and proves that `Equals` on them is exactly
equality of the erased expressions below (property C11).

Simplifications: the raw identifier `Id`, which is also a Go `Term`, is not a term here (the
functions working on arguments of formulas reject it with an anomaly,
src/AST/formula.go:107); formula indices (used for printing and for naming metavariables) are
dropped; the cached sets of metavariables are dropped (src/Lib/cache.go recomputes them at each
call, because every formula method has a value receiver).
-/

namespace Verif.AST

/-- src/AST/ty-syntax.go:63-255. `TyBound.Equals` compares names only, `TyMeta.Equals` names and
indices. -/
inductive Ty where
  | var (repr : String)
  | bound (name : String)
  | mv (name : String) (index : Nat)
  | constr (symbol : String) (args : List Ty)
  | prod (args : List Ty)
  | func (inp out : Ty)
  | pi (vars : List String) (ty : Ty)

/-- src/AST/termsDef.go: `Var` (262), `Meta` (310), `Fun` (113). -/
inductive Term where
  | var (i : Nat)
  | mv (i : Nat)
  | fn (p : Nat) (tys : List Ty) (args : List Term)

/-! ### Induction principles -/

theorem Ty.ind {P : Ty → Prop}
    (var : ∀ s, P (.var s)) (bound : ∀ n, P (.bound n)) (mv : ∀ n i, P (.mv n i))
    (constr : ∀ s args, (∀ a ∈ args, P a) → P (.constr s args))
    (prod : ∀ args, (∀ a ∈ args, P a) → P (.prod args))
    (func : ∀ a b, P a → P b → P (.func a b)) (pi : ∀ vs t, P t → P (.pi vs t)) : ∀ t, P t := by
  intro t
  refine Ty.rec (motive_1 := P) (motive_2 := fun l => ∀ a ∈ l, P a)
    var bound mv (fun s args h => constr s args h) (fun args h => prod args h)
    func pi ?_ ?_ t
  · simp
  · intro h tl h1 h2 a ha
    rcases List.mem_cons.1 ha with rfl | ha
    · exact h1
    · exact h2 a ha

theorem Term.ind {P : Term → Prop}
    (var : ∀ i, P (.var i)) (mv : ∀ i, P (.mv i))
    (fn : ∀ p tys args, (∀ a ∈ args, P a) → P (.fn p tys args)) : ∀ t, P t := by
  intro t
  refine Term.rec (motive_1 := P) (motive_2 := fun l => ∀ a ∈ l, P a)
    var mv (fun p tys args h => fn p tys args h) ?_ ?_ t
  · simp
  · intro h tl h1 h2 a ha
    rcases List.mem_cons.1 ha with rfl | ha
    · exact h1
    · exact h2 a ha

/-! ### Decidable equality -/

mutual
def Ty.beq : Ty → Ty → Bool
  | .var a, .var b => a == b
  | .bound a, .bound b => a == b
  | .mv a i, .mv b j => a == b && i == j
  | .constr a l, .constr b m => a == b && Ty.beqL l m
  | .prod l, .prod m => Ty.beqL l m
  | .func a b, .func c d => Ty.beq a c && Ty.beq b d
  | .pi a s, .pi b t => a == b && Ty.beq s t
  | _, _ => false
def Ty.beqL : List Ty → List Ty → Bool
  | [], [] => true
  | a :: l, b :: m => Ty.beq a b && Ty.beqL l m
  | _, _ => false
end

theorem Ty.beqL_iff {l : List Ty} (h : ∀ a ∈ l, ∀ b, Ty.beq a b = true ↔ a = b) (m : List Ty) :
    Ty.beqL l m = true ↔ l = m := by
  induction l generalizing m with
  | nil => cases m <;> simp [Ty.beqL]
  | cons a l ih =>
    cases m with
    | nil => simp [Ty.beqL]
    | cons b m =>
      simp only [Ty.beqL, Bool.and_eq_true, List.cons.injEq]
      rw [h a (by simp), ih (fun a ha => h a (by simp [ha]))]

theorem Ty.beq_iff : ∀ a b : Ty, Ty.beq a b = true ↔ a = b := by
  intro a
  induction a using Ty.ind with
  | var s => intro b; cases b <;> simp [Ty.beq]
  | bound s => intro b; cases b <;> simp [Ty.beq]
  | mv s i => intro b; cases b <;> simp [Ty.beq]
  | constr s args ih =>
    intro b; cases b <;> simp [Ty.beq]
    intro _; exact Ty.beqL_iff ih _
  | prod args ih =>
    intro b; cases b <;> simp [Ty.beq]
    exact Ty.beqL_iff ih _
  | func x y ihx ihy => intro b; cases b <;> simp [Ty.beq, ihx, ihy]
  | pi vs t ih => intro b; cases b <;> simp [Ty.beq, ih]

instance : DecidableEq Ty := fun a b => decidable_of_iff _ (Ty.beq_iff a b)

mutual
def Term.beq : Term → Term → Bool
  | .var a, .var b => a == b
  | .mv a, .mv b => a == b
  | .fn p tys l, .fn q tys' m => p == q && decide (tys = tys') && Term.beqL l m
  | _, _ => false
def Term.beqL : List Term → List Term → Bool
  | [], [] => true
  | a :: l, b :: m => Term.beq a b && Term.beqL l m
  | _, _ => false
end

theorem Term.beqL_iff {l : List Term} (h : ∀ a ∈ l, ∀ b, Term.beq a b = true ↔ a = b)
    (m : List Term) : Term.beqL l m = true ↔ l = m := by
  induction l generalizing m with
  | nil => cases m <;> simp [Term.beqL]
  | cons a l ih =>
    cases m with
    | nil => simp [Term.beqL]
    | cons b m =>
      simp only [Term.beqL, Bool.and_eq_true, List.cons.injEq]
      rw [h a (by simp), ih (fun a ha => h a (by simp [ha]))]

theorem Term.beq_iff : ∀ a b : Term, Term.beq a b = true ↔ a = b := by
  intro a
  induction a using Term.ind with
  | var s => intro b; cases b <;> simp [Term.beq]
  | mv s => intro b; cases b <;> simp [Term.beq]
  | fn p tys args ih =>
    intro b; cases b <;> simp [Term.beq]
    rw [and_assoc, Term.beqL_iff ih]

instance : DecidableEq Term := fun a b => decidable_of_iff _ (Term.beq_iff a b)

/-- src/AST/typed-vars.go:43 `TypedVar`: its `Equals` (:53) compares name, index and type. -/
structure TVar where
  name : String
  index : Nat
  ty : Ty
deriving DecidableEq

/-- src/AST/formsDef.go and quantifiers.go.  -/
inductive Form where
  | pred (p : Nat) (tys : List Ty) (args : List Term)
  | top
  | bot
  | neg (f : Form)
  | and (fs : List Form)
  | or (fs : List Form)
  | imp (f g : Form)
  | equ (f g : Form)
  | all (vs : List TVar) (f : Form)
  | ex (vs : List TVar) (f : Form)

theorem Form.ind {P : Form → Prop}
    (pred : ∀ p tys args, P (.pred p tys args)) (top : P .top) (bot : P .bot)
    (neg : ∀ f, P f → P (.neg f))
    (and : ∀ fs, (∀ f ∈ fs, P f) → P (.and fs)) (or : ∀ fs, (∀ f ∈ fs, P f) → P (.or fs))
    (imp : ∀ f g, P f → P g → P (.imp f g)) (equ : ∀ f g, P f → P g → P (.equ f g))
    (all : ∀ vs f, P f → P (.all vs f)) (ex : ∀ vs f, P f → P (.ex vs f)) : ∀ f, P f := by
  intro f
  refine Form.rec (motive_1 := P) (motive_2 := fun l => ∀ a ∈ l, P a)
    pred top bot neg (fun fs h => and fs h) (fun fs h => or fs h) imp equ all ex ?_ ?_ f
  · simp
  · intro h tl h1 h2 a ha
    rcases List.mem_cons.1 ha with rfl | ha
    · exact h1
    · exact h2 a ha

mutual
def Form.beq : Form → Form → Bool
  | .pred p tys l, .pred q tys' m => p == q && decide (tys = tys') && decide (l = m)
  | .top, .top => true
  | .bot, .bot => true
  | .neg f, .neg g => Form.beq f g
  | .and l, .and m => Form.beqL l m
  | .or l, .or m => Form.beqL l m
  | .imp a b, .imp c d => Form.beq a c && Form.beq b d
  | .equ a b, .equ c d => Form.beq a c && Form.beq b d
  | .all vs f, .all ws g => decide (vs = ws) && Form.beq f g
  | .ex vs f, .ex ws g => decide (vs = ws) && Form.beq f g
  | _, _ => false
def Form.beqL : List Form → List Form → Bool
  | [], [] => true
  | a :: l, b :: m => Form.beq a b && Form.beqL l m
  | _, _ => false
end

theorem Form.beqL_iff {l : List Form} (h : ∀ a ∈ l, ∀ b, Form.beq a b = true ↔ a = b)
    (m : List Form) : Form.beqL l m = true ↔ l = m := by
  induction l generalizing m with
  | nil => cases m <;> simp [Form.beqL]
  | cons a l ih =>
    cases m with
    | nil => simp [Form.beqL]
    | cons b m =>
      simp only [Form.beqL, Bool.and_eq_true, List.cons.injEq]
      rw [h a (by simp), ih (fun a ha => h a (by simp [ha]))]

theorem Form.beq_iff : ∀ a b : Form, Form.beq a b = true ↔ a = b := by
  intro a
  induction a using Form.ind with
  | pred p tys args => intro b; cases b <;> simp [Form.beq, and_assoc]
  | top => intro b; cases b <;> simp [Form.beq]
  | bot => intro b; cases b <;> simp [Form.beq]
  | neg f ih => intro b; cases b <;> simp [Form.beq, ih]
  | and fs ih =>
    intro b; cases b <;> simp [Form.beq]
    exact Form.beqL_iff ih _
  | or fs ih =>
    intro b; cases b <;> simp [Form.beq]
    exact Form.beqL_iff ih _
  | imp f g ihf ihg => intro b; cases b <;> simp [Form.beq, ihf, ihg]
  | equ f g ihf ihg => intro b; cases b <;> simp [Form.beq, ihf, ihg]
  | all vs f ih => intro b; cases b <;> simp [Form.beq, ih]
  | ex vs f ih => intro b; cases b <;> simp [Form.beq, ih]

instance : DecidableEq Form := fun a b => decidable_of_iff _ (Form.beq_iff a b)

/-! ### Measures and occurrences -/

mutual
/-- Number of symbols of a term. -/
def Term.size : Term → Nat
  | .var _ => 1
  | .mv _ => 1
  | .fn _ _ args => 1 + Term.sizeL args
def Term.sizeL : List Term → Nat
  | [] => 0
  | a :: l => Term.size a + Term.sizeL l
end

mutual
/-- Metavariables occurring in a term, from left to right, with repetitions
(src/AST/termsDef.go:180 `GetMetaList`; as a set, :166 `forceGetMetas`). -/
def Term.metas : Term → List Nat
  | .var _ => []
  | .mv i => [i]
  | .fn _ _ args => Term.metasL args
def Term.metasL : List Term → List Nat
  | [] => []
  | a :: l => Term.metas a ++ Term.metasL l
end

mutual
/-- Bound variables (by index) occurring in a term. -/
def Term.vars : Term → List Nat
  | .var i => [i]
  | .mv _ => []
  | .fn _ _ args => Term.varsL args
def Term.varsL : List Term → List Nat
  | [] => []
  | a :: l => Term.vars a ++ Term.varsL l
end

mutual
/-- Function symbols (by index) occurring in a term. -/
def Term.funs : Term → List Nat
  | .var _ => []
  | .mv _ => []
  | .fn p _ args => p :: Term.funsL args
def Term.funsL : List Term → List Nat
  | [] => []
  | a :: l => Term.funs a ++ Term.funsL l
end

theorem Term.mem_metasL {l : List Term} {i : Nat} :
    i ∈ Term.metasL l ↔ ∃ a ∈ l, i ∈ Term.metas a := by
  induction l with
  | nil => simp [Term.metasL]
  | cons a l ih => simp [Term.metasL, ih]

theorem Term.mem_varsL {l : List Term} {i : Nat} :
    i ∈ Term.varsL l ↔ ∃ a ∈ l, i ∈ Term.vars a := by
  induction l with
  | nil => simp [Term.varsL]
  | cons a l ih => simp [Term.varsL, ih]

theorem Term.mem_funsL {l : List Term} {i : Nat} :
    i ∈ Term.funsL l ↔ ∃ a ∈ l, i ∈ Term.funs a := by
  induction l with
  | nil => simp [Term.funsL]
  | cons a l ih => simp [Term.funsL, ih]

theorem Term.size_pos (t : Term) : 0 < Term.size t := by
  cases t <;> simp [Term.size] <;> omega

theorem Term.size_lt_of_mem {l : List Term} {a : Term} (h : a ∈ l) : Term.size a ≤ Term.sizeL l := by
  induction l with
  | nil => cases h
  | cons b l ih =>
    rcases List.mem_cons.1 h with rfl | h
    · simp [Term.sizeL]
    · have := ih h; simp [Term.sizeL]; omega

mutual
/-- Metavariables occurring in a formula (src/AST/formsDef.go:223,344,458,570,678,882). -/
def Form.metas : Form → List Nat
  | .pred _ _ args => Term.metasL args
  | .top => []
  | .bot => []
  | .neg f => Form.metas f
  | .and fs => Form.metasL fs
  | .or fs => Form.metasL fs
  | .imp f g => Form.metas f ++ Form.metas g
  | .equ f g => Form.metas f ++ Form.metas g
  | .all _ f => Form.metas f
  | .ex _ f => Form.metas f
def Form.metasL : List Form → List Nat
  | [] => []
  | a :: l => Form.metas a ++ Form.metasL l
end

mutual
/-- Function symbols occurring in a formula. -/
def Form.funs : Form → List Nat
  | .pred _ _ args => Term.funsL args
  | .top => []
  | .bot => []
  | .neg f => Form.funs f
  | .and fs => Form.funsL fs
  | .or fs => Form.funsL fs
  | .imp f g => Form.funs f ++ Form.funs g
  | .equ f g => Form.funs f ++ Form.funs g
  | .all _ f => Form.funs f
  | .ex _ f => Form.funs f
def Form.funsL : List Form → List Nat
  | [] => []
  | a :: l => Form.funs a ++ Form.funsL l
end

mutual
/-- Variables bound by some quantifier of the formula (with repetitions). -/
def Form.binders : Form → List Nat
  | .pred _ _ _ => []
  | .top => []
  | .bot => []
  | .neg f => Form.binders f
  | .and fs => Form.bindersL fs
  | .or fs => Form.bindersL fs
  | .imp f g => Form.binders f ++ Form.binders g
  | .equ f g => Form.binders f ++ Form.binders g
  | .all vs f => vs.map TVar.index ++ Form.binders f
  | .ex vs f => vs.map TVar.index ++ Form.binders f
def Form.bindersL : List Form → List Nat
  | [] => []
  | a :: l => Form.binders a ++ Form.bindersL l
end

mutual
/-- Free variables of a formula. -/
def Form.fvs : Form → List Nat
  | .pred _ _ args => Term.varsL args
  | .top => []
  | .bot => []
  | .neg f => Form.fvs f
  | .and fs => Form.fvsL fs
  | .or fs => Form.fvsL fs
  | .imp f g => Form.fvs f ++ Form.fvs g
  | .equ f g => Form.fvs f ++ Form.fvs g
  | .all vs f => (Form.fvs f).filter (fun i => !(vs.map TVar.index).contains i)
  | .ex vs f => (Form.fvs f).filter (fun i => !(vs.map TVar.index).contains i)
def Form.fvsL : List Form → List Nat
  | [] => []
  | a :: l => Form.fvs a ++ Form.fvsL l
end

mutual
/-- Number of connectives and atoms. -/
def Form.size : Form → Nat
  | .pred _ _ _ => 1
  | .top => 1
  | .bot => 1
  | .neg f => 1 + Form.size f
  | .and fs => 1 + Form.sizeL fs
  | .or fs => 1 + Form.sizeL fs
  | .imp f g => 1 + Form.size f + Form.size g
  | .equ f g => 1 + Form.size f + Form.size g
  | .all _ f => 1 + Form.size f
  | .ex _ f => 1 + Form.size f
def Form.sizeL : List Form → Nat
  | [] => 0
  | a :: l => Form.size a + Form.sizeL l
end

theorem Form.mem_metasL {l : List Form} {i : Nat} :
    i ∈ Form.metasL l ↔ ∃ a ∈ l, i ∈ Form.metas a := by
  induction l with
  | nil => simp [Form.metasL]
  | cons a l ih => simp [Form.metasL, ih]

theorem Form.mem_funsL {l : List Form} {i : Nat} :
    i ∈ Form.funsL l ↔ ∃ a ∈ l, i ∈ Form.funs a := by
  induction l with
  | nil => simp [Form.funsL]
  | cons a l ih => simp [Form.funsL, ih]

theorem Form.mem_bindersL {l : List Form} {i : Nat} :
    i ∈ Form.bindersL l ↔ ∃ a ∈ l, i ∈ Form.binders a := by
  induction l with
  | nil => simp [Form.bindersL]
  | cons a l ih => simp [Form.bindersL, ih]

theorem Form.mem_fvsL {l : List Form} {i : Nat} :
    i ∈ Form.fvsL l ↔ ∃ a ∈ l, i ∈ Form.fvs a := by
  induction l with
  | nil => simp [Form.fvsL]
  | cons a l ih => simp [Form.fvsL, ih]

theorem Form.size_pos (f : Form) : 0 < Form.size f := by
  cases f <;> simp [Form.size] <;> omega

theorem Form.size_le_of_mem {l : List Form} {a : Form} (h : a ∈ l) : Form.size a ≤ Form.sizeL l := by
  induction l with
  | nil => cases h
  | cons b l ih =>
    rcases List.mem_cons.1 h with rfl | h
    · simp [Form.sizeL]
    · have := ih h; simp [Form.sizeL]; omega

theorem exists_mem_map' {α β : Type _} {g : α → β} {l : List α} {P : β → Prop} :
    (∃ y, y ∈ l.map g ∧ P y) ↔ ∃ x, x ∈ l ∧ P (g x) := by
  constructor
  · rintro ⟨_, h, hp⟩
    obtain ⟨x, hx, rfl⟩ := List.mem_map.1 h
    exact ⟨x, hx, hp⟩
  · rintro ⟨x, hx, hp⟩
    exact ⟨g x, List.mem_map.2 ⟨x, hx, rfl⟩, hp⟩

end Verif.AST
