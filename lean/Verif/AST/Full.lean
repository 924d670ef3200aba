import Verif.AST.Syntax
/-!
# C11: `Equals` on the full Go records

The Go records carry names, occurrence numbers, formula indices and types that the core model of
`Verif.AST.Syntax` forgets. Here they are modelled in full together with `Equals`, and `Equals` is
shown to be exactly equality of the core expressions.
-/
set_option linter.unusedSimpArgs false

namespace Verif.AST.Full

/-- src/AST/ty-syntax.go: tyVar (64), TyBound (80), TyMeta (110), TyConstr (147), TyProd (191),
TyFunc (224), TyPi (250). -/
inductive GTy where
  | var (repr : String)
  | bound (name : String) (index : Nat)
  | mv (name : String) (index : Nat) (formula : Int)
  | constr (symbol : String) (args : List GTy)
  | prod (args : List GTy)
  | func (inp out : GTy)
  | pi (vars : List String) (ty : GTy)

/-- src/AST/termsDef.go: Fun (113) with its Id (49), Var (262), Meta (310). -/
inductive GTerm where
  | var (index : Nat) (name : String)
  | mv (index : Nat) (occurence : Int) (name : String) (formula : Int) (ty : GTy)
  | fn (index : Nat) (name : String) (tys : List GTy) (args : List GTerm)

/-- src/AST/typed-vars.go:43. -/
structure GTypedVar where
  name : String
  index : Nat
  ty : GTy

/-- src/AST/formsDef.go; each formula carries an index. -/
inductive GForm where
  | pred (index : Nat) (idIndex : Nat) (idName : String) (tys : List GTy) (args : List GTerm)
  | top (index : Nat)
  | bot (index : Nat)
  | neg (index : Nat) (f : GForm)
  | and (index : Nat) (fs : List GForm)
  | or (index : Nat) (fs : List GForm)
  | imp (index : Nat) (f g : GForm)
  | equ (index : Nat) (f g : GForm)
  | all (index : Nat) (vs : List GTypedVar) (f : GForm)
  | ex (index : Nat) (vs : List GTypedVar) (f : GForm)

/-! ### `Equals` -/

mutual
/-- src/AST/ty-syntax.go:72,92,119,163,207,236,268. -/
def GTy.equals : GTy → GTy → Bool
  | .var a, o => match o with | .var b => a == b | _ => false
  | .bound a _, o => match o with | .bound b _ => a == b | _ => false
  | .mv a i _, o => match o with | .mv b j _ => a == b && i == j | _ => false
  | .constr a l, o => match o with | .constr b m => a == b && GTy.equalsL l m | _ => false
  | .prod l, o => match o with | .prod m => GTy.equalsL l m | _ => false
  | .func a b, o => match o with | .func c d => GTy.equals a c && GTy.equals b d | _ => false
  | .pi a s, o => match o with | .pi b t => a == b && GTy.equals s t | _ => false
/-- `Lib.ListEquals` (src/Lib/list.go:109): same length and pointwise `Equals`. -/
def GTy.equalsL : List GTy → List GTy → Bool
  | [], m => m.isEmpty
  | a :: l, m => match m with | b :: m => GTy.equals a b && GTy.equalsL l m | [] => false
end

mutual
/-- src/AST/termsDef.go:142 (Fun), 277 (Var), 331 (Meta). `Fun` calls `typed.Equals(f)` on the
components, i.e. with the arguments swapped. -/
def GTerm.equals : GTerm → GTerm → Bool
  | .var i _, o => match o with | .var j _ => i == j | _ => false
  | .mv i _ _ _ _, o => match o with | .mv j _ _ _ _ => j == i | _ => false
  | .fn p _ tys args, o =>
    match o with
    | .fn q _ tys' args' => q == p && GTy.equalsL tys' tys && GTerm.equalsL args args'
    | _ => false
/-- `Lib.ListEquals` on terms; `Fun.Equals` calls it as `ListEquals(typed.args, f.args)`, here with
the receiver first (both orders give the same answer, see `GTerm.equals_iff`). -/
def GTerm.equalsL : List GTerm → List GTerm → Bool
  | [], m => m.isEmpty
  | a :: l, m => match m with | b :: m => GTerm.equals a b && GTerm.equalsL l m | [] => false
end

/-- src/AST/typed-vars.go:53. -/
def GTypedVar.equals (v w : GTypedVar) : Bool :=
  v.name == w.name && v.index == w.index && GTy.equals v.ty w.ty

/-- `Lib.ListEquals` on typed variables. -/
def GTypedVar.equalsL : List GTypedVar → List GTypedVar → Bool
  | [], [] => true
  | a :: l, b :: m => GTypedVar.equals a b && GTypedVar.equalsL l m
  | _, _ => false

mutual
/-- src/AST/formsDef.go:101,156,241,362,477,589,690,872,1014,1042 and quantifiers.go:101. -/
def GForm.equals : GForm → GForm → Bool
  | .pred _ p _ tys args, o =>
    match o with
    | .pred _ q _ tys' args' => q == p && GTy.equalsL tys' tys && GTerm.equalsL args' args
    | _ => false
  | .top _, o => match o with | .top _ => true | _ => false
  | .bot _, o => match o with | .bot _ => true | _ => false
  | .neg _ f, o => match o with | .neg _ g => GForm.equals f g | _ => false
  | .and _ l, o => match o with | .and _ m => GForm.equalsL l m | _ => false
  | .or _ l, o => match o with | .or _ m => GForm.equalsL l m | _ => false
  | .imp _ a b, o => match o with | .imp _ c d => GForm.equals a c && GForm.equals b d | _ => false
  | .equ _ a b, o => match o with | .equ _ c d => GForm.equals a c && GForm.equals b d | _ => false
  | .all _ vs f, o =>
    match o with | .all _ ws g => GTypedVar.equalsL vs ws && GForm.equals f g | _ => false
  | .ex _ vs f, o =>
    match o with | .ex _ ws g => GTypedVar.equalsL vs ws && GForm.equals f g | _ => false
def GForm.equalsL : List GForm → List GForm → Bool
  | [], m => m.isEmpty
  | a :: l, m => match m with | b :: m => GForm.equals a b && GForm.equalsL l m | [] => false
end

/-! ### Erasure: what an expression is, apart from names and bookkeeping -/

mutual
def GTy.erase : GTy → Ty
  | .var a => .var a
  | .bound a _ => .bound a
  | .mv a i _ => .mv a i
  | .constr a l => .constr a (GTy.eraseL l)
  | .prod l => .prod (GTy.eraseL l)
  | .func a b => .func (GTy.erase a) (GTy.erase b)
  | .pi a s => .pi a (GTy.erase s)
def GTy.eraseL : List GTy → List Ty
  | [] => []
  | a :: l => GTy.erase a :: GTy.eraseL l
end

mutual
def GTerm.erase : GTerm → Term
  | .var i _ => .var i
  | .mv i _ _ _ _ => .mv i
  | .fn p _ tys args => .fn p (GTy.eraseL tys) (GTerm.eraseL args)
def GTerm.eraseL : List GTerm → List Term
  | [] => []
  | a :: l => GTerm.erase a :: GTerm.eraseL l
end

def GTypedVar.erase (v : GTypedVar) : TVar := ⟨v.name, v.index, v.ty.erase⟩

mutual
def GForm.erase : GForm → Form
  | .pred _ p _ tys args => .pred p (GTy.eraseL tys) (GTerm.eraseL args)
  | .top _ => .top
  | .bot _ => .bot
  | .neg _ f => .neg (GForm.erase f)
  | .and _ fs => .and (GForm.eraseL fs)
  | .or _ fs => .or (GForm.eraseL fs)
  | .imp _ f g => .imp (GForm.erase f) (GForm.erase g)
  | .equ _ f g => .equ (GForm.erase f) (GForm.erase g)
  | .all _ vs f => .all (vs.map GTypedVar.erase) (GForm.erase f)
  | .ex _ vs f => .ex (vs.map GTypedVar.erase) (GForm.erase f)
def GForm.eraseL : List GForm → List Form
  | [] => []
  | a :: l => GForm.erase a :: GForm.eraseL l
end

/-! ### Proofs -/

mutual
theorem GTy.equals_iff : ∀ a b : GTy, GTy.equals a b = true ↔ a.erase = b.erase
  | .var _, b => by cases b <;> simp [GTy.equals, GTy.erase]
  | .bound _ _, b => by cases b <;> simp [GTy.equals, GTy.erase]
  | .mv _ _ _, b => by cases b <;> simp [GTy.equals, GTy.erase]
  | .constr _ l, b => by
    cases b <;> simp [GTy.equals, GTy.erase]
    intro _; exact GTy.equalsL_iff l _
  | .prod l, b => by
    cases b <;> simp [GTy.equals, GTy.erase]
    exact GTy.equalsL_iff l _
  | .func x y, b => by
    cases b <;> simp [GTy.equals, GTy.erase]
    rw [GTy.equals_iff x, GTy.equals_iff y]
  | .pi _ t, b => by
    cases b <;> simp [GTy.equals, GTy.erase]
    intro _; exact GTy.equals_iff t _
theorem GTy.equalsL_iff : ∀ l m : List GTy, GTy.equalsL l m = true ↔ GTy.eraseL l = GTy.eraseL m
  | [], m => by cases m <;> simp [GTy.equalsL, GTy.eraseL]
  | a :: l, m => by
    cases m with
    | nil => simp [GTy.equalsL, GTy.eraseL]
    | cons b m =>
      simp only [GTy.equalsL, GTy.eraseL, Bool.and_eq_true, List.cons.injEq]
      rw [GTy.equals_iff a b, GTy.equalsL_iff l m]
end

mutual
theorem GTerm.equals_iff : ∀ a b : GTerm, GTerm.equals a b = true ↔ a.erase = b.erase
  | .var _ _, b => by cases b <;> simp [GTerm.equals, GTerm.erase]
  | .mv _ _ _ _ _, b => by
    cases b <;> simp [GTerm.equals, GTerm.erase]
    exact eq_comm
  | .fn p n tys args, b => by
    cases b <;> simp [GTerm.equals, GTerm.erase]
    rename_i q n' tys' args'
    rw [GTy.equalsL_iff, GTerm.equalsL_iff args args', eq_comm (a := q),
      eq_comm (a := GTy.eraseL tys'), and_assoc]
theorem GTerm.equalsL_iff : ∀ l m : List GTerm,
    GTerm.equalsL l m = true ↔ GTerm.eraseL l = GTerm.eraseL m
  | [], m => by cases m <;> simp [GTerm.equalsL, GTerm.eraseL]
  | a :: l, m => by
    cases m with
    | nil => simp [GTerm.equalsL, GTerm.eraseL]
    | cons b m =>
      simp only [GTerm.equalsL, GTerm.eraseL, Bool.and_eq_true, List.cons.injEq]
      rw [GTerm.equals_iff a b, GTerm.equalsL_iff l m]
end

theorem GTypedVar.equals_iff (v w : GTypedVar) : v.equals w = true ↔ v.erase = w.erase := by
  simp [GTypedVar.equals, GTypedVar.erase, GTy.equals_iff, and_assoc]

theorem GTypedVar.equalsL_iff (l m : List GTypedVar) :
    GTypedVar.equalsL l m = true ↔ l.map GTypedVar.erase = m.map GTypedVar.erase := by
  induction l generalizing m with
  | nil => cases m <;> simp [GTypedVar.equalsL]
  | cons a l ih => cases m <;> simp [GTypedVar.equalsL, GTypedVar.equals_iff, ih]

mutual
theorem GForm.equals_iff : ∀ a b : GForm, GForm.equals a b = true ↔ a.erase = b.erase
  | .pred _ p _ tys args, b => by
    cases b <;> simp [GForm.equals, GForm.erase]
    rename_i q _ tys' args'
    rw [GTy.equalsL_iff, GTerm.equalsL_iff, eq_comm (a := q), eq_comm (a := GTy.eraseL tys'),
      eq_comm (a := GTerm.eraseL args'), and_assoc]
  | .top _, b => by cases b <;> simp [GForm.equals, GForm.erase]
  | .bot _, b => by cases b <;> simp [GForm.equals, GForm.erase]
  | .neg _ f, b => by
    cases b <;> simp [GForm.equals, GForm.erase]
    exact GForm.equals_iff f _
  | .and _ fs, b => by
    cases b <;> simp [GForm.equals, GForm.erase]
    exact GForm.equalsL_iff fs _
  | .or _ fs, b => by
    cases b <;> simp [GForm.equals, GForm.erase]
    exact GForm.equalsL_iff fs _
  | .imp _ f g, b => by
    cases b <;> simp [GForm.equals, GForm.erase]
    rw [GForm.equals_iff f, GForm.equals_iff g]
  | .equ _ f g, b => by
    cases b <;> simp [GForm.equals, GForm.erase]
    rw [GForm.equals_iff f, GForm.equals_iff g]
  | .all _ vs f, b => by
    cases b <;> simp [GForm.equals, GForm.erase]
    rw [GForm.equals_iff f, GTypedVar.equalsL_iff]
  | .ex _ vs f, b => by
    cases b <;> simp [GForm.equals, GForm.erase]
    rw [GForm.equals_iff f, GTypedVar.equalsL_iff]
theorem GForm.equalsL_iff : ∀ l m : List GForm,
    GForm.equalsL l m = true ↔ GForm.eraseL l = GForm.eraseL m
  | [], m => by cases m <;> simp [GForm.equalsL, GForm.eraseL]
  | a :: l, m => by
    cases m with
    | nil => simp [GForm.equalsL, GForm.eraseL]
    | cons b m =>
      simp only [GForm.equalsL, GForm.eraseL, Bool.and_eq_true, List.cons.injEq]
      rw [GForm.equals_iff a b, GForm.equalsL_iff l m]
end

/-- **C11 (terms).** `Equals` on terms holds exactly between terms with the same core structure
(same constructors, same symbol indices, equal type arguments), and is an equivalence. -/
theorem C11_term_equality :
    (∀ a b : GTerm, a.equals b = true ↔ a.erase = b.erase) ∧
    (∀ a : GTerm, a.equals a = true) ∧
    (∀ a b : GTerm, a.equals b = b.equals a) ∧
    (∀ a b c : GTerm, a.equals b = true → b.equals c = true → a.equals c = true) := by
  refine ⟨GTerm.equals_iff, fun a => (GTerm.equals_iff a a).2 rfl, fun a b => ?_, fun a b c h1 h2 => ?_⟩
  · rw [Bool.eq_iff_iff, GTerm.equals_iff, GTerm.equals_iff, eq_comm]
  · rw [GTerm.equals_iff] at *; exact h1.trans h2

/-- **C11 (formulas).** The same for formulas. The names of the variables introduced by
quantifiers do count (src/AST/typed-vars.go:55), formula indices do not. -/
theorem C11_form_equality :
    (∀ a b : GForm, a.equals b = true ↔ a.erase = b.erase) ∧
    (∀ a : GForm, a.equals a = true) ∧
    (∀ a b : GForm, a.equals b = b.equals a) ∧
    (∀ a b c : GForm, a.equals b = true → b.equals c = true → a.equals c = true) := by
  refine ⟨GForm.equals_iff, fun a => (GForm.equals_iff a a).2 rfl, fun a b => ?_, fun a b c h1 h2 => ?_⟩
  · rw [Bool.eq_iff_iff, GForm.equals_iff, GForm.equals_iff, eq_comm]
  · rw [GForm.equals_iff] at *; exact h1.trans h2

/-- Metavariables with other names and occurrence numbers but the same index are equal; with
other indices they are not. -/
example : GTerm.equals (.fn 3 "f" [] [.mv 5 0 "X" 2 (.var "a")]) (.fn 3 "g" [] [.mv 5 7 "Y" 9 (.var "b")]) = true ∧
    GTerm.equals (.fn 3 "f" [] [.mv 5 0 "X" 2 (.var "a")]) (.fn 3 "f" [] [.mv 6 0 "X" 2 (.var "a")]) = false := by
  decide

end Verif.AST.Full
