import Verif.Typing.Inst
import Verif.Lib.SetsAlias
import Verif.AST.Full
/-!
# C37: the type checker (`src/Typing/rules.go`, `src/Typing/env-and-context.go`)

The checker starts a goroutine for every child formula, term and type; the answers are combined by
conjunction (`Lib.GenericParallel`, see C07). A check that fails ends the process
(`Glob.Fatal`, `Glob.Anomaly`). So the state of a run is the memory that holds the contexts and the
pool of checks that remain to be done; a run accepts when the pool is empty. A context is an ordered
set of pairs of a name and a type, a pointer to nodes that goroutines share
(`Verif.Lib.SetsAlias`).

One step executes one check up to the calls it starts, or one `Add` to a context. The interleaving of
the memory accesses inside one `Add` or `Contains` is not modelled (they are not protected by a lock:
the code allows more behaviours than the model). The checks of the TPTP connectives read formulas with
their names (`Verif.AST.Full`); types are compared by `Equals`, which is equality of the erased types
(C11), so that erased types are used.
-/
set_option linter.unusedSimpArgs false

namespace Verif.Typing
open Verif.AST Verif.AST.Full Verif.Lib Verif.Lib.Alias

/-! ### Model -/

/-- `definedType` (src/Typing/env-and-context.go:49-66): ordered by name, equal by name and type. -/
instance : GoOrdered (String × Ty) where
  eqb x y := decide (x = y)
  less x y := decide (x.1 < y.1)

/-- The global environment (src/Typing/env-and-context.go:104-140). It is not changed by the checks. -/
abbrev Env := String → Option Ty

/-- A pending call of `typecheckForm`, `typecheckTerm` or `typecheckType`. -/
inductive Task where
  | form (con : Option Nat) (f : GForm)
  | term (con : Option Nat) (t : GTerm) (ty : Ty)
  | type (con : Option Nat) (ty : Ty)

/-- The argument types and the result type that `checkFunctional` computes
(src/Typing/rules.go:221-241 and `buildTermCheckList`, 304-324), for a symbol applied to type
arguments and a number of arguments. `none`: the process ends. -/
def sigOf (env : Env) (name : String) (tys : List Ty) (n : Nat) : Option (List Ty × Ty) :=
  (env name).bind fun scheme => (instantiate scheme tys).bind fun sig => (getArgs sig).bind fun as =>
    if n = as.length then (getOut sig).map fun out => (as, out) else none

/-- `checkFunctional` (src/Typing/rules.go:214-251). -/
def checkFunctional (env : Env) (con : Option Nat) (name : String) (tys : List Ty) (args : List GTerm) :
    Option (List Task) :=
  (sigOf env name tys args.length).map fun s =>
    (args.zip s.1).map (fun p => .term con p.1 p.2) ++ (tys ++ [s.2]).map (.type con)

/-- One step of a goroutine: `typecheckForm` (src/Typing/rules.go:55-102), `typecheckTerm` (104-145),
`typecheckType` (147-212), `typecheckRec` (253-302). The contexts of quantifiers are made by
`addTypedVars` (src/Typing/env-and-context.go:89-94), one variable per step. -/
def exec (env : Env) (H : Mem (String × Ty)) : Task → Option (Mem (String × Ty) × List Task)
  | .form _ (.top _) => some (H, [])
  | .form _ (.bot _) => some (H, [])
  | .form con (.pred _ _ name tys args) =>
    (checkFunctional env con name (GTy.eraseL tys) args).map fun l => (H, l)
  | .form con (.neg _ f) => some (H, [.form con f])
  | .form con (.and _ fs) => some (H, fs.map (.form con))
  | .form con (.or _ fs) => some (H, fs.map (.form con))
  | .form con (.imp _ f g) => some (H, [.form con f, .form con g])
  | .form con (.equ _ f g) => some (H, [.form con f, .form con g])
  | .form con (.all _ [] f) => some (H, [.form con f])
  | .form con (.all i (v :: vs) f) =>
    (H.add con (v.name, v.ty.erase)).map fun q => (q.1, [.form (some q.2) (.all i vs f)])
  | .form con (.ex _ [] f) => some (H, [.form con f])
  | .form con (.ex i (v :: vs) f) =>
    (H.add con (v.name, v.ty.erase)).map fun q => (q.1, [.form (some q.2) (.ex i vs f)])
  | .term con (.var _ name) ty =>
    match H.contains con (name, ty) with
    | some true => some (H, [.type con ty])
    | _ => none
  | .term con (.fn _ name tys args) _ =>
    (checkFunctional env con name (GTy.eraseL tys) args).map fun l => (H, l)
  | .term _ (.mv _ _ _ _ _) _ => none
  | .type con (.bound n) =>
    match H.contains con (n, tType) with
    | some true => some (H, [])
    | _ => none
  | .type con (.constr s args) =>
    (env s).bind fun t => (getArgs t).bind fun as =>
      if as.length = args.length then some (H, args.map (.type con)) else none
  | .type _ (.var _) => none
  | .type _ (.mv _ _) => none
  | .type _ (.prod _) => none
  | .type _ (.func _ _) => none
  | .type _ (.pi _ _) => none

/-- The state of a run: the memory and the checks to be done. -/
structure St where
  mem : Mem (String × Ty)
  pool : List Task

/-- The next step of the `i`-th pending check. The outer `none`: there is no such check; the inner one:
the process ends. -/
def stepAt (env : Env) (s : St) (i : Nat) : Option (Option St) :=
  (s.pool[i]?).map fun t => (exec env s.mem t).map fun r => ⟨r.1, s.pool.take i ++ r.2 ++ s.pool.drop (i + 1)⟩

/-- Runs: the schedule says which check goes on. -/
inductive Run (env : Env) : St → Option St → Prop
  | refl {s} : Run env s (some s)
  | step {s i s' r} : stepAt env s i = some (some s') → Run env s' r → Run env s r
  | dead {s i} : stepAt env s i = some none → Run env s none

/-- `TypeCheck` (src/Typing/rules.go:49-53) starts with the empty context. -/
def start (f : GForm) : St := ⟨Mem.empty, [.form none f]⟩

/-- Some schedule makes the checker accept. -/
def Accepts (env : Env) (f : GForm) : Prop := ∃ H, Run env (start f) (some ⟨H, []⟩)

/-- Some schedule makes the checker reject. -/
def Rejects (env : Env) (f : GForm) : Prop := Run env (start f) none

/-! ### Specification -/

/-- The type of a symbol at given type arguments: an instance of its scheme, or its own type. -/
inductive Inst : Ty → List Ty → Ty → Prop
  | pi {vs t ts sig} : ts.length = vs.length → InstOf (At vs ts) t sig → Inst (.pi vs t) ts sig
  | mono {t} : (∀ vs u, t ≠ .pi vs u) → Inst t [] t

/-- A typing context. -/
abbrev Ctx := String → Option Ty

/-- The context below a quantifier: later variables hide earlier ones. -/
def extend (Γ : Ctx) : List GTypedVar → Ctx
  | [] => Γ
  | v :: vs => extend (fun x => if x = v.name then some v.ty.erase else Γ x) vs

mutual
/-- The typing relation of terms. -/
inductive HasTy (env : Env) (Γ : Ctx) : GTerm → Ty → Prop
  | var {i x ty} : Γ x = some ty → HasTy env Γ (.var i x) ty
  | fn {i f tys args scheme sig as out} : env f = some scheme → Inst scheme (GTy.eraseL tys) sig →
      Sig sig as out → HasTyL env Γ args as → HasTy env Γ (.fn i f tys args) out
inductive HasTyL (env : Env) (Γ : Ctx) : List GTerm → List Ty → Prop
  | nil : HasTyL env Γ [] []
  | cons {t ty l tys} : HasTy env Γ t ty → HasTyL env Γ l tys → HasTyL env Γ (t :: l) (ty :: tys)
end

mutual
/-- Well-typed formulas. -/
def WellTyped (env : Env) (Γ : Ctx) : GForm → Prop
  | .top _ => True
  | .bot _ => True
  | .pred _ _ p tys args => ∃ scheme sig as out, env p = some scheme ∧
      Inst scheme (GTy.eraseL tys) sig ∧ Sig sig as out ∧ HasTyL env Γ args as
  | .neg _ f => WellTyped env Γ f
  | .and _ fs => WellTypedL env Γ fs
  | .or _ fs => WellTypedL env Γ fs
  | .imp _ f g => WellTyped env Γ f ∧ WellTyped env Γ g
  | .equ _ f g => WellTyped env Γ f ∧ WellTyped env Γ g
  | .all _ vs f => WellTyped env (extend Γ vs) f
  | .ex _ vs f => WellTyped env (extend Γ vs) f
def WellTypedL (env : Env) (Γ : Ctx) : List GForm → Prop
  | [] => True
  | f :: fs => WellTyped env Γ f ∧ WellTypedL env Γ fs
end

/-- C37, the full claim: a formula accepted under some schedule is well typed, and no schedule accepts
a formula that another one rejects. -/
def C37_statement : Prop :=
  ∀ (env : Env) (f : GForm), (Accepts env f → WellTyped env (fun _ => none) f) ∧
    ¬ (Accepts env f ∧ Rejects env f)

/-! The part that holds: like the typing relation, but a term that is not a variable is accepted at
every type. -/

mutual
/-- A term whose applications have the right number of arguments and in which every variable that is an
argument has the type expected there. -/
inductive ArgOk (env : Env) (Γ : Ctx) : GTerm → Ty → Prop
  | var {i x ty} : Γ x = some ty → ArgOk env Γ (.var i x) ty
  | fn {i f tys args scheme sig as out ty} : env f = some scheme → Inst scheme (GTy.eraseL tys) sig →
      Sig sig as out → ArgOkL env Γ args as → ArgOk env Γ (.fn i f tys args) ty
inductive ArgOkL (env : Env) (Γ : Ctx) : List GTerm → List Ty → Prop
  | nil : ArgOkL env Γ [] []
  | cons {t ty l tys} : ArgOk env Γ t ty → ArgOkL env Γ l tys → ArgOkL env Γ (t :: l) (ty :: tys)
end

mutual
def ArgsOk (env : Env) (Γ : Ctx) : GForm → Prop
  | .top _ => True
  | .bot _ => True
  | .pred _ _ p tys args => ∃ scheme sig as out, env p = some scheme ∧
      Inst scheme (GTy.eraseL tys) sig ∧ Sig sig as out ∧ ArgOkL env Γ args as
  | .neg _ f => ArgsOk env Γ f
  | .and _ fs => ArgsOkL env Γ fs
  | .or _ fs => ArgsOkL env Γ fs
  | .imp _ f g => ArgsOk env Γ f ∧ ArgsOk env Γ g
  | .equ _ f g => ArgsOk env Γ f ∧ ArgsOk env Γ g
  | .all _ vs f => ArgsOk env (extend Γ vs) f
  | .ex _ vs f => ArgsOk env (extend Γ vs) f
def ArgsOkL (env : Env) (Γ : Ctx) : List GForm → Prop
  | [] => True
  | f :: fs => ArgsOk env Γ f ∧ ArgsOkL env Γ fs
end

/-! ### Closed formulas with distinct binders -/

mutual
/-- Every variable of the term is in the list. -/
def closedT (l : List String) : GTerm → Prop
  | .var _ x => x ∈ l
  | .mv _ _ _ _ _ => True
  | .fn _ _ _ args => closedTL l args
def closedTL (l : List String) : List GTerm → Prop
  | [] => True
  | t :: ts => closedT l t ∧ closedTL l ts
end

mutual
/-- Every variable of the formula is bound above it. -/
def closedF (l : List String) : GForm → Prop
  | .top _ => True
  | .bot _ => True
  | .pred _ _ _ _ args => closedTL l args
  | .neg _ f => closedF l f
  | .and _ fs => closedFL l fs
  | .or _ fs => closedFL l fs
  | .imp _ f g => closedF l f ∧ closedF l g
  | .equ _ f g => closedF l f ∧ closedF l g
  | .all _ vs f => closedF (vs.map (·.name) ++ l) f
  | .ex _ vs f => closedF (vs.map (·.name) ++ l) f
def closedFL (l : List String) : List GForm → Prop
  | [] => True
  | f :: fs => closedF l f ∧ closedFL l fs
end

mutual
/-- The variables bound in a formula, with their types. -/
def binders : GForm → List (String × Ty)
  | .top _ => []
  | .bot _ => []
  | .pred _ _ _ _ _ => []
  | .neg _ f => binders f
  | .and _ fs => bindersL fs
  | .or _ fs => bindersL fs
  | .imp _ f g => binders f ++ binders g
  | .equ _ f g => binders f ++ binders g
  | .all _ vs f => vs.map (fun v => (v.name, v.ty.erase)) ++ binders f
  | .ex _ vs f => vs.map (fun v => (v.name, v.ty.erase)) ++ binders f
def bindersL : List GForm → List (String × Ty)
  | [] => []
  | f :: fs => binders f ++ bindersL fs
end

/-! ### Every value found in a context was put into some context -/

/-- All values in memory belong to `W`. -/
def Vals (W : String × Ty → Prop) (H : Mem (String × Ty)) : Prop := ∀ a c, H.cell a = some c → W c.v

section vals
variable {W : String × Ty → Prop}

theorem Vals.set {H : Mem (String × Ty)} (h : Vals W H) {a : Nat} {c : Cell (String × Ty)} (hc : W c.v) :
    Vals W (H.set a c) := by
  intro b d hd
  rw [set_cell] at hd
  split at hd
  · cases hd; exact hc
  · exact h b d hd

theorem Vals.newHeight {H H' : Mem (String × Ty)} (h : Vals W H) {a : Nat} (e : H.newHeight a = some H') :
    Vals W H' := by
  simp only [Mem.newHeight, Option.bind_eq_some_iff, Option.map_eq_some_iff] at e
  obtain ⟨c, hc, _, _, _, _, rfl⟩ := e
  exact h.set (h a c hc)

theorem Vals.setLeft {H H' : Mem (String × Ty)} (h : Vals W H) {a p : Nat} (e : H.setLeft a p = some H') :
    Vals W H' := by
  simp only [Mem.setLeft, Option.map_eq_some_iff] at e
  obtain ⟨c, hc, rfl⟩ := e
  exact h.set (h a c hc)

theorem Vals.setRight {H H' : Mem (String × Ty)} (h : Vals W H) {a p : Nat} (e : H.setRight a p = some H') :
    Vals W H' := by
  simp only [Mem.setRight, Option.map_eq_some_iff] at e
  obtain ⟨c, hc, rfl⟩ := e
  exact h.set (h a c hc)

theorem Vals.rotateLeft {H : Mem (String × Ty)} (h : Vals W H) {a : Nat} {q} (e : H.rotateLeft a = some q) :
    Vals W q.1 := by
  simp only [Mem.rotateLeft, Option.bind_eq_some_iff, Option.map_eq_some_iff] at e
  obtain ⟨cw, hw, n, _, cn, hn, cn', hn', H3, h3, H4, h4, rfl⟩ := e
  have h1 : Vals W (H.set a { cw with l := cn.r }) := h.set (h a cw hw)
  have h2 : Vals W ((H.set a { cw with l := cn.r }).set n { cn' with r := some a }) := h1.set (h1 n cn' hn')
  exact (h2.newHeight h3).newHeight h4

theorem Vals.rotateRight {H : Mem (String × Ty)} (h : Vals W H) {a : Nat} {q} (e : H.rotateRight a = some q) :
    Vals W q.1 := by
  simp only [Mem.rotateRight, Option.bind_eq_some_iff, Option.map_eq_some_iff] at e
  obtain ⟨cw, hw, n, _, cn, hn, cn', hn', H3, h3, H4, h4, rfl⟩ := e
  have h1 : Vals W (H.set a { cw with r := cn.l }) := h.set (h a cw hw)
  have h2 : Vals W ((H.set a { cw with r := cn.l }).set n { cn' with l := some a }) := h1.set (h1 n cn' hn')
  exact (h2.newHeight h3).newHeight h4

theorem Vals.rebalance {H : Mem (String × Ty)} (h : Vals W H) {a : Nat} {q} (e : H.rebalance a = some q) :
    Vals W q.1 := by
  simp only [Mem.rebalance, Option.bind_eq_some_iff] at e
  obtain ⟨b, _, c, _, e⟩ := e
  split at e
  · obtain ⟨bl, _, e⟩ := Option.bind_eq_some_iff.1 e
    split at e
    · exact h.rotateLeft e
    · simp only [Option.bind_eq_some_iff] at e
      obtain ⟨lp, _, q', hq, H', h', e⟩ := e
      exact ((h.rotateRight hq).setLeft h').rotateLeft e
  · split at e
    · obtain ⟨bl, _, e⟩ := Option.bind_eq_some_iff.1 e
      split at e
      · exact h.rotateRight e
      · simp only [Option.bind_eq_some_iff] at e
        obtain ⟨lp, _, q', hq, H', h', e⟩ := e
        exact ((h.rotateLeft hq).setRight h').rotateRight e
    · cases e; exact h

theorem Vals.insert {n : Nat} {H : Mem (String × Ty)} (h : Vals W H) {p : Option Nat} {x} (hx : W x) {q}
    (e : H.insert n p x = some q) : Vals W q.1 := by
  induction n generalizing p q with
  | zero => simp [Mem.insert] at e
  | succ n ih =>
    cases p with
    | none =>
      simp only [Mem.insert, Mem.alloc, Option.some.injEq] at e
      subst e
      intro b c hc
      simp only at hc
      split at hc
      · cases hc; exact hx
      · exact h b c hc
    | some a =>
      simp only [Mem.insert, Option.bind_eq_some_iff] at e
      obtain ⟨c, hc, e⟩ := e
      split at e
      · cases e; exact h
      · split at e <;>
        · simp only [Option.bind_eq_some_iff] at e
          obtain ⟨q', hq, H1, h1, H2, h2, e⟩ := e
          first
          | exact (((ih hq).setLeft h1).newHeight h2).rebalance e
          | exact (((ih hq).setRight h1).newHeight h2).rebalance e

theorem Vals.find {n : Nat} {H : Mem (String × Ty)} (h : Vals W H) {p : Option Nat} {x}
    (e : H.find n p x = some true) : W x := by
  induction n generalizing p with
  | zero => simp [Mem.find] at e
  | succ n ih =>
    cases p with
    | none => simp [Mem.find] at e
    | some a =>
      simp only [Mem.find, Option.bind_eq_some_iff] at e
      obtain ⟨c, hc, e⟩ := e
      split at e
      · rename_i he
        simp only [GoOrdered.eqb, decide_eq_true_eq] at he
        rw [he]; exact h a c hc
      · split at e
        · exact ih e
        · exact ih e

end vals

/-! ### Soundness under every schedule -/

mutual
/-- A term accepted by a checker that finds in its contexts only pairs of `W`. -/
inductive AccT (env : Env) (W : String × Ty → Prop) : GTerm → Ty → Prop
  | var {i x ty} : W (x, ty) → AccT env W (.var i x) ty
  | fn {i f tys args scheme sig as out ty} : env f = some scheme → Inst scheme (GTy.eraseL tys) sig →
      Sig sig as out → AccTL env W args as → AccT env W (.fn i f tys args) ty
inductive AccTL (env : Env) (W : String × Ty → Prop) : List GTerm → List Ty → Prop
  | nil : AccTL env W [] []
  | cons {t ty l tys} : AccT env W t ty → AccTL env W l tys → AccTL env W (t :: l) (ty :: tys)
end

mutual
def AccF (env : Env) (W : String × Ty → Prop) : GForm → Prop
  | .top _ => True
  | .bot _ => True
  | .pred _ _ p tys args => ∃ scheme sig as out, env p = some scheme ∧
      Inst scheme (GTy.eraseL tys) sig ∧ Sig sig as out ∧ AccTL env W args as
  | .neg _ f => AccF env W f
  | .and _ fs => AccFL env W fs
  | .or _ fs => AccFL env W fs
  | .imp _ f g => AccF env W f ∧ AccF env W g
  | .equ _ f g => AccF env W f ∧ AccF env W g
  | .all _ _ f => AccF env W f
  | .ex _ _ f => AccF env W f
def AccFL (env : Env) (W : String × Ty → Prop) : List GForm → Prop
  | [] => True
  | f :: fs => AccF env W f ∧ AccFL env W fs
end

/-- What the acceptance of a pending check means. -/
def AccTask (env : Env) (W : String × Ty → Prop) : Task → Prop
  | .form _ f => AccF env W f
  | .term _ t ty => AccT env W t ty
  | .type _ _ => True

/-- The pairs a pending check may still add to a context. -/
def Task.adds : Task → List (String × Ty)
  | .form _ f => binders f
  | _ => []

mutual
theorem InstOf.mono {R R' : String → Ty → Prop} (h : ∀ s u, R s u → R' s u) :
    ∀ {t t' : Ty}, InstOf R t t' → InstOf R' t t'
  | .var _, _, .var h1 => .var (h _ _ h1)
  | .constr _ _, _, .constr h1 => .constr (InstOfL.mono h h1)
  | .prod _, _, .prod h1 => .prod (InstOfL.mono h h1)
  | .func _ _, _, .func h1 h2 => .func (InstOf.mono h h1) (InstOf.mono h h2)
theorem InstOfL.mono {R R' : String → Ty → Prop} (h : ∀ s u, R s u → R' s u) :
    ∀ {l l' : List Ty}, InstOfL R l l' → InstOfL R' l l'
  | [], _, .nil => .nil
  | _ :: _, _, .cons h1 h2 => .cons (InstOf.mono h h1) (InstOfL.mono h h2)
end

theorem instantiate_inst {t sig : Ty} {ts : List Ty} (h : instantiate t ts = some sig) :
    Inst t ts sig := by
  cases t with
  | var _ => simp [instantiate] at h
  | bound _ => simp [instantiate] at h
  | mv _ _ => simp [instantiate] at h
  | prod _ => simp [instantiate] at h
  | constr s l =>
    simp only [instantiate, Option.ite_none_right_eq_some] at h
    obtain ⟨rfl, h⟩ := h
    cases h
    exact .mono (by simp)
  | func a b =>
    simp only [instantiate, Option.ite_none_right_eq_some] at h
    obtain ⟨rfl, h⟩ := h
    cases h
    exact .mono (by simp)
  | pi vs t =>
    simp only [instantiate, Option.ite_none_right_eq_some] at h
    obtain ⟨hl, h⟩ := h
    refine .pi hl ?_
    exact InstOf.mono (fun s u h => instMap_mem vs ts s u h)
      ((instRec_iff (R := fun s u => instMap vs ts s = some u) (fun _ _ => Iff.rfl) t sig).1 h)

theorem getArgs_sig {t : Ty} {as : List Ty} (h : getArgs t = some as) : ∃ out, Sig t as out := by
  cases t with
  | constr s l => simp only [getArgs, Option.some.injEq] at h; subst h; exact ⟨_, .const⟩
  | func a b =>
    cases a with
    | bound _ => simp only [getArgs, Option.some.injEq] at h; subst h; exact ⟨_, .one (by simp)⟩
    | constr _ _ => simp only [getArgs, Option.some.injEq] at h; subst h; exact ⟨_, .one (by simp)⟩
    | prod _ => simp only [getArgs, Option.some.injEq] at h; subst h; exact ⟨_, .many⟩
    | var _ => simp [getArgs] at h
    | mv _ _ => simp [getArgs] at h
    | func _ _ => simp [getArgs] at h
    | pi _ _ => simp [getArgs] at h
  | var _ => simp [getArgs] at h
  | bound _ => simp [getArgs] at h
  | mv _ _ => simp [getArgs] at h
  | prod _ => simp [getArgs] at h
  | pi _ _ => simp [getArgs] at h

theorem sigOf_spec {env : Env} {name : String} {tys : List Ty} {n : Nat} {as : List Ty} {o : Ty}
    (h : sigOf env name tys n = some (as, o)) : n = as.length ∧ ∃ scheme sig out, env name = some scheme ∧
      Inst scheme tys sig ∧ Sig sig as out := by
  simp only [sigOf, Option.bind_eq_some_iff, Option.ite_none_right_eq_some, Option.map_eq_some_iff] at h
  obtain ⟨scheme, h1, sig, h2, as', h3, h4, out, h5, h6⟩ := h
  cases h6
  obtain ⟨out', h⟩ := getArgs_sig h3
  exact ⟨h4, scheme, sig, out', h1, instantiate_inst h2, h⟩

theorem accTL_of_zip {env : Env} {W : String × Ty → Prop} : ∀ (args : List GTerm) (as : List Ty),
    args.length = as.length → (∀ p ∈ args.zip as, AccT env W p.1 p.2) → AccTL env W args as
  | [], [], _, _ => .nil
  | [], _ :: _, h, _ => by simp at h
  | _ :: _, [], h, _ => by simp at h
  | t :: l, a :: as, h, hp => .cons (hp (t, a) (by simp))
      (accTL_of_zip l as (by simpa using h) fun p hp' => hp p (by simp [hp']))

theorem checkFunctional_acc {env : Env} {W : String × Ty → Prop} {con : Option Nat} {name : String}
    {tys : List Ty} {args : List GTerm} {new : List Task}
    (h : checkFunctional env con name tys args = some new) (hn : ∀ t ∈ new, AccTask env W t) :
    ∃ scheme sig as out, env name = some scheme ∧ Inst scheme tys sig ∧ Sig sig as out ∧
      AccTL env W args as := by
  simp only [checkFunctional, Option.map_eq_some_iff] at h
  obtain ⟨⟨as, o⟩, h1, rfl⟩ := h
  obtain ⟨hl, scheme, sig, out, h2, h3, h4⟩ := sigOf_spec h1
  refine ⟨scheme, sig, as, out, h2, h3, h4, accTL_of_zip args as hl fun p hp => ?_⟩
  exact hn (.term con p.1 p.2) (by
    simp only [List.mem_append, List.mem_map]
    exact .inl ⟨p, hp, rfl⟩)

theorem checkFunctional_adds {env : Env} {con : Option Nat} {name : String} {tys : List Ty}
    {args : List GTerm} {new : List Task} (h : checkFunctional env con name tys args = some new) :
    ∀ t ∈ new, t.adds = [] := by
  simp only [checkFunctional, Option.map_eq_some_iff] at h
  obtain ⟨⟨as, o⟩, _, rfl⟩ := h
  intro t ht
  simp only [List.mem_append, List.mem_map] at ht
  rcases ht with ⟨p, _, rfl⟩ | ⟨p, _, rfl⟩ <;> rfl

theorem accFL_of {env : Env} {W : String × Ty → Prop} : ∀ (fs : List GForm),
    (∀ f ∈ fs, AccF env W f) → AccFL env W fs
  | [], _ => trivial
  | f :: fs, h => ⟨h f (by simp), accFL_of fs fun g hg => h g (by simp [hg])⟩

theorem mem_bindersL {x : String × Ty} : ∀ {fs : List GForm} {f : GForm}, f ∈ fs → x ∈ binders f →
    x ∈ bindersL fs
  | _ :: fs, f, hf, hx => by
    simp only [bindersL, List.mem_append]
    rcases List.mem_cons.1 hf with rfl | hf
    · exact .inl hx
    · exact .inr (mem_bindersL hf hx)

/-- One step: the memory keeps containing pairs of `W` only, and if the checks that were started are
accepted, so is the check itself. -/
theorem exec_acc {env : Env} {W : String × Ty → Prop} {H H' : Mem (String × Ty)} {t : Task}
    {new : List Task} (h : exec env H t = some (H', new)) (hv : Vals W H) (hd : ∀ x ∈ t.adds, W x) :
    Vals W H' ∧ (∀ n ∈ new, ∀ x ∈ n.adds, W x) ∧
      ((∀ n ∈ new, AccTask env W n) → AccTask env W t) := by
  cases t with
  | type con ty =>
    refine ⟨?_, ?_, fun _ => trivial⟩
    all_goals
      cases ty <;> simp only [exec] at h
      all_goals first
        | (simp at h; done)
        | (split at h
           · cases h; first | exact hv | simp
           · simp at h)
        | (simp only [Option.bind_eq_some_iff, Option.ite_none_right_eq_some, Option.some.injEq,
             Prod.mk.injEq] at h
           obtain ⟨_, _, _, _, _, rfl, rfl⟩ := h
           first | exact hv | simp [Task.adds])
  | term con t ty =>
    cases t with
    | var i x =>
      simp only [exec] at h
      split at h
      · rename_i hc
        cases h
        refine ⟨hv, by simp [Task.adds], fun _ => .var (hv.find hc)⟩
      · simp at h
    | mv => simp [exec] at h
    | fn i f tys args =>
      simp only [exec, Option.map_eq_some_iff, Prod.mk.injEq] at h
      obtain ⟨l, h1, rfl, rfl⟩ := h
      refine ⟨hv, fun n hn => by simp [checkFunctional_adds h1 n hn], fun hn => ?_⟩
      obtain ⟨scheme, sig, as, out, h2, h3, h4, h5⟩ := checkFunctional_acc h1 hn
      exact .fn h2 h3 h4 h5
  | form con f =>
    cases f with
    | top => simp only [exec, Option.some.injEq, Prod.mk.injEq] at h
             obtain ⟨rfl, rfl⟩ := h
             exact ⟨hv, by simp, fun _ => by simp [AccTask, AccF]⟩
    | bot => simp only [exec, Option.some.injEq, Prod.mk.injEq] at h
             obtain ⟨rfl, rfl⟩ := h
             exact ⟨hv, by simp, fun _ => by simp [AccTask, AccF]⟩
    | pred i j name tys args =>
      simp only [exec, Option.map_eq_some_iff, Prod.mk.injEq] at h
      obtain ⟨l, h1, rfl, rfl⟩ := h
      exact ⟨hv, fun n hn => by simp [checkFunctional_adds h1 n hn], fun hn => checkFunctional_acc h1 hn⟩
    | neg i f =>
      simp only [exec, Option.some.injEq, Prod.mk.injEq] at h
      obtain ⟨rfl, rfl⟩ := h
      exact ⟨hv, by simpa [Task.adds, binders] using hd, fun hn => by simpa [AccTask, AccF] using hn⟩
    | and i fs =>
      simp only [exec, Option.some.injEq, Prod.mk.injEq] at h
      obtain ⟨rfl, rfl⟩ := h
      refine ⟨hv, ?_, fun hn => accFL_of fs fun f hf => hn _ (List.mem_map.2 ⟨f, hf, rfl⟩)⟩
      intro n hn x hx
      obtain ⟨f, hf, rfl⟩ := List.mem_map.1 hn
      exact hd x (mem_bindersL hf hx)
    | or i fs =>
      simp only [exec, Option.some.injEq, Prod.mk.injEq] at h
      obtain ⟨rfl, rfl⟩ := h
      refine ⟨hv, ?_, fun hn => accFL_of fs fun f hf => hn _ (List.mem_map.2 ⟨f, hf, rfl⟩)⟩
      intro n hn x hx
      obtain ⟨f, hf, rfl⟩ := List.mem_map.1 hn
      exact hd x (mem_bindersL hf hx)
    | imp i f g =>
      simp only [exec, Option.some.injEq, Prod.mk.injEq] at h
      obtain ⟨rfl, rfl⟩ := h
      refine ⟨hv, ?_, fun hn => ⟨hn (.form con f) (by simp), hn (.form con g) (by simp)⟩⟩
      intro n hn x hx
      simp only [List.mem_cons, List.not_mem_nil, or_false] at hn
      rcases hn with rfl | rfl <;> exact hd x (by simp only [Task.adds, binders, List.mem_append]; simp [Task.adds] at hx; simp [hx])
    | equ i f g =>
      simp only [exec, Option.some.injEq, Prod.mk.injEq] at h
      obtain ⟨rfl, rfl⟩ := h
      refine ⟨hv, ?_, fun hn => ⟨hn (.form con f) (by simp), hn (.form con g) (by simp)⟩⟩
      intro n hn x hx
      simp only [List.mem_cons, List.not_mem_nil, or_false] at hn
      rcases hn with rfl | rfl <;> exact hd x (by simp only [Task.adds, binders, List.mem_append]; simp [Task.adds] at hx; simp [hx])
    | all i vs f =>
      cases vs with
      | nil =>
        simp only [exec, Option.some.injEq, Prod.mk.injEq] at h
        obtain ⟨rfl, rfl⟩ := h
        exact ⟨hv, by simpa [Task.adds, binders] using hd, fun hn => by simpa [AccTask, AccF] using hn⟩
      | cons v vs =>
        simp only [exec, Option.map_eq_some_iff, Prod.mk.injEq] at h
        obtain ⟨q, h1, rfl, rfl⟩ := h
        refine ⟨hv.insert (hd _ (by simp [Task.adds, binders])) h1, ?_, fun hn => by simpa [AccTask, AccF] using hn⟩
        intro n hn x hx
        simp only [List.mem_cons, List.not_mem_nil, or_false] at hn
        subst hn
        exact hd x (by simp only [Task.adds, binders, List.map_cons, List.cons_append, List.mem_cons] at hx ⊢; exact .inr hx)
    | ex i vs f =>
      cases vs with
      | nil =>
        simp only [exec, Option.some.injEq, Prod.mk.injEq] at h
        obtain ⟨rfl, rfl⟩ := h
        exact ⟨hv, by simpa [Task.adds, binders] using hd, fun hn => by simpa [AccTask, AccF] using hn⟩
      | cons v vs =>
        simp only [exec, Option.map_eq_some_iff, Prod.mk.injEq] at h
        obtain ⟨q, h1, rfl, rfl⟩ := h
        refine ⟨hv.insert (hd _ (by simp [Task.adds, binders])) h1, ?_, fun hn => by simpa [AccTask, AccF] using hn⟩
        intro n hn x hx
        simp only [List.mem_cons, List.not_mem_nil, or_false] at hn
        subst hn
        exact hd x (by simp only [Task.adds, binders, List.map_cons, List.cons_append, List.mem_cons] at hx ⊢; exact .inr hx)

theorem split_pool {s : List Task} {i : Nat} {t : Task} (h : s[i]? = some t) :
    s = s.take i ++ t :: s.drop (i + 1) := by
  obtain ⟨hi, h⟩ := List.getElem?_eq_some_iff.1 h
  rw [← h, ← List.drop_eq_getElem_cons hi, List.take_append_drop]

theorem run_acc {env : Env} {W : String × Ty → Prop} {s : St} {r : Option St} (h : Run env s r) :
    ∀ H, r = some ⟨H, []⟩ → Vals W s.mem → (∀ t ∈ s.pool, ∀ x ∈ t.adds, W x) →
      ∀ t ∈ s.pool, AccTask env W t := by
  induction h with
  | refl => intro H e _ _ t ht; cases e; simp at ht
  | dead _ => intro H e; simp at e
  | @step s i s' r hs _ ih =>
    intro H e hv hd
    simp only [stepAt, Option.map_eq_some_iff] at hs
    obtain ⟨t, ht, ⟨H', new⟩, hx, hs⟩ := hs
    have hp := split_pool ht
    obtain ⟨v', d', a'⟩ := exec_acc hx hv (hd t (by rw [hp]; simp))
    subst hs
    have hd1 : ∀ u ∈ s.pool.take i, ∀ x ∈ u.adds, W x := fun u hu => hd u (by rw [hp]; simp [hu])
    have hd2 : ∀ u ∈ s.pool.drop (i + 1), ∀ x ∈ u.adds, W x := fun u hu => hd u (by rw [hp]; simp [hu])
    have := ih H e v' (by
      intro u hu
      simp only [List.mem_append] at hu
      rcases hu with (hu | hu) | hu
      · exact hd1 u hu
      · exact d' u hu
      · exact hd2 u hu)
    intro u hu
    rw [hp] at hu
    simp only [List.mem_append, List.mem_cons] at hu this
    rcases hu with hu | rfl | hu
    · exact this u (.inl (.inl hu))
    · exact a' fun n hn => this n (.inl (.inr hn))
    · exact this u (.inr hu)

/-! ### From the bound variables to the scopes -/

/-- The context gives every name of the list the type with which it is bound in `D`. -/
def Agrees (D : List (String × Ty)) (l : List String) (Γ : Ctx) : Prop :=
  ∀ x ∈ l, ∃ ty, Γ x = some ty ∧ (x, ty) ∈ D

theorem agrees_extend {D : List (String × Ty)} : ∀ (vs : List GTypedVar) {l : List String} {Γ : Ctx},
    Agrees D l Γ → (∀ v ∈ vs, (v.name, v.ty.erase) ∈ D) → Agrees D (vs.map (·.name) ++ l) (extend Γ vs)
  | [], l, Γ, h, _ => by simpa [extend] using h
  | v :: vs, l, Γ, h, hv => by
    have h1 : Agrees D (v.name :: l) (fun x => if x = v.name then some v.ty.erase else Γ x) := by
      intro x hx
      by_cases e : x = v.name
      · exact ⟨v.ty.erase, by simp [e], by rw [e]; exact hv v (by simp)⟩
      · rcases List.mem_cons.1 hx with h2 | h2
        · exact absurd h2 e
        · obtain ⟨ty, h3, h4⟩ := h x h2
          exact ⟨ty, by simp [e, h3], h4⟩
    have h2 := agrees_extend vs h1 fun w hw => hv w (by simp [hw])
    intro x hx
    apply h2 x
    simp only [List.map_cons, List.cons_append, List.mem_cons, List.mem_append] at hx ⊢
    rcases hx with h | h | h <;> simp [h]

mutual
theorem accT_argOk {env : Env} {D : List (String × Ty)} (hf : ∀ x a b, (x, a) ∈ D → (x, b) ∈ D → a = b)
    {l : List String} {Γ : Ctx} (hg : Agrees D l Γ) : ∀ (t : GTerm) (ty : Ty), closedT l t →
      AccT env (· ∈ D) t ty → ArgOk env Γ t ty
  | .var i x, ty, hc, h => by
    cases h with
    | var h =>
      obtain ⟨ty', h1, h2⟩ := hg x hc
      rw [hf x ty ty' h h2]
      exact .var h1
  | .mv _ _ _ _ _, _, _, h => by cases h
  | .fn i f tys args, ty, hc, h => by
    cases h with
    | fn h1 h2 h3 h4 => exact .fn h1 h2 h3 (accTL_argOk hf hg args _ hc h4)
theorem accTL_argOk {env : Env} {D : List (String × Ty)} (hf : ∀ x a b, (x, a) ∈ D → (x, b) ∈ D → a = b)
    {l : List String} {Γ : Ctx} (hg : Agrees D l Γ) : ∀ (ts : List GTerm) (tys : List Ty), closedTL l ts →
      AccTL env (· ∈ D) ts tys → ArgOkL env Γ ts tys
  | [], _, _, h => by cases h; exact .nil
  | t :: ts, _, hc, h => by
    cases h with
    | cons h1 h2 => exact .cons (accT_argOk hf hg t _ hc.1 h1) (accTL_argOk hf hg ts _ hc.2 h2)
end

mutual
theorem accF_argsOk {env : Env} {D : List (String × Ty)} (hf : ∀ x a b, (x, a) ∈ D → (x, b) ∈ D → a = b) :
    ∀ (f : GForm) {l : List String} {Γ : Ctx}, Agrees D l Γ → (∀ x ∈ binders f, x ∈ D) → closedF l f →
      AccF env (· ∈ D) f → ArgsOk env Γ f
  | .top _, _, _, _, _, _, _ => trivial
  | .bot _, _, _, _, _, _, _ => trivial
  | .pred _ _ p tys args, _, _, hg, _, hc, h => by
    obtain ⟨scheme, sig, as, out, h1, h2, h3, h4⟩ := h
    exact ⟨scheme, sig, as, out, h1, h2, h3, accTL_argOk hf hg args as hc h4⟩
  | .neg _ f, _, _, hg, hb, hc, h => accF_argsOk hf f hg hb hc h
  | .and _ fs, _, _, hg, hb, hc, h => accFL_argsOk hf fs hg hb hc h
  | .or _ fs, _, _, hg, hb, hc, h => accFL_argsOk hf fs hg hb hc h
  | .imp _ f g, _, _, hg, hb, hc, h =>
    ⟨accF_argsOk hf f hg (fun x hx => hb x (by simp [binders, hx])) hc.1 h.1,
      accF_argsOk hf g hg (fun x hx => hb x (by simp [binders, hx])) hc.2 h.2⟩
  | .equ _ f g, _, _, hg, hb, hc, h =>
    ⟨accF_argsOk hf f hg (fun x hx => hb x (by simp [binders, hx])) hc.1 h.1,
      accF_argsOk hf g hg (fun x hx => hb x (by simp [binders, hx])) hc.2 h.2⟩
  | .all _ vs f, _, _, hg, hb, hc, h =>
    accF_argsOk hf f (agrees_extend vs hg fun v hv => hb _ (by
      simp only [binders, List.mem_append, List.mem_map]; exact .inl ⟨v, hv, rfl⟩))
      (fun x hx => hb x (by simp [binders, hx])) hc h
  | .ex _ vs f, _, _, hg, hb, hc, h =>
    accF_argsOk hf f (agrees_extend vs hg fun v hv => hb _ (by
      simp only [binders, List.mem_append, List.mem_map]; exact .inl ⟨v, hv, rfl⟩))
      (fun x hx => hb x (by simp [binders, hx])) hc h
theorem accFL_argsOk {env : Env} {D : List (String × Ty)} (hf : ∀ x a b, (x, a) ∈ D → (x, b) ∈ D → a = b) :
    ∀ (fs : List GForm) {l : List String} {Γ : Ctx}, Agrees D l Γ → (∀ x ∈ bindersL fs, x ∈ D) →
      closedFL l fs → AccFL env (· ∈ D) fs → ArgsOkL env Γ fs
  | [], _, _, _, _, _, _ => trivial
  | f :: fs, _, _, hg, hb, hc, h =>
    ⟨accF_argsOk hf f hg (fun x hx => hb x (by simp [bindersL, hx])) hc.1 h.1,
      accFL_argsOk hf fs hg (fun x hx => hb x (by simp [bindersL, hx])) hc.2 h.2⟩
end

theorem functional_of_nodup {D : List (String × Ty)} (h : (D.map (·.1)).Nodup) :
    ∀ x a b, (x, a) ∈ D → (x, b) ∈ D → a = b := by
  induction D with
  | nil => intro x a b h; simp at h
  | cons d D ih =>
    simp only [List.map_cons, List.nodup_cons, List.mem_map, not_exists, not_and] at h
    intro x a b ha hb
    rcases List.mem_cons.1 ha with rfl | ha <;> rcases List.mem_cons.1 hb with hb | hb
    · cases hb; rfl
    · exact absurd rfl (h.1 (x, b) hb)
    · exact absurd (by rw [← hb]) (h.1 (x, a) ha)
    · exact ih h.2 x a b ha hb

/-- C37, what holds under every schedule: in an accepted closed formula whose binders have distinct
names (as after `RenameVariables`, C17), every application has the number of arguments of an instance
of the type declared for its symbol, and every argument that is a variable has exactly the type
expected there. What is missing: the types of arguments that are applications
(`C37_violated_argument`), and that all schedules agree (`C37_violated_schedule`). -/
theorem C37_accepted_partial (env : Env) (f : GForm) (hc : closedF [] f)
    (hn : ((binders f).map (·.1)).Nodup) (h : Accepts env f) : ArgsOk env (fun _ => none) f := by
  obtain ⟨H, h⟩ := h
  have := run_acc (W := (· ∈ binders f)) h H rfl (by intro a c hc; simp [start, Mem.empty] at hc)
    (by simp [start, Task.adds])
  exact accF_argsOk (functional_of_nodup hn) f (l := []) (by intro x hx; simp at hx) (fun _ h => h) hc
    (this (.form none f) (by simp [start]))

end Verif.Typing
