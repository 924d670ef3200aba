import Verif.Engine.Elab
/-!
# Reading formulas: C16

The specification is a first-order semantics of written formulas over names; it does not mention the
elaboration. The result of the elaboration is related to it through the tables that give the internal
number of each name.
-/

namespace Verif.Engine
open Verif.AST

/-! ### Specification: the meaning of a written formula -/

/-- A structure for the symbols of the input language. -/
structure Str (D : Type u) where
  fn : String → List D → D
  pr : String → List D → Prop

section
variable {D : Type u}

def updN (v : String → D) (n : String) (d : D) : String → D := fun x => if x = n then d else v x

mutual
/-- Value of a written term. -/
def PTm.val (S : Str D) (v : String → D) : PTm → D
  | .var n => v n
  | .fn s args _ => S.fn s (PTm.valL S v args)
def PTm.valL (S : Str D) (v : String → D) : List PTm → List D
  | [] => []
  | a :: l => PTm.val S v a :: PTm.valL S v l
end

def allNames (P : (String → D) → Prop) : List String → (String → D) → Prop
  | [], v => P v
  | n :: ns, v => ∀ d, allNames P ns (updN v n d)

def exNames (P : (String → D) → Prop) : List String → (String → D) → Prop
  | [], v => P v
  | n :: ns, v => ∃ d, exNames P ns (updN v n d)

/-- Truth of a written formula; the connectives are those of the TPTP language. -/
def WForm.sat (S : Str D) : (String → D) → WForm → Prop
  | _, .top => True
  | _, .bot => False
  | v, .atom s args => S.pr s (PTm.valL S v args)
  | v, .eq l r => S.pr "=" [PTm.val S v l, PTm.val S v r]
  | v, .neq l r => ¬ S.pr "=" [PTm.val S v l, PTm.val S v r]
  | v, .not f => ¬ f.sat S v
  | v, .and l r => l.sat S v ∧ r.sat S v
  | v, .or l r => l.sat S v ∨ r.sat S v
  | v, .imp l r => l.sat S v → r.sat S v
  | v, .rimp l r => r.sat S v → l.sat S v
  | v, .iff l r => (l.sat S v ↔ r.sat S v)
  | v, .xor l r => ¬ (l.sat S v ↔ r.sat S v)
  | v, .nor l r => ¬ (l.sat S v ∨ r.sat S v)
  | v, .nand l r => ¬ (l.sat S v ∧ r.sat S v)
  | v, .all vs f => allNames (fun v' => f.sat S v') (vs.map (·.1)) v
  | v, .ex vs f => exNames (fun v' => f.sat S v') (vs.map (·.1)) v

/-- Truth of a parsed formula. -/
def PForm.sat (S : Str D) : (String → D) → PForm → Prop
  | _, .top => True
  | _, .bot => False
  | v, .pred s args => S.pr s (PTm.valL S v args)
  | v, .neg f => ¬ f.sat S v
  | v, .bin .or l r => l.sat S v ∨ r.sat S v
  | v, .bin .and l r => l.sat S v ∧ r.sat S v
  | v, .bin .imp l r => l.sat S v → r.sat S v
  | v, .bin .equ l r => (l.sat S v ↔ r.sat S v)
  | v, .all vs f => allNames (fun v' => f.sat S v') (vs.map (·.1)) v
  | v, .ex vs f => exNames (fun v' => f.sat S v') (vs.map (·.1)) v

/-- **C16, connectives.** The parsed formula is true exactly when the written one is: `<=`, `<~>`,
`~|`, `~&`, `!=` are replaced by equivalent combinations. -/
theorem C16_connectives (S : Str D) (w : WForm) (v : String → D) :
    w.parse.sat S v ↔ w.sat S v := by
  induction w generalizing v with
  | top => simp [WForm.parse, WForm.sat, PForm.sat]
  | bot => simp [WForm.parse, WForm.sat, PForm.sat]
  | atom s args => simp [WForm.parse, WForm.sat, PForm.sat]
  | eq l r => simp [WForm.parse, WForm.sat, PForm.sat, PTm.valL]
  | neq l r => simp [WForm.parse, WForm.sat, PForm.sat, PTm.valL]
  | not f ih => simp [WForm.parse, WForm.sat, PForm.sat, ih]
  | and l r il ir => simp [WForm.parse, WForm.sat, PForm.sat, il, ir]
  | or l r il ir => simp [WForm.parse, WForm.sat, PForm.sat, il, ir]
  | imp l r il ir => simp [WForm.parse, WForm.sat, PForm.sat, il, ir]
  | rimp l r il ir => simp [WForm.parse, WForm.sat, PForm.sat, mkPRevImp, il, ir]
  | iff l r il ir => simp [WForm.parse, WForm.sat, PForm.sat, il, ir]
  | xor l r il ir =>
    simp only [WForm.parse, WForm.sat, PForm.sat, mkPXor, il, ir]
    by_cases h1 : l.sat S v <;> by_cases h2 : r.sat S v <;> simp [h1, h2]
  | nor l r il ir => simp only [WForm.parse, WForm.sat, PForm.sat, mkPNotOr, il, ir]
  | nand l r il ir => simp only [WForm.parse, WForm.sat, PForm.sat, mkPNotAnd, il, ir]
  | all vs f ih => simp only [WForm.parse, WForm.sat, PForm.sat, ih]
  | ex vs f ih => simp only [WForm.parse, WForm.sat, PForm.sat, ih]

/-! ### The tables -/

/-- The tables only grow. -/
structure Ext (m m' : Maker) : Prop where
  ids : ∀ s i, m.ids s = some i → m'.ids s = some i
  vars : ∀ s i, m.vars s = some i → m'.vars s = some i

/-- Different names have different numbers, all drawn already; so have variables and symbols. -/
structure MOK (m : Maker) : Prop where
  ids_lt : ∀ s i, m.ids s = some i → i < m.cpt
  vars_lt : ∀ s i, m.vars s = some i → i < m.cpt
  ids_inj : ∀ s t i, m.ids s = some i → m.ids t = some i → s = t
  vars_inj : ∀ s t i, m.vars s = some i → m.vars t = some i → s = t
  disj : ∀ s t i, m.ids s = some i → m.vars t ≠ some i

theorem MOK_reset : MOK Maker.reset := by
  constructor <;> simp [Maker.reset]

theorem Ext.refl (m : Maker) : Ext m m := ⟨fun _ _ h => h, fun _ _ h => h⟩
theorem Ext.trans {a b c : Maker} (h : Ext a b) (h' : Ext b c) : Ext a c :=
  ⟨fun s i x => h'.ids s i (h.ids s i x), fun s i x => h'.vars s i (h.vars s i x)⟩

/-- Registering a variable with a new number keeps the tables in order. -/
theorem newVar_ok {m : Maker} (h : MOK m) (n : String) : MOK (m.newVar n).2 := by
  refine ⟨?_, ?_, ?_, ?_, ?_⟩
  · intro s i hs
    exact Nat.lt_succ_of_lt (h.ids_lt s i hs)
  · intro s i hs
    simp only [Maker.newVar, setKey] at hs ⊢
    split at hs
    · cases hs; omega
    · exact Nat.lt_succ_of_lt (h.vars_lt s i hs)
  · exact h.ids_inj
  · intro s t i hs ht
    simp only [Maker.newVar, setKey] at hs ht
    split at hs <;> split at ht
    · next h1 h2 => rw [h1, h2]
    · cases hs; have := h.vars_lt t _ ht; omega
    · cases ht; have := h.vars_lt s _ hs; omega
    · exact h.vars_inj s t i hs ht
  · intro s t i hs ht
    simp only [Maker.newVar, setKey] at hs ht
    split at ht
    · cases ht; have := h.ids_lt s _ hs; omega
    · exact h.disj s t i hs ht

theorem var_ok {m : Maker} (h : MOK m) (n : String) :
    Ext m (m.var n).2 ∧ MOK (m.var n).2 ∧ (m.var n).2.vars n = some (m.var n).1 := by
  unfold Maker.var
  split
  · rename_i i hi
    exact ⟨Ext.refl m, h, hi⟩
  · rename_i hn
    refine ⟨⟨fun s i hs => hs, fun s i hs => ?_⟩, newVar_ok h n, by simp [Maker.newVar, setKey]⟩
    simp only [Maker.newVar, setKey]
    split
    · next hs' => subst hs'; rw [hn] at hs; cases hs
    · exact hs

theorem id_ok {m : Maker} (h : MOK m) (n : String) :
    Ext m (m.id n).2 ∧ MOK (m.id n).2 ∧ (m.id n).2.ids n = some (m.id n).1 := by
  unfold Maker.id
  split
  · rename_i i hi
    exact ⟨Ext.refl m, h, hi⟩
  · rename_i hn
    refine ⟨⟨fun s i hs => ?_, fun s i hs => hs⟩, ⟨?_, ?_, ?_, ?_, ?_⟩, by simp [Maker.newId, setKey]⟩
    · simp only [Maker.newId, setKey]
      split
      · next hs' => subst hs'; rw [hn] at hs; cases hs
      · exact hs
    · intro s i hs
      simp only [Maker.newId, setKey] at hs ⊢
      split at hs
      · cases hs; omega
      · exact Nat.lt_succ_of_lt (h.ids_lt s i hs)
    · intro s i hs
      exact Nat.lt_succ_of_lt (h.vars_lt s i hs)
    · intro s t i hs ht
      simp only [Maker.newId, setKey] at hs ht
      split at hs <;> split at ht
      · next h1 h2 => rw [h1, h2]
      · cases hs; have := h.ids_lt t _ ht; omega
      · cases ht; have := h.ids_lt s _ hs; omega
      · exact h.ids_inj s t i hs ht
    · exact h.vars_inj
    · intro s t i hs ht
      simp only [Maker.newId, setKey] at hs ht
      split at hs
      · cases hs; have := h.vars_lt t _ ht; omega
      · exact h.disj s t i hs ht

mutual
theorem elabTy_ok (top : Bool) : ∀ (ty : PTy) (m : Maker) (r : Ty × Maker), MOK m →
    elabTy top m ty = some r → Ext m r.2 ∧ MOK r.2
  | .var n, m, r, hm, h => by
    simp only [elabTy] at h
    split at h
    · cases h; exact ⟨Ext.refl m, hm⟩
    · cases h; exact ⟨(var_ok hm n).1, (var_ok hm n).2.1⟩
  | .fn s args, m, r, hm, h => by
    simp only [elabTy, Option.map_eq_some_iff] at h
    obtain ⟨x, hx, rfl⟩ := h
    exact elabTyL_ok top args m x hm hx
  | .prod a b, m, r, hm, h => by
    simp only [elabTy] at h
    split at h
    · cases h
    · simp only [Option.bind_eq_some_iff, Option.map_eq_some_iff] at h
      obtain ⟨x, hx, y, hy, rfl⟩ := h
      have h1 := elabTy_ok top a m x hm hx
      have h2 := elabTy_ok top b x.2 y h1.2 hy
      exact ⟨h1.1.trans h2.1, h2.2⟩
  | .map a b, m, r, hm, h => by
    simp only [elabTy] at h
    split at h
    · cases h
    · simp only [Option.bind_eq_some_iff, Option.map_eq_some_iff] at h
      obtain ⟨x, hx, y, hy, rfl⟩ := h
      have h1 := elabTy_ok top a m x hm hx
      have h2 := elabTy_ok top b x.2 y h1.2 hy
      exact ⟨h1.1.trans h2.1, h2.2⟩
  | .all vs t, m, r, hm, h => by
    simp only [elabTy, Option.bind_eq_some_iff] at h
    obtain ⟨x, hx, h⟩ := h
    have h1 := elabTy_ok top t m x hm hx
    split at h
    · cases h
    · cases h; exact h1
theorem elabTyL_ok (top : Bool) : ∀ (l : List PTy) (m : Maker) (r : List Ty × Maker), MOK m →
    elabTyL top m l = some r → Ext m r.2 ∧ MOK r.2
  | [], m, r, hm, h => by
    simp only [elabTyL] at h; cases h; exact ⟨Ext.refl m, hm⟩
  | a :: l, m, r, hm, h => by
    simp only [elabTyL, Option.bind_eq_some_iff, Option.map_eq_some_iff] at h
    obtain ⟨x, hx, y, hy, rfl⟩ := h
    have h1 := elabTy_ok top a m x hm hx
    have h2 := elabTyL_ok top l x.2 y h1.2 hy
    exact ⟨h1.1.trans h2.1, h2.2⟩
end

theorem pretypeVars_ok : ∀ (vs : List (String × PTy)) (m : Maker) (r : List TVar × Maker), MOK m →
    pretypeVars m vs = some r → Ext m r.2 ∧ MOK r.2 ∧
      r.1.map (fun v => some v.index) = vs.map (fun v => r.2.vars v.1)
  | [], m, r, hm, h => by
    simp only [pretypeVars] at h; cases h; exact ⟨Ext.refl m, hm, by simp⟩
  | v :: vs, m, r, hm, h => by
    simp only [pretypeVars, Option.bind_eq_some_iff, Option.map_eq_some_iff] at h
    obtain ⟨x, hx, y, hy, rfl⟩ := h
    have h1 := elabTy_ok false v.2 m x hm hx
    have h2 := var_ok h1.2 v.1
    have h3 := pretypeVars_ok vs _ y h2.2.1 hy
    refine ⟨(h1.1.trans h2.1).trans h3.1, h3.2.1, ?_⟩
    simp only [List.map_cons, List.cons.injEq]
    exact ⟨(h3.1.vars _ _ h2.2.2).symm, h3.2.2⟩

/-! ### The fragment

Formulas in which no argument of a symbol is a type: the types known for the names `N` of the formula
are not `$tType`. -/

/-- The type of a term, not of a type. -/
def TermTy : PTy → Bool
  | .var _ => true
  | .fn s _ => s != "$tType"
  | .prod _ _ => true
  | .map _ r => !isTyConstr r
  | .all _ _ => false

theorem instType_term {ty : PTy} {args : List PTm} {r : PTy} (h : TermTy ty = true)
    (hr : instType ty args = some r) : isTyConstr r = false := by
  cases ty with
  | var n =>
    simp only [instType] at hr
    split at hr <;> cases hr
    rfl
  | fn s as =>
    simp only [instType] at hr
    split at hr <;> cases hr
    simpa [isTyConstr, TermTy] using h
  | prod a b => simp [instType] at hr
  | map a b => simp only [instType, Option.some.injEq] at hr; subst hr; simpa [TermTy] using h
  | all vs t => simp [TermTy] at h

/-- All names of the term are in `N`; the types of numbers are not `$tType`. -/
inductive PTm.Plain (N : String → Prop) : PTm → Prop
  | var {n} : N n → PTm.Plain N (.var n)
  | fn {s args dt} : N s → (∀ a ∈ args, PTm.Plain N a) → (∀ ty, dt = some ty → TermTy ty = true) →
      PTm.Plain N (.fn s args dt)

/-- All names occurring in arguments of the formula are in `N`, and those bound by a quantifier are not
bound with type `$tType`. Predicate symbols are arbitrary. -/
inductive PForm.Plain (N : String → Prop) : PForm → Prop
  | top : PForm.Plain N .top
  | bot : PForm.Plain N .bot
  | pred {s args} : (∀ a ∈ args, PTm.Plain N a) → PForm.Plain N (.pred s args)
  | neg {f} : PForm.Plain N f → PForm.Plain N (.neg f)
  | bin {op l r} : PForm.Plain N l → PForm.Plain N r → PForm.Plain N (.bin op l r)
  | all {vs f} : (∀ e ∈ vs, N e.1 → TermTy e.2 = true) → PForm.Plain N f → PForm.Plain N (.all vs f)
  | ex {vs f} : (∀ e ∈ vs, N e.1 → TermTy e.2 = true) → PForm.Plain N f → PForm.Plain N (.ex vs f)

def PlainCon (N : String → Prop) (con : Ctx) : Prop := ∀ e ∈ con, N e.1 → TermTy e.2 = true

theorem lookup_mem {con : Ctx} {n : String} {ty : PTy} (h : lookup con n = some ty) :
    (n, ty) ∈ con := by
  unfold lookup at h
  simp only [Option.map_eq_some_iff] at h
  obtain ⟨e, he, rfl⟩ := h
  have h1 := List.mem_of_find?_eq_some he
  have h2 := List.find?_some he
  simp only [beq_iff_eq] at h2
  subst h2
  exact List.mem_reverse.1 h1

variable {N : String → Prop}

theorem pretype1_plain {con : Ctx} {t : PTm} {ty : PTy} (hc : PlainCon N con) (ht : t.Plain N)
    (h : pretype1 con t = some ty) : isTyConstr ty = false := by
  cases ht with
  | var hn =>
    simp only [pretype1] at h
    split at h
    · next hl => exact instType_term (hc _ (lookup_mem hl) hn) h
    · cases h; decide
  | fn hn ha hd =>
    simp only [pretype1] at h
    split at h
    · next hl => exact instType_term (hc _ (lookup_mem hl) hn) h
    · split at h
      · cases h
        have := hd _ rfl
        clear hd hc
        cases ty <;> simp_all [TermTy, isTyConstr]
      · cases h; decide

theorem pretype_plain {con : Ctx} (hc : PlainCon N con) : ∀ (l : List PTm) (tys : List PTy),
    (∀ a ∈ l, PTm.Plain N a) → pretype con l = some tys →
    tys.length = l.length ∧ ∀ ty ∈ tys, isTyConstr ty = false
  | [], tys, _, h => by simp only [pretype] at h; cases h; simp
  | a :: l, tys, hl, h => by
    simp only [pretype, Option.bind_eq_some_iff, Option.map_eq_some_iff] at h
    obtain ⟨x, hx, y, hy, rfl⟩ := h
    have := pretype_plain hc l y (fun a ha => hl a (List.mem_cons_of_mem _ ha)) hy
    refine ⟨by simp [this.1], ?_⟩
    intro ty hty
    rcases List.mem_cons.1 hty with rfl | hty
    · exact pretype1_plain hc (hl a (by simp)) hx
    · exact this.2 ty hty

/-! ### Reading the result -/

/-- The interpretation `I` of the internal symbols is the structure `S`, through the table of names;
type arguments are ignored. -/
def Reads (m : Maker) (S : Str D) (I : Interp D) : Prop :=
  ∀ s i, m.ids s = some i → ∀ tys ds, I.fn i tys ds = S.fn s ds ∧ (I.pr i tys ds ↔ S.pr s ds)

/-- The assignment `ρ` of internal variables is the valuation `v`, through the table of names. -/
def VReads (m : Maker) (v : String → D) (ρ : Nat → D) : Prop := ∀ s i, m.vars s = some i → ρ i = v s

theorem Reads.mono {m m' : Maker} {S : Str D} {I : Interp D} (h : Ext m m') (r : Reads m' S I) :
    Reads m S I := fun s i hs => r s i (h.ids s i hs)
theorem VReads.mono {m m' : Maker} {v : String → D} {ρ : Nat → D} (h : Ext m m')
    (r : VReads m' v ρ) : VReads m v ρ := fun s i hs => r s i (h.vars s i hs)

mutual
theorem elabT_spec (S : Str D) (I : Interp D) (μ : Nat → D) : ∀ (t : PTm) (con : Ctx) (m : Maker)
    (r : Out Term), PlainCon N con → t.Plain N → MOK m → elabT con m t = some r →
    Ext m r.m ∧ MOK r.m ∧ PlainCon N r.con ∧
    ∀ v ρ, Reads r.m S I → VReads r.m v ρ → r.val.eval I ρ μ = t.val S v
  | .var n, con, m, r, hc, ht, hm, h => by
    simp only [elabT] at h
    cases h
    have := var_ok hm n
    refine ⟨this.1, this.2.1, hc, ?_⟩
    intro v ρ _ hv
    simp only [Term.eval, PTm.val]
    exact hv _ _ this.2.2
  | .fn s args dt, con, m, r, hc, ht, hm, h => by
    cases ht with
    | fn hn ha hd =>
    simp only [elabT, Option.bind_eq_some_iff] at h
    obtain ⟨tys, htys, x, hx, targs, htargs, y, hy, h⟩ := h
    have hp := pretype_plain hc args tys ha htys
    have h1 := elabL_spec S I μ args con m tys x hc ha hm hp.1 hp.2 hx
    have h2 := id_ok h1.2.1 s
    have h3 := elabTyL_ok false targs _ y h2.2.1 hy
    have key : ∀ m', Ext y.2 m' → ∀ v ρ, Reads m' S I → VReads m' v ρ →
        Term.eval I ρ μ (.fn (x.m.id s).1 y.1 x.val) = PTm.val S v (.fn s args dt) := by
      intro m' he v ρ hr hv
      have he2 : Ext (x.m.id s).2 m' := h3.1.trans he
      have he1 : Ext x.m m' := h2.1.trans he2
      simp only [Term.eval, PTm.val]
      rw [h1.2.2.2 v ρ (hr.mono he1) (hv.mono he1)]
      exact (hr s _ (he2.ids _ _ h2.2.2) _ _).1
    cases dt with
    | none =>
      simp only at h
      cases h
      exact ⟨(h1.1.trans h2.1).trans h3.1, h3.2, h1.2.2.1, key _ (Ext.refl _)⟩
    | some ty =>
      simp only [Option.map_eq_some_iff] at h
      obtain ⟨z, hz, rfl⟩ := h
      have h4 := elabTy_ok false ty _ z h3.2 hz
      refine ⟨((h1.1.trans h2.1).trans h3.1).trans h4.1, h4.2, ?_, key _ h4.1⟩
      intro e he hne
      rcases List.mem_append.1 he with he | he
      · exact h1.2.2.1 e he hne
      · simp only [List.mem_singleton] at he
        subst he
        exact hd ty rfl
theorem elabL_spec (S : Str D) (I : Interp D) (μ : Nat → D) : ∀ (l : List PTm) (con : Ctx) (m : Maker)
    (tys : List PTy) (r : Out (List Term)), PlainCon N con → (∀ a ∈ l, PTm.Plain N a) → MOK m →
    tys.length = l.length → (∀ ty ∈ tys, isTyConstr ty = false) → elabL con m tys l = some r →
    Ext m r.m ∧ MOK r.m ∧ PlainCon N r.con ∧
    ∀ v ρ, Reads r.m S I → VReads r.m v ρ → Term.evalL I ρ μ r.val = PTm.valL S v l
  | [], con, m, tys, r, hc, hl, hm, hlen, htys, h => by
    simp only [elabL] at h; cases h
    exact ⟨Ext.refl m, hm, hc, fun _ _ _ _ => by simp [Term.evalL, PTm.valL]⟩
  | a :: l, con, m, tys, r, hc, hl, hm, hlen, htys, h => by
    cases tys with
    | nil => simp at hlen
    | cons ty tys =>
    simp only [elabL, htys ty (by simp), Bool.false_eq_true, if_false, Option.bind_eq_some_iff,
      Option.map_eq_some_iff] at h
    obtain ⟨x, hx, y, hy, rfl⟩ := h
    have h1 := elabT_spec S I μ a con m x hc (hl a (by simp)) hm hx
    have h2 := elabL_spec S I μ l x.con x.m tys y h1.2.2.1
      (fun a ha => hl a (List.mem_cons_of_mem _ ha)) h1.2.1 (by simpa using hlen)
      (fun ty hty => htys ty (List.mem_cons_of_mem _ hty)) hy
    refine ⟨h1.1.trans h2.1, h2.2.1, h2.2.2.1, ?_⟩
    intro v ρ hr hv
    simp only [Term.evalL, PTm.valL]
    rw [h1.2.2.2 v ρ (hr.mono h2.1) (hv.mono h2.1), h2.2.2.2 v ρ hr hv]
end

/-! ### Formulas -/

theorem VReads.upd {m : Maker} (hm : MOK m) {v : String → D} {ρ : Nat → D} (h : VReads m v ρ)
    {n : String} {i : Nat} (hn : m.vars n = some i) (d : D) : VReads m (updN v n d) (upd ρ i d) := by
  intro s j hs
  simp only [AST.upd, updN]
  by_cases hj : j = i
  · subst hj
    rw [hm.vars_inj s n j hs hn]; simp
  · have : s ≠ n := by rintro rfl; rw [hs] at hn; cases hn; exact hj rfl
    simp [hj, this, h s j hs]

theorem forallVars_names {m : Maker} (hm : MOK m) {P : (Nat → D) → Prop} {Q : (String → D) → Prop}
    (hPQ : ∀ v ρ, VReads m v ρ → (P ρ ↔ Q v)) : ∀ (vs : List (String × PTy)) (ts : List TVar)
    (v : String → D) (ρ : Nat → D), VReads m v ρ →
    ts.map (fun t => some t.index) = vs.map (fun e => m.vars e.1) →
    (forallVars P ts ρ ↔ allNames Q (vs.map (·.1)) v)
  | [], [], v, ρ, hv, _ => hPQ v ρ hv
  | [], _ :: _, _, _, _, h => by simp at h
  | _ :: _, [], _, _, _, h => by simp at h
  | e :: vs, t :: ts, v, ρ, hv, h => by
    simp only [List.map_cons, List.cons.injEq] at h
    simp only [forallVars, allNames, List.map_cons]
    exact forall_congr' fun d => forallVars_names hm hPQ vs ts _ _ (hv.upd hm h.1.symm d) h.2

theorem existsVars_names {m : Maker} (hm : MOK m) {P : (Nat → D) → Prop} {Q : (String → D) → Prop}
    (hPQ : ∀ v ρ, VReads m v ρ → (P ρ ↔ Q v)) : ∀ (vs : List (String × PTy)) (ts : List TVar)
    (v : String → D) (ρ : Nat → D), VReads m v ρ →
    ts.map (fun t => some t.index) = vs.map (fun e => m.vars e.1) →
    (existsVars P ts ρ ↔ exNames Q (vs.map (·.1)) v)
  | [], [], v, ρ, hv, _ => hPQ v ρ hv
  | [], _ :: _, _, _, _, h => by simp at h
  | _ :: _, [], _, _, _, h => by simp at h
  | e :: vs, t :: ts, v, ρ, hv, h => by
    simp only [List.map_cons, List.cons.injEq] at h
    simp only [existsVars, exNames, List.map_cons]
    exact exists_congr fun d => existsVars_names hm hPQ vs ts _ _ (hv.upd hm h.1.symm d) h.2

theorem flatten_plain {op : PBinOp} {f : PForm} (h : f.Plain N) : ∀ g ∈ flatten op f, g.Plain N := by
  induction h with
  | bin hl hr il ir =>
    intro g hg
    simp only [flatten] at hg
    split at hg
    · rcases List.mem_append.1 hg with hg | hg
      · exact il g hg
      · exact ir g hg
    · simp only [List.mem_singleton] at hg; subst hg; exact .bin hl hr
  | top => intro g hg; simp only [flatten, List.mem_singleton] at hg; subst hg; exact .top
  | bot => intro g hg; simp only [flatten, List.mem_singleton] at hg; subst hg; exact .bot
  | pred ha => intro g hg; simp only [flatten, List.mem_singleton] at hg; subst hg; exact .pred ha
  | neg hf => intro g hg; simp only [flatten, List.mem_singleton] at hg; subst hg; exact .neg hf
  | all hv hf => intro g hg; simp only [flatten, List.mem_singleton] at hg; subst hg; exact .all hv hf
  | ex hv hf => intro g hg; simp only [flatten, List.mem_singleton] at hg; subst hg; exact .ex hv hf

theorem flatten_or (S : Str D) (v : String → D) (f : PForm) :
    (∃ g ∈ flatten .or f, g.sat S v) ↔ f.sat S v := by
  induction f with
  | bin op l r il ir =>
    simp only [flatten]
    split
    · next h => subst h; simp only [List.mem_append, PForm.sat, ← il, ← ir]
                constructor
                · rintro ⟨g, hg | hg, h⟩
                  · exact Or.inl ⟨g, hg, h⟩
                  · exact Or.inr ⟨g, hg, h⟩
                · rintro (⟨g, hg, h⟩ | ⟨g, hg, h⟩)
                  · exact ⟨g, Or.inl hg, h⟩
                  · exact ⟨g, Or.inr hg, h⟩
    · simp
  | _ => simp [flatten]

theorem flatten_and (S : Str D) (v : String → D) (f : PForm) :
    (∀ g ∈ flatten .and f, g.sat S v) ↔ f.sat S v := by
  induction f with
  | bin op l r il ir =>
    simp only [flatten]
    split
    · next h => subst h; simp only [List.mem_append, PForm.sat, ← il, ← ir]
                constructor
                · intro h; exact ⟨fun g hg => h g (Or.inl hg), fun g hg => h g (Or.inr hg)⟩
                · rintro ⟨h1, h2⟩ g (hg | hg)
                  · exact h1 g hg
                  · exact h2 g hg
    · simp
  | _ => simp [flatten]

/-- What is shown of a subformula. -/
def FormSpec (N : String → Prop) (S : Str D) (I : Interp D) (μ : Nat → D)
    (g : Ctx → Maker → PForm → Option (Out Form)) : Prop :=
  ∀ (f : PForm) (con : Ctx) (m : Maker) (r : Out Form), PlainCon N con → f.Plain N → MOK m →
    g con m f = some r →
    Ext m r.m ∧ MOK r.m ∧ PlainCon N r.con ∧
    ∀ v ρ, Reads r.m S I → VReads r.m v ρ → (r.val.holds I μ ρ ↔ f.sat S v)

/-- Lists of formulas with the same truth values. -/
def SameVals (I : Interp D) (S : Str D) (μ : Nat → D) (ρ : Nat → D) (v : String → D) :
    List Form → List PForm → Prop
  | [], [] => True
  | f :: fs, g :: gs => (Form.holds I μ ρ f ↔ g.sat S v) ∧ SameVals I S μ ρ v fs gs
  | _, _ => False

theorem SameVals.any {I : Interp D} {S : Str D} {μ ρ : Nat → D} {v : String → D} :
    ∀ {fs : List Form} {gs : List PForm}, SameVals I S μ ρ v fs gs →
    ((∃ f ∈ fs, Form.holds I μ ρ f) ↔ ∃ g ∈ gs, g.sat S v)
  | [], [], _ => by simp
  | f :: fs, g :: gs, h => by
    simp only [List.mem_cons, exists_eq_or_imp, h.1, SameVals.any h.2]
  | [], _ :: _, h => h.elim
  | _ :: _, [], h => h.elim

theorem SameVals.all {I : Interp D} {S : Str D} {μ ρ : Nat → D} {v : String → D} :
    ∀ {fs : List Form} {gs : List PForm}, SameVals I S μ ρ v fs gs →
    ((∀ f ∈ fs, Form.holds I μ ρ f) ↔ ∀ g ∈ gs, g.sat S v)
  | [], [], _ => by simp
  | f :: fs, g :: gs, h => by
    simp only [List.mem_cons, forall_eq_or_imp, h.1, SameVals.all h.2]
  | [], _ :: _, h => h.elim
  | _ :: _, [], h => h.elim

theorem elabSeq_spec {S : Str D} {I : Interp D} {μ : Nat → D}
    {g : Ctx → Maker → PForm → Option (Out Form)} (hg : FormSpec N S I μ g) :
    ∀ (fs : List PForm) (con : Ctx) (m : Maker) (r : Out (List Form)), PlainCon N con →
    (∀ f ∈ fs, f.Plain N) → MOK m → elabSeq g con m fs = some r →
    Ext m r.m ∧ MOK r.m ∧ PlainCon N r.con ∧
    ∀ v ρ, Reads r.m S I → VReads r.m v ρ → SameVals I S μ ρ v r.val fs
  | [], con, m, r, hc, hf, hm, h => by
    simp only [elabSeq] at h; cases h
    exact ⟨Ext.refl m, hm, hc, fun _ _ _ _ => trivial⟩
  | f :: fs, con, m, r, hc, hf, hm, h => by
    simp only [elabSeq, Option.bind_eq_some_iff, Option.map_eq_some_iff] at h
    obtain ⟨x, hx, y, hy, rfl⟩ := h
    have h1 := hg f con m x hc (hf f (by simp)) hm hx
    have h2 := elabSeq_spec hg fs x.con x.m y h1.2.2.1
      (fun f hf' => hf f (List.mem_cons_of_mem _ hf')) h1.2.1 hy
    refine ⟨h1.1.trans h2.1, h2.2.1, h2.2.2.1, ?_⟩
    intro v ρ hr hv
    exact ⟨h1.2.2.2 v ρ (hr.mono h2.1) (hv.mono h2.1), h2.2.2.2 v ρ hr hv⟩

theorem subForms_plain {fl : Bool} {op : PBinOp} {l r : PForm} (hl : l.Plain N) (hr : r.Plain N) :
    ∀ g ∈ subForms fl op l r, g.Plain N := by
  intro g hg
  unfold subForms at hg
  split at hg
  · exact flatten_plain (.bin hl hr) g hg
  · simp only [List.mem_cons, List.not_mem_nil, or_false] at hg
    rcases hg with rfl | rfl
    · exact hl
    · exact hr

/-- Subformulas with the right truth values combine to the right truth value. -/
theorem mkBin_spec {I : Interp D} {S : Str D} {μ ρ : Nat → D} {v : String → D} {fl : Bool}
    {op : PBinOp} {l r : PForm} {fs : List Form} {f : Form}
    (h : SameVals I S μ ρ v fs (subForms fl op l r)) (hf : mkBin op fs = some f) :
    Form.holds I μ ρ f ↔ (PForm.bin op l r).sat S v := by
  cases op with
  | or =>
    simp only [mkBin, Option.some.injEq] at hf; subst hf
    simp only [Form.holds_or, h.any, PForm.sat]
    unfold subForms
    split
    · exact flatten_or S v (.bin .or l r)
    · simp
  | and =>
    simp only [mkBin, Option.some.injEq] at hf; subst hf
    simp only [Form.holds_and, h.all, PForm.sat]
    unfold subForms
    split
    · exact flatten_and S v (.bin .and l r)
    · simp
  | imp =>
    have e : subForms fl .imp l r = [l, r] := by simp [subForms]
    rw [e] at h
    match fs, h with
    | [a, b], h =>
      simp only [mkBin, Option.some.injEq] at hf; subst hf
      simp only [Form.holds_imp, PForm.sat, h.1, h.2.1]
    | [], h => exact h.elim
    | [_], h => exact h.2.elim
    | _ :: _ :: _ :: _, h => exact h.2.2.elim
  | equ =>
    have e : subForms fl .equ l r = [l, r] := by simp [subForms]
    rw [e] at h
    match fs, h with
    | [a, b], h =>
      simp only [mkBin, Option.some.injEq] at hf; subst hf
      simp only [Form.holds_equ, PForm.sat, h.1, h.2.1]
    | [], h => exact h.elim
    | [_], h => exact h.2.elim
    | _ :: _ :: _ :: _, h => exact h.2.2.elim

theorem mkAll_holds {I : Interp D} {μ ρ : Nat → D} {vs : List TVar} {f : Form} :
    Form.holds I μ ρ (mkAll vs f) ↔ forallVars (fun ρ' => Form.holds I μ ρ' f) vs ρ := by
  cases vs with
  | nil => simp [mkAll, forallVars]
  | cons v vs => simp [mkAll, Form.holds_all]

theorem mkEx_holds {I : Interp D} {μ ρ : Nat → D} {vs : List TVar} {f : Form} :
    Form.holds I μ ρ (mkEx vs f) ↔ existsVars (fun ρ' => Form.holds I μ ρ' f) vs ρ := by
  cases vs with
  | nil => simp [mkEx, existsVars]
  | cons v vs => simp [mkEx, Form.holds_ex]

theorem elabN_spec (S : Str D) (I : Interp D) (μ : Nat → D) (fl : Bool) :
    ∀ n, FormSpec N S I μ (elabN fl n) := by
  intro n
  induction n with
  | zero => intro f con m r _ _ _ h; simp [elabN] at h
  | succ n ih =>
    intro f con m r hc hf hm h
    cases hf with
    | top =>
      simp only [elabN] at h; cases h
      exact ⟨Ext.refl m, hm, hc, fun _ _ _ _ => by simp [PForm.sat]⟩
    | bot =>
      simp only [elabN] at h; cases h
      exact ⟨Ext.refl m, hm, hc, fun _ _ _ _ => by simp [PForm.sat]⟩
    | @pred s args ha =>
      simp only [elabN, Option.bind_eq_some_iff, Option.map_eq_some_iff] at h
      obtain ⟨tys, htys, x, hx, targs, htargs, y, hy, rfl⟩ := h
      have hp := pretype_plain hc args tys ha htys
      have h1 := elabL_spec S I μ args con m tys x hc ha hm hp.1 hp.2 hx
      have h2 := id_ok h1.2.1 s
      have h3 := elabTyL_ok false targs _ y h2.2.1 hy
      refine ⟨(h1.1.trans h2.1).trans h3.1, h3.2, h1.2.2.1, ?_⟩
      intro v ρ hr hv
      have he1 : Ext x.m y.2 := h2.1.trans h3.1
      simp only [Form.holds, PForm.sat]
      rw [h1.2.2.2 v ρ (hr.mono he1) (hv.mono he1)]
      exact (hr s _ (h3.1.ids _ _ h2.2.2) _ _).2
    | neg hf =>
      simp only [elabN, Option.map_eq_some_iff] at h
      obtain ⟨x, hx, rfl⟩ := h
      have h1 := ih _ con m x hc hf hm hx
      refine ⟨h1.1, h1.2.1, h1.2.2.1, ?_⟩
      intro v ρ hr hv
      simp only [Form.holds_neg, PForm.sat, h1.2.2.2 v ρ hr hv]
    | bin hl hr =>
      simp only [elabN, Option.bind_eq_some_iff, Option.map_eq_some_iff] at h
      obtain ⟨x, hx, f', hf', rfl⟩ := h
      have h1 := elabSeq_spec ih _ con m x hc (subForms_plain hl hr) hm hx
      exact ⟨h1.1, h1.2.1, h1.2.2.1, fun v ρ hr hv => mkBin_spec (h1.2.2.2 v ρ hr hv) hf'⟩
    | @all vs f hvs hf =>
      simp only [elabN, Option.bind_eq_some_iff, Option.map_eq_some_iff] at h
      obtain ⟨q, hq, x, hx, rfl⟩ := h
      have h0 := pretypeVars_ok vs m q hm hq
      have hc' : PlainCon N (con ++ vs) := by
        intro e he hne
        rcases List.mem_append.1 he with he | he
        · exact hc e he hne
        · exact hvs e he hne
      have h1 := ih _ _ _ x hc' hf h0.2.1 hx
      refine ⟨h0.1.trans h1.1, h1.2.1, h1.2.2.1, ?_⟩
      intro v ρ hr hv
      rw [mkAll_holds]
      simp only [PForm.sat]
      apply forallVars_names h1.2.1 (fun v ρ hv => h1.2.2.2 v ρ hr hv) vs q.1 v ρ hv
      rw [h0.2.2]
      apply List.map_congr_left
      intro e he
      have : some (q.2.vars e.1) ∈ (vs.map (fun v => q.2.vars v.1)).map some := by
        simp only [List.mem_map]; exact ⟨_, ⟨e, he, rfl⟩, rfl⟩
      rw [← h0.2.2] at this
      simp only [List.map_map, List.mem_map, Function.comp_apply, Option.some.injEq] at this
      obtain ⟨t, _, ht⟩ := this
      rw [← ht, h1.1.vars e.1 t.index ht.symm]
    | @ex vs f hvs hf =>
      simp only [elabN, Option.bind_eq_some_iff] at h
      obtain ⟨q, hq, h⟩ := h
      split at h
      · cases h
      simp only [Option.map_eq_some_iff] at h
      obtain ⟨x, hx, rfl⟩ := h
      have h0 := pretypeVars_ok vs m q hm hq
      have hc' : PlainCon N (con ++ vs) := by
        intro e he hne
        rcases List.mem_append.1 he with he | he
        · exact hc e he hne
        · exact hvs e he hne
      have h1 := ih _ _ _ x hc' hf h0.2.1 hx
      refine ⟨h0.1.trans h1.1, h1.2.1, h1.2.2.1, ?_⟩
      intro v ρ hr hv
      rw [mkEx_holds]
      simp only [PForm.sat]
      apply existsVars_names h1.2.1 (fun v ρ hv => h1.2.2.2 v ρ hr hv) vs q.1 v ρ hv
      rw [h0.2.2]
      apply List.map_congr_left
      intro e he
      have : some (q.2.vars e.1) ∈ (vs.map (fun v => q.2.vars v.1)).map some := by
        simp only [List.mem_map]; exact ⟨_, ⟨e, he, rfl⟩, rfl⟩
      rw [← h0.2.2] at this
      simp only [List.map_map, List.mem_map, Function.comp_apply, Option.some.injEq] at this
      obtain ⟨t, _, ht⟩ := this
      rw [← ht, h1.1.vars e.1 t.index ht.symm]

/-! ### C16 -/

/-- Every structure is read by some interpretation, and every valuation by some assignment: the
relation used in the theorems below is never empty. -/
theorem reads_exists {m : Maker} (hm : MOK m) (S : Str D) : ∃ I, Reads m S I := by
  classical
  refine ⟨⟨fun i _ ds => if h : ∃ s, m.ids s = some i then S.fn h.choose ds else S.fn "" ds,
    fun i _ ds => if h : ∃ s, m.ids s = some i then S.pr h.choose ds else S.pr "" ds⟩, ?_⟩
  intro s i hs tys ds
  have hex : ∃ s, m.ids s = some i := ⟨s, hs⟩
  have : hex.choose = s := hm.ids_inj _ _ i hex.choose_spec hs
  simp only [hex, dif_pos, this, and_self]

theorem vreads_exists {m : Maker} (hm : MOK m) (v : String → D) : ∃ ρ, VReads m v ρ := by
  classical
  refine ⟨fun i => if h : ∃ s, m.vars s = some i then v h.choose else v "", ?_⟩
  intro s i hs
  have hex : ∃ s, m.vars s = some i := ⟨s, hs⟩
  have : hex.choose = s := hm.vars_inj _ _ i hex.choose_spec hs
  simp only [hex, dif_pos, this]

end

/-- **C16, whole reading.** Whenever the elaboration of a written formula in which no argument is a
type ends normally, with or without flattening, the internal formula is true exactly when the written
one is, in every structure. Missing: formulas with type arguments, for which variables are not resolved
by scope (`C16_scope_violated`). -/
theorem C16_reading_partial {N : String → Prop} (fl : Bool) (con : Ctx) (m : Maker) (w : WForm)
    (r : Out Form) (hc : PlainCon N con) (hw : w.parse.Plain N) (hm : MOK m)
    (h : elabForm fl con m w.parse = some r) :
    Ext m r.m ∧ MOK r.m ∧ PlainCon N r.con ∧
    ∀ (D : Type u) (S : Str D) (I : Interp D) (v : String → D) (ρ μ : Nat → D),
      Reads r.m S I → VReads r.m v ρ → (Form.holds I μ ρ r.val ↔ w.sat S v) := by
  have h0 := elabN_spec (D := Unit) (N := N) ⟨fun _ _ => (), fun _ _ => True⟩
    ⟨fun _ _ _ => (), fun _ _ _ => True⟩ (fun _ => ()) fl _ w.parse con m r hc hw hm h
  refine ⟨h0.1, h0.2.1, h0.2.2.1, ?_⟩
  intro D S I v ρ μ hr hv
  rw [← C16_connectives]
  exact (elabN_spec S I μ fl _ w.parse con m r hc hw hm h).2.2.2 v ρ hr hv

/-! ### Untyped formulas are always elaborated -/

/-- Variables in `V`, function symbols in `F`, no numbers. -/
inductive PTm.Fof (V F : String → Prop) : PTm → Prop
  | var {n} : V n → PTm.Fof V F (.var n)
  | fn {s args} : F s → (∀ a ∈ args, PTm.Fof V F a) → PTm.Fof V F (.fn s args none)

/-- A written formula of FOF: uninterpreted predicates and equality; the variables are of type `$i` or
of any other atomic type that is not `$tType`. -/
inductive WForm.Fof (V F : String → Prop) : WForm → Prop
  | top : WForm.Fof V F .top
  | bot : WForm.Fof V F .bot
  | atom {s args} : isDefined s = false → (∀ a ∈ args, PTm.Fof V F a) → WForm.Fof V F (.atom s args)
  | eq {l r} : PTm.Fof V F l → PTm.Fof V F r → WForm.Fof V F (.eq l r)
  | neq {l r} : PTm.Fof V F l → PTm.Fof V F r → WForm.Fof V F (.neq l r)
  | not {f} : WForm.Fof V F f → WForm.Fof V F (.not f)
  | and {l r} : WForm.Fof V F l → WForm.Fof V F r → WForm.Fof V F (.and l r)
  | or {l r} : WForm.Fof V F l → WForm.Fof V F r → WForm.Fof V F (.or l r)
  | imp {l r} : WForm.Fof V F l → WForm.Fof V F r → WForm.Fof V F (.imp l r)
  | rimp {l r} : WForm.Fof V F l → WForm.Fof V F r → WForm.Fof V F (.rimp l r)
  | iff {l r} : WForm.Fof V F l → WForm.Fof V F r → WForm.Fof V F (.iff l r)
  | xor {l r} : WForm.Fof V F l → WForm.Fof V F r → WForm.Fof V F (.xor l r)
  | nor {l r} : WForm.Fof V F l → WForm.Fof V F r → WForm.Fof V F (.nor l r)
  | nand {l r} : WForm.Fof V F l → WForm.Fof V F r → WForm.Fof V F (.nand l r)
  | all {vs f} : (∀ e ∈ vs, V e.1 ∧ ∃ s, s ≠ "$tType" ∧ e.2 = .fn s []) → WForm.Fof V F f →
      WForm.Fof V F (.all vs f)
  | ex {vs f} : (∀ e ∈ vs, V e.1 ∧ ∃ s, s ≠ "$tType" ∧ e.2 = .fn s []) → WForm.Fof V F f →
      WForm.Fof V F (.ex vs f)

/-- The parsed counterpart. -/
inductive PForm.Fof (V F : String → Prop) : PForm → Prop
  | top : PForm.Fof V F .top
  | bot : PForm.Fof V F .bot
  | pred {s args} : isDefined s = false → (∀ a ∈ args, PTm.Fof V F a) → PForm.Fof V F (.pred s args)
  | eq {l r} : PTm.Fof V F l → PTm.Fof V F r → PForm.Fof V F (.pred "=" [l, r])
  | neg {f} : PForm.Fof V F f → PForm.Fof V F (.neg f)
  | bin {op l r} : PForm.Fof V F l → PForm.Fof V F r → PForm.Fof V F (.bin op l r)
  | all {vs f} : (∀ e ∈ vs, V e.1 ∧ ∃ s, s ≠ "$tType" ∧ e.2 = .fn s []) → PForm.Fof V F f →
      PForm.Fof V F (.all vs f)
  | ex {vs f} : (∀ e ∈ vs, V e.1 ∧ ∃ s, s ≠ "$tType" ∧ e.2 = .fn s []) → PForm.Fof V F f →
      PForm.Fof V F (.ex vs f)

/-- The context knows nothing of the function symbols, and only atomic types of the variables. -/
def FofCon (V F : String → Prop) (con : Ctx) : Prop :=
  ∀ e ∈ con, ¬ F e.1 ∧ (V e.1 → ∃ s, s ≠ "$tType" ∧ e.2 = .fn s [])

section
variable {V F : String → Prop}

theorem parse_fof {w : WForm} (h : w.Fof V F) : w.parse.Fof V F := by
  induction h with
  | top => exact .top
  | bot => exact .bot
  | atom hd ha => exact .pred hd ha
  | eq hl hr => exact .eq hl hr
  | neq hl hr => exact .neg (.eq hl hr)
  | not _ ih => exact .neg ih
  | and _ _ il ir => exact .bin il ir
  | or _ _ il ir => exact .bin il ir
  | imp _ _ il ir => exact .bin il ir
  | rimp _ _ il ir => exact .bin ir il
  | iff _ _ il ir => exact .bin il ir
  | xor _ _ il ir => exact .bin (.bin il ir) (.neg (.bin il ir))
  | nor _ _ il ir => exact .neg (.bin il ir)
  | nand _ _ il ir => exact .neg (.bin il ir)
  | all hv _ ih => exact .all hv ih
  | ex hv _ ih => exact .ex hv ih

theorem PTm.Fof.plain {t : PTm} (h : t.Fof V F) : t.Plain (fun n => V n ∨ F n) := by
  induction h with
  | var hn => exact .var (Or.inl hn)
  | fn hs _ ih => exact .fn (Or.inr hs) ih (by intro ty h; cases h)

theorem PForm.Fof.plain {f : PForm} (h : f.Fof V F) : f.Plain (fun n => V n ∨ F n) := by
  induction h with
  | top => exact .top
  | bot => exact .bot
  | pred _ ha => exact .pred fun a h => (ha a h).plain
  | eq hl hr =>
    refine .pred ?_
    intro a h
    simp only [List.mem_cons, List.not_mem_nil, or_false] at h
    rcases h with rfl | rfl
    · exact hl.plain
    · exact hr.plain
  | neg _ ih => exact .neg ih
  | bin _ _ il ir => exact .bin il ir
  | all hv _ ih => exact .all (fun e he _ => by
      obtain ⟨_, s, hs, h⟩ := hv e he; rw [h]; simpa [TermTy] using hs) ih
  | ex hv _ ih => exact .ex (fun e he _ => by
      obtain ⟨_, s, hs, h⟩ := hv e he; rw [h]; simpa [TermTy] using hs) ih

theorem FofCon.plain {con : Ctx} (h : FofCon V F con) : PlainCon (fun n => V n ∨ F n) con := by
  intro e he hn
  have := h e he
  rcases hn with hv | hf
  · obtain ⟨s, hs, h⟩ := this.2 hv; rw [h]; simpa [TermTy] using hs
  · exact absurd hf this.1

/-- The type found for a term: atomic and not `$tType`. -/
theorem pretype1_fof {con : Ctx} (hc : FofCon V F con) {t : PTm} (ht : t.Fof V F) :
    ∃ s, s ≠ "$tType" ∧ pretype1 con t = some (.fn s []) := by
  cases ht with
  | @var n hn =>
    simp only [pretype1]
    cases hl : lookup con n with
    | none => exact ⟨"$i", by decide, rfl⟩
    | some ty =>
      obtain ⟨s, hs, h⟩ := (hc _ (lookup_mem hl)).2 hn
      simp only at h
      subst h
      exact ⟨s, hs, by simp [instType]⟩
  | @fn s args hs ha =>
    simp only [pretype1]
    cases hl : lookup con s with
    | none => exact ⟨"$i", by decide, rfl⟩
    | some ty => exact absurd hs (hc _ (lookup_mem hl)).1

theorem pretype_fof {con : Ctx} (hc : FofCon V F con) : ∀ (l : List PTm), (∀ a ∈ l, PTm.Fof V F a) →
    ∃ tys, pretype con l = some tys ∧ tys.length = l.length ∧
      ∀ ty ∈ tys, ∃ s, s ≠ "$tType" ∧ ty = .fn s []
  | [], _ => ⟨[], rfl, rfl, by simp⟩
  | a :: l, h => by
    obtain ⟨s, hs, h1⟩ := pretype1_fof hc (h a (by simp))
    obtain ⟨tys, h2, h3, h4⟩ := pretype_fof hc l (fun a ha => h a (List.mem_cons_of_mem _ ha))
    refine ⟨.fn s [] :: tys, by simp [pretype, h1, h2], by simp [h3], ?_⟩
    intro ty hty
    rcases List.mem_cons.1 hty with rfl | hty
    · exact ⟨s, hs, rfl⟩
    · exact h4 ty hty

theorem splitTys_fof : ∀ (tys : List PTy) (l : List PTm), (∀ ty ∈ tys, ∃ s, s ≠ "$tType" ∧ ty = .fn s []) →
    splitTys tys l = []
  | [], l, _ => by cases l <;> rfl
  | ty :: tys, [], _ => rfl
  | ty :: tys, a :: l, h => by
    obtain ⟨s, hs, rfl⟩ := h ty (by simp)
    simp only [splitTys, isTyConstr, beq_iff_eq, hs, if_false]
    exact splitTys_fof tys l fun ty hty => h ty (List.mem_cons_of_mem _ hty)

theorem splitTms_fof : ∀ (tys : List PTy) (l : List PTm), tys.length = l.length →
    (∀ ty ∈ tys, ∃ s, s ≠ "$tType" ∧ ty = .fn s []) → splitTms tys l = l
  | [], l, hl, _ => by cases l with
    | nil => rfl
    | cons a l => simp at hl
  | ty :: tys, [], hl, _ => by simp at hl
  | ty :: tys, a :: l, hl, h => by
    obtain ⟨s, hs, rfl⟩ := h ty (by simp)
    simp only [splitTms, isTyConstr, beq_iff_eq, hs, if_false]
    rw [splitTms_fof tys l (by simpa using hl) fun ty hty => h ty (List.mem_cons_of_mem _ hty)]

/-- Function symbols of the formula are not among the defined ones. -/
def NotDefined (F : String → Prop) : Prop := ∀ s, F s → isDefined s = false

/-- A term elaborated from an untyped one: a function without type arguments, or a variable. -/
def UntypedHead : PTm → Term → Prop
  | .var _, _ => True
  | .fn _ _ _, .fn _ tys _ => tys = []
  | _, _ => False

def UntypedHeads : List PTm → List Term → Prop
  | [], [] => True
  | p :: ps, a :: as => UntypedHead p a ∧ UntypedHeads ps as
  | _, _ => False

mutual
theorem elabT_total (hF : NotDefined F) : ∀ (t : PTm) (con : Ctx) (m : Maker), FofCon V F con →
    t.Fof V F → ∃ r, elabT con m t = some r ∧ r.con = con ∧ r.typed = false ∧ UntypedHead t r.val
  | .var n, con, m, _, _ => ⟨_, by simp only [elabT]; rfl, rfl, rfl, trivial⟩
  | .fn s args dt, con, m, hc, ht => by
    cases ht with
    | fn hs ha =>
    obtain ⟨tys, h1, h2, h3⟩ := pretype_fof hc args ha
    obtain ⟨x, hx, hxc, hxt, hxl⟩ := elabL_total hF args con m tys hc ha h2 h3
    have ht : tyArgs x.con s tys args x.val = some [] := by
      simp [tyArgs, hF s hs, splitTys_fof tys args h3]
    refine ⟨⟨x.con, (x.m.id s).2, .fn (x.m.id s).1 [] x.val, false⟩, ?_, hxc, rfl, rfl⟩
    simp only [elabT, h1, hx, ht, Option.bind_some, elabTyL, hF s hs, List.isEmpty_nil, Bool.not_true,
      Bool.false_eq_true, if_false]
theorem elabL_total (hF : NotDefined F) : ∀ (l : List PTm) (con : Ctx) (m : Maker) (tys : List PTy),
    FofCon V F con → (∀ a ∈ l, PTm.Fof V F a) → tys.length = l.length →
    (∀ ty ∈ tys, ∃ s, s ≠ "$tType" ∧ ty = .fn s []) →
    ∃ r, elabL con m tys l = some r ∧ r.con = con ∧ r.typed = false ∧ UntypedHeads l r.val
  | [], con, m, tys, _, _, _, _ => ⟨⟨con, m, [], false⟩, by simp only [elabL], rfl, rfl, trivial⟩
  | a :: l, con, m, tys, hc, hl, hlen, h => by
    cases tys with
    | nil => simp at hlen
    | cons ty tys =>
    obtain ⟨s, hs, rfl⟩ := h ty (by simp)
    obtain ⟨x, hx, hxc, hxt, hxu⟩ := elabT_total hF a con m hc (hl a (by simp))
    obtain ⟨y, hy, hyc, hyt, hyu⟩ := elabL_total hF l x.con x.m tys (by rw [hxc]; exact hc)
      (fun a ha => hl a (List.mem_cons_of_mem _ ha)) (by simpa using hlen)
      (fun ty hty => h ty (List.mem_cons_of_mem _ hty))
    refine ⟨⟨y.con, y.m, x.val :: y.val, x.typed || y.typed⟩, ?_, by rw [hyc, hxc], by simp [hxt, hyt],
      hxu, hyu⟩
    simp only [elabL, isTyConstr, beq_iff_eq, hs, if_false, hx, Option.bind_some, hy, Option.map_some]
end

theorem UntypedHeads.length : ∀ {ps : List PTm} {as : List Term}, UntypedHeads ps as →
    as.length = ps.length
  | [], [], _ => rfl
  | _ :: _, _ :: _, h => by simp [UntypedHeads.length h.2]
  | [], _ :: _, h => h.elim
  | _ :: _, [], h => h.elim

/-- The types found for the arguments of an equality. -/
theorem definedTys_fof {con : Ctx} (hc : FofCon V F con) : ∀ (ps : List PTm) (as : List Term)
    (tys : List PTy), (∀ a ∈ ps, PTm.Fof V F a) → UntypedHeads ps as → tys.length = ps.length →
    (∀ ty ∈ tys, ∃ s, s ≠ "$tType" ∧ ty = .fn s []) →
    ∃ r, definedTys con ps as tys = some r ∧ r.length = ps.length ∧
      ∀ ty ∈ r, ∃ s, s ≠ "$tType" ∧ ty = .fn s []
  | [], [], _, _, _, _, _ => ⟨[], by simp [definedTys], rfl, by simp⟩
  | [], _ :: _, _, _, h, _, _ => h.elim
  | _ :: _, [], _, _, h, _, _ => h.elim
  | p :: ps, a :: as, tys, hp, hu, hlen, h => by
    cases tys with
    | nil => simp at hlen
    | cons ty tys =>
    obtain ⟨r, h1, h2, h3⟩ := definedTys_fof hc ps as tys
      (fun a ha => hp a (List.mem_cons_of_mem _ ha)) hu.2 (by simpa using hlen)
      (fun ty hty => h ty (List.mem_cons_of_mem _ hty))
    obtain ⟨s0, hs0, h0⟩ := h ty (by simp)
    have key : ∃ s, s ≠ "$tType" ∧ definedTys con (p :: ps) (a :: as) (ty :: tys) =
        some (.fn s [] :: r) := by
      cases hp p (by simp) with
      | @var n hn =>
        simp only [definedTys, List.tail_cons, h1]
        cases hl : lookup con n with
        | none => exact ⟨s0, hs0, by simp [h0]⟩
        | some ty' =>
          obtain ⟨s, hs, h⟩ := (hc _ (lookup_mem hl)).2 hn
          simp only at h
          subst h
          exact ⟨s, hs, by simp [instType]⟩
      | @fn s args hs ha =>
        cases a with
        | fn q targs l =>
          have ht : targs = [] := hu.1
          subst ht
          simp only [definedTys, List.tail_cons, h1, tyArgsBack, Option.bind_some]
          cases hl : lookup con s with
          | none => exact ⟨s0, hs0, by simp [h0]⟩
          | some ty' => exact absurd hs (hc _ (lookup_mem hl)).1
        | var _ => exact hu.1.elim
        | mv _ => exact hu.1.elim
    obtain ⟨s, hs, hk⟩ := key
    refine ⟨_, hk, by simp [h2], ?_⟩
    intro ty' hty
    rcases List.mem_cons.1 hty with rfl | hty
    · exact ⟨s, hs, rfl⟩
    · exact h3 ty' hty

theorem pretypeVars_total : ∀ (vs : List (String × PTy)) (m : Maker),
    (∀ e ∈ vs, ∃ s, s ≠ "$tType" ∧ e.2 = .fn s []) →
    ∃ r, pretypeVars m vs = some r ∧ r.1.any (fun v => isTType v.ty) = false
  | [], m, _ => ⟨([], m), rfl, rfl⟩
  | e :: vs, m, h => by
    obtain ⟨s, hs, h1⟩ := h e (by simp)
    obtain ⟨r, hr, h2⟩ := pretypeVars_total vs (m.var e.1).2
      (fun e he => h e (List.mem_cons_of_mem _ he))
    refine ⟨(⟨e.1, (m.var e.1).1, .constr s []⟩ :: r.1, r.2), ?_, ?_⟩
    · simp [pretypeVars, h1, elabTy, elabTyL, hr]
    · simp only [List.any_cons, h2, Bool.or_false]
      simpa [isTType] using hs

theorem flatten_fof {op : PBinOp} {f : PForm} (h : f.Fof V F) :
    ∀ g ∈ flatten op f, g.Fof V F ∧ g.depth ≤ f.depth := by
  induction h with
  | bin hl hr il ir =>
    intro g hg
    simp only [flatten] at hg
    split at hg
    · rcases List.mem_append.1 hg with hg | hg
      · exact ⟨(il g hg).1, by have := (il g hg).2; simp only [PForm.depth]; omega⟩
      · exact ⟨(ir g hg).1, by have := (ir g hg).2; simp only [PForm.depth]; omega⟩
    · simp only [List.mem_singleton] at hg; subst hg; exact ⟨.bin hl hr, Nat.le_refl _⟩
  | top => intro g hg; simp only [flatten, List.mem_singleton] at hg; subst hg; exact ⟨.top, Nat.le_refl _⟩
  | bot => intro g hg; simp only [flatten, List.mem_singleton] at hg; subst hg; exact ⟨.bot, Nat.le_refl _⟩
  | pred hd ha =>
    intro g hg; simp only [flatten, List.mem_singleton] at hg; subst hg; exact ⟨.pred hd ha, Nat.le_refl _⟩
  | eq hl hr =>
    intro g hg; simp only [flatten, List.mem_singleton] at hg; subst hg; exact ⟨.eq hl hr, Nat.le_refl _⟩
  | neg hf =>
    intro g hg; simp only [flatten, List.mem_singleton] at hg; subst hg; exact ⟨.neg hf, Nat.le_refl _⟩
  | all hv hf =>
    intro g hg; simp only [flatten, List.mem_singleton] at hg; subst hg; exact ⟨.all hv hf, Nat.le_refl _⟩
  | ex hv hf =>
    intro g hg; simp only [flatten, List.mem_singleton] at hg; subst hg; exact ⟨.ex hv hf, Nat.le_refl _⟩

theorem flatten_bin_depth {op : PBinOp} {l r : PForm} (hl : l.Fof V F) (hr : r.Fof V F) :
    ∀ g ∈ flatten op (.bin op l r), g.Fof V F ∧ g.depth ≤ max l.depth r.depth := by
  intro g hg
  simp only [flatten, if_true] at hg
  rcases List.mem_append.1 hg with hg | hg
  · have := flatten_fof hl g hg; exact ⟨this.1, by omega⟩
  · have := flatten_fof hr g hg; exact ⟨this.1, by omega⟩

theorem subForms_fof {fl : Bool} {op : PBinOp} {l r : PForm} (hl : l.Fof V F) (hr : r.Fof V F) :
    ∀ g ∈ subForms fl op l r, g.Fof V F ∧ g.depth ≤ max l.depth r.depth := by
  unfold subForms
  split
  · exact flatten_bin_depth hl hr
  · intro g hg
    simp only [List.mem_cons, List.not_mem_nil, or_false] at hg
    rcases hg with rfl | rfl
    · exact ⟨hl, by omega⟩
    · exact ⟨hr, by omega⟩

theorem elabSeq_total {g : Ctx → Maker → PForm → Option (Out Form)} {P : PForm → Prop}
    (hg : ∀ f con m, P f → FofCon V F con → ∃ r, g con m f = some r ∧ FofCon V F r.con ∧ r.typed = false) :
    ∀ (fs : List PForm) (con : Ctx) (m : Maker), (∀ f ∈ fs, P f) → FofCon V F con →
    ∃ r, elabSeq g con m fs = some r ∧ FofCon V F r.con ∧ r.typed = false ∧ r.val.length = fs.length
  | [], con, m, _, hc => ⟨⟨con, m, [], false⟩, rfl, hc, rfl, rfl⟩
  | f :: fs, con, m, h, hc => by
    obtain ⟨x, hx, hxc, hxt⟩ := hg f con m (h f (by simp)) hc
    obtain ⟨y, hy, hyc, hyt, hyl⟩ := elabSeq_total hg fs x.con x.m
      (fun f hf => h f (List.mem_cons_of_mem _ hf)) hxc
    refine ⟨⟨y.con, y.m, x.val :: y.val, x.typed || y.typed⟩, ?_, hyc, by simp [hxt, hyt], by simp [hyl]⟩
    simp [elabSeq, hx, hy]

theorem mkBin_total {fl : Bool} {op : PBinOp} {l r : PForm} {fs : List Form}
    (h : fs.length = (subForms fl op l r).length) : ∃ f, mkBin op fs = some f := by
  cases op with
  | or => exact ⟨_, rfl⟩
  | and => exact ⟨_, rfl⟩
  | imp =>
    have e : subForms fl .imp l r = [l, r] := by simp [subForms]
    rw [e] at h
    match fs, h with
    | [a, b], _ => exact ⟨_, rfl⟩
  | equ =>
    have e : subForms fl .equ l r = [l, r] := by simp [subForms]
    rw [e] at h
    match fs, h with
    | [a, b], _ => exact ⟨_, rfl⟩

theorem FofCon.append {con : Ctx} {vs : List (String × PTy)} (hVF : ∀ s, V s → ¬ F s)
    (h : FofCon V F con) (hv : ∀ e ∈ vs, V e.1 ∧ ∃ s, s ≠ "$tType" ∧ e.2 = .fn s []) :
    FofCon V F (con ++ vs) := by
  intro e he
  rcases List.mem_append.1 he with he | he
  · exact h e he
  · exact ⟨hVF _ (hv e he).1, fun _ => (hv e he).2⟩

theorem elabN_total (fl : Bool) (hF : NotDefined F) (hVF : ∀ s, V s → ¬ F s) :
    ∀ (n : Nat) (f : PForm) (con : Ctx) (m : Maker), f.Fof V F → f.depth ≤ n → FofCon V F con →
    ∃ r, elabN fl n con m f = some r ∧ FofCon V F r.con ∧ r.typed = false := by
  intro n
  induction n with
  | zero => intro f con m _ h _; cases f <;> simp [PForm.depth] at h
  | succ n ih =>
    intro f con m hf hd hc
    cases hf with
    | top => exact ⟨_, by simp only [elabN]; rfl, hc, rfl⟩
    | bot => exact ⟨_, by simp only [elabN]; rfl, hc, rfl⟩
    | @pred s args hs ha =>
      obtain ⟨tys, h1, h2, h3⟩ := pretype_fof hc args ha
      obtain ⟨x, hx, hxc, hxt, hxl⟩ := elabL_total hF args con m tys hc ha h2 h3
      have ht : tyArgs x.con s tys args x.val = some [] := by
        simp [tyArgs, hs, splitTys_fof tys args h3]
      refine ⟨⟨x.con, (x.m.id s).2, .pred (x.m.id s).1 [] x.val, false⟩, ?_, by rw [hxc]; exact hc, rfl⟩
      simp only [elabN, h1, hx, ht, Option.bind_some, elabTyL, Option.map_some, hs, Bool.false_eq_true,
        if_false, List.isEmpty_nil, Bool.not_true]
    | @eq l r hl hr =>
      have ha : ∀ a ∈ [l, r], PTm.Fof V F a := by
        intro a h
        simp only [List.mem_cons, List.not_mem_nil, or_false] at h
        rcases h with rfl | rfl
        · exact hl
        · exact hr
      obtain ⟨tys, h1, h2, h3⟩ := pretype_fof hc _ ha
      obtain ⟨x, hx, hxc, hxt, hxl⟩ := elabL_total hF _ con m tys hc ha h2 h3
      obtain ⟨q, hq, hql, hq2⟩ := definedTys_fof (by rw [hxc]; exact hc : FofCon V F x.con) _ x.val tys
        ha hxl h2 h3
      match q, hql, hq2, hq with
      | ty :: q, _, hq2, hq =>
      obtain ⟨s, _, rfl⟩ := hq2 ty (by simp)
      have hlen := hxl.length
      have ht : tyArgs x.con "=" tys [l, r] x.val = some [.fn s []] := by
        have e1 : isDefined "=" = true := by decide
        have e2 : definedLength "=" = 2 := by decide
        have e3 : isAllowed "=" (.fn s []) = true := by
          have : definedTable.find? (fun e => e.1 == "=") = some ("=", 2, false, binPoly tProp) := by
            rfl
          simp [isAllowed, this]
        simp only [tyArgs, e1, if_true, splitTys_fof tys _ h3, splitTms_fof tys _ h2 h3, elabDefined, e2,
          hlen, List.length_cons, List.length_nil, List.drop_zero, hq, Option.bind_some,
          List.find?_cons, e3]
        simp
      refine ⟨⟨x.con, (x.m.id "=").2, .pred (x.m.id "=").1 [.constr s []] x.val, x.typed⟩, ?_,
        by rw [hxc]; exact hc, hxt⟩
      have e1 : isDefined "=" = true := by decide
      simp only [elabN, h1, hx, ht, Option.bind_some, elabTyL, elabTy, Option.map_some, e1, if_true]
    | neg hf =>
      obtain ⟨x, hx, hxc, hxt⟩ := ih _ con m hf (by simp only [PForm.depth] at hd; omega) hc
      exact ⟨⟨x.con, x.m, .neg x.val, x.typed⟩, by simp [elabN, hx], hxc, hxt⟩
    | @bin op l r hl hr =>
      obtain ⟨x, hx, hxc, hxt, hxl⟩ := elabSeq_total (P := fun f => f.Fof V F ∧ f.depth ≤ n)
        (fun f con m hf hc => ih f con m hf.1 hf.2 hc) (subForms fl op l r) con m
        (fun g hg => ⟨(subForms_fof hl hr g hg).1, by
          have := (subForms_fof hl hr g hg).2; simp only [PForm.depth] at hd; omega⟩) hc
      obtain ⟨f', hf'⟩ := mkBin_total hxl
      exact ⟨⟨x.con, x.m, f', x.typed⟩, by simp [elabN, hx, hf'], hxc, hxt⟩
    | @all vs f hv hf =>
      obtain ⟨q, hq, _⟩ := pretypeVars_total vs m fun e he => (hv e he).2
      obtain ⟨x, hx, hxc, hxt⟩ := ih f (con ++ vs) q.2 hf (by simp only [PForm.depth] at hd; omega)
        (hc.append hVF hv)
      exact ⟨⟨x.con, x.m, mkAll q.1 x.val, x.typed⟩, by simp [elabN, hq, hx], hxc, hxt⟩
    | @ex vs f hv hf =>
      obtain ⟨q, hq, hqt⟩ := pretypeVars_total vs m fun e he => (hv e he).2
      obtain ⟨x, hx, hxc, hxt⟩ := ih f (con ++ vs) q.2 hf (by simp only [PForm.depth] at hd; omega)
        (hc.append hVF hv)
      exact ⟨⟨x.con, x.m, mkEx q.1 x.val, x.typed⟩, by
        simp only [elabN, hq, Option.bind_some, hqt, Bool.false_eq_true, if_false, hx, Option.map_some],
        hxc, hxt⟩

end

/-- **C16 for untyped problems.** Every formula of FOF (any nesting of the connectives, any quantifiers,
equality) is elaborated without failure, with or without flattening, to a formula which is true exactly
when the written one is. The conditions on names are lexical: variables, function symbols and the
defined symbols of the language are different words. -/
theorem C16_fof {V F : String → Prop} (fl : Bool) (con : Ctx) (m : Maker) (w : WForm)
    (hw : w.Fof V F) (hF : ∀ s, F s → isDefined s = false) (hVF : ∀ s, V s → ¬ F s)
    (hc : FofCon V F con) (hm : MOK m) :
    ∃ r, elabForm fl con m w.parse = some r ∧ Ext m r.m ∧ MOK r.m ∧ FofCon V F r.con ∧
    r.typed = false ∧
    ∀ (D : Type u) (S : Str D) (I : Interp D) (v : String → D) (ρ μ : Nat → D),
      Reads r.m S I → VReads r.m v ρ → (Form.holds I μ ρ r.val ↔ w.sat S v) := by
  have hp := parse_fof hw
  obtain ⟨r, hr, hrc, hrt⟩ := elabN_total fl hF hVF _ w.parse con m hp (Nat.le_refl _) hc
  have h := C16_reading_partial fl con m w r hc.plain hp.plain hm hr
  exact ⟨r, hr, h.1, h.2.1, hrc, hrt, h.2.2.2⟩

/-- Words that are neither types nor defined symbols of the language. -/
def UserName (s : String) : Prop := s ∉ initialContext.map (·.1)

/-- The context at the beginning of a file meets the hypothesis. -/
theorem initialContext_fof {V F : String → Prop} (hV : ∀ s, V s → UserName s)
    (hF : ∀ s, F s → UserName s) : FofCon V F initialContext := by
  intro e he
  have : e.1 ∈ initialContext.map (·.1) := List.mem_map_of_mem he
  exact ⟨fun h => hF _ h this, fun h => absurd this (hV _ h)⟩

/-- A formula meeting the hypotheses: `![X] : ((p(X) <~> q(f(X))) <= ?[Y] : (X != Y ~& p(Y)))`. -/
example : WForm.Fof (fun s => s = "X" ∨ s = "Y") (fun s => s = "f")
    (.all [("X", .fn "$i" [])] (.rimp
      (.xor (.atom "p" [.var "X"]) (.atom "q" [.fn "f" [.var "X"] none]))
      (.ex [("Y", .fn "$i" [])] (.nand (.neq (.var "X") (.var "Y")) (.atom "p" [.var "Y"]))))) := by
  have hX : PTm.Fof (fun s => s = "X" ∨ s = "Y") (fun s => s = "f") (.var "X") := .var (Or.inl rfl)
  have hY : PTm.Fof (fun s => s = "X" ∨ s = "Y") (fun s => s = "f") (.var "Y") := .var (Or.inr rfl)
  refine .all ?_ (.rimp (.xor (.atom (by decide) ?_) (.atom (by decide) ?_))
    (.ex ?_ (.nand (.neq hX hY) (.atom (by decide) ?_))))
  · intro e he; simp only [List.mem_singleton] at he; subst he
    exact ⟨Or.inl rfl, "$i", by decide, rfl⟩
  · intro a ha; simp only [List.mem_singleton] at ha; subst ha; exact hX
  · intro a ha; simp only [List.mem_singleton] at ha; subst ha
    refine .fn rfl ?_
    intro a ha; simp only [List.mem_singleton] at ha; subst ha; exact hX
  · intro e he; simp only [List.mem_singleton] at he; subst he
    exact ⟨Or.inr rfl, "$i", by decide, rfl⟩
  · intro a ha; simp only [List.mem_singleton] at ha; subst ha; exact hY

/-- Its elaboration, with flattening. -/
example : ((elabForm true initialContext Maker.reset (WForm.parse (.all [("X", .fn "$i" [])] (.rimp
      (.xor (.atom "p" [.var "X"]) (.atom "q" [.fn "f" [.var "X"] none]))
      (.ex [("Y", .fn "$i" [])] (.nand (.neq (.var "X") (.var "Y")) (.atom "p" [.var "Y"]))))))).map
      (·.val)) =
    some (.all [⟨"X", 0, .constr "$i" []⟩] (.imp
      (.ex [⟨"Y", 1, .constr "$i" []⟩] (.neg (.and [
        .neg (.pred 2 [.constr "$i" []] [.var 0, .var 1]), .pred 3 [] [.var 1]])))
      (.and [.or [.pred 3 [] [.var 0], .pred 5 [] [.fn 4 [] [.var 0]]],
        .neg (.and [.pred 3 [] [.var 0], .pred 5 [] [.fn 4 [] [.var 0]]])]))) := by
  decide +kernel

/-! ### Scope of type variables -/

/-- `![X : $i] : ((![X : $tType] : p(X)) & q(X))`: the last `X` is the term variable of the outer
quantifier. -/
def scopeW : WForm :=
  .all [("X", .fn "$i" [])] (.and (.all [("X", .fn "$tType" [])] (.atom "p" [.var "X"]))
    (.atom "q" [.var "X"]))

/-- **C16 violated by quantified types.** The context keeps the variables of a quantifier after its end
(src/Engine/syntax-translation.go:238): the last `X` above is taken for the type variable of the inner
quantifier, and `q` is left without its argument. -/
theorem C16_scope_violated :
    ((elabForm false initialContext Maker.reset scopeW.parse).map (·.val)) =
      some (.all [⟨"X", 0, .constr "$i" []⟩] (.and [
        .all [⟨"X", 0, .constr "$tType" []⟩] (.pred 1 [.bound "X"] []),
        .pred 2 [.bound "X"] []])) ∧
    ((elabForm false initialContext Maker.reset (WForm.parse
      (.all [("X", .fn "$i" [])] (.and (.all [("Y", .fn "$tType" [])] (.atom "p" [.var "Y"]))
        (.atom "q" [.var "X"]))))).map (·.val)) =
      some (.all [⟨"X", 0, .constr "$i" []⟩] (.and [
        .all [⟨"Y", 1, .constr "$tType" []⟩] (.pred 2 [.bound "Y"] []),
        .pred 3 [] [.var 0]])) := by
  constructor <;> decide +kernel

/-! ### Flattening the list of axioms -/

mutual
/-- One turn of the loop of `FlattenAnd` (src/AST/form-list.go:54-60). -/
def flattenAnd1 : Form → List Form
  | .and fs => flattenAnd fs
  | f => [f]
/-- `FlattenAnd` (src/AST/form-list.go:51). -/
def flattenAnd : List Form → List Form
  | [] => []
  | f :: fs => flattenAnd1 f ++ flattenAnd fs
end

mutual
theorem flattenAnd1_holds {D : Type u} {I : Interp D} {μ ρ : Nat → D} : ∀ (f : Form),
    (∀ g ∈ flattenAnd1 f, Form.holds I μ ρ g) ↔ Form.holds I μ ρ f
  | .and fs => by simp only [flattenAnd1, flattenAnd_holds fs, Form.holds_and]
  | .top => by simp [flattenAnd1]
  | .bot => by simp [flattenAnd1]
  | .pred _ _ _ => by simp [flattenAnd1]
  | .neg _ => by simp [flattenAnd1]
  | .or _ => by simp [flattenAnd1]
  | .imp _ _ => by simp [flattenAnd1]
  | .equ _ _ => by simp [flattenAnd1]
  | .all _ _ => by simp [flattenAnd1]
  | .ex _ _ => by simp [flattenAnd1]
theorem flattenAnd_holds {D : Type u} {I : Interp D} {μ ρ : Nat → D} : ∀ (fs : List Form),
    (∀ g ∈ flattenAnd fs, Form.holds I μ ρ g) ↔ ∀ f ∈ fs, Form.holds I μ ρ f
  | [] => by simp [flattenAnd]
  | f :: fs => by
    simp only [flattenAnd, List.mem_append, or_imp, forall_and, flattenAnd1_holds f, flattenAnd_holds fs,
      List.mem_cons, forall_eq]
end

mutual
theorem flattenAnd1_noAnd : ∀ (f : Form), ∀ g ∈ flattenAnd1 f, ∀ hs, g ≠ .and hs
  | .and fs => by simp only [flattenAnd1]; exact flattenAnd_noAnd fs
  | .top => by simp [flattenAnd1]
  | .bot => by simp [flattenAnd1]
  | .pred _ _ _ => by simp [flattenAnd1]
  | .neg _ => by simp [flattenAnd1]
  | .or _ => by simp [flattenAnd1]
  | .imp _ _ => by simp [flattenAnd1]
  | .equ _ _ => by simp [flattenAnd1]
  | .all _ _ => by simp [flattenAnd1]
  | .ex _ _ => by simp [flattenAnd1]
theorem flattenAnd_noAnd : ∀ (fs : List Form), ∀ g ∈ flattenAnd fs, ∀ hs, g ≠ .and hs
  | [] => by simp [flattenAnd]
  | f :: fs => by
    intro g hg
    simp only [flattenAnd, List.mem_append] at hg
    rcases hg with hg | hg
    · exact flattenAnd1_noAnd f g hg
    · exact flattenAnd_noAnd fs g hg
end

/-- **C16, list of axioms.** Flattening a list of formulas keeps its meaning: all formulas of the
flattened list are true exactly when all formulas of the list are; and no conjunction is left. -/
theorem C16_flattenAnd {D : Type u} (I : Interp D) (μ ρ : Nat → D) (fs : List Form) :
    ((∀ g ∈ flattenAnd fs, Form.holds I μ ρ g) ↔ ∀ f ∈ fs, Form.holds I μ ρ f) ∧
    ∀ g ∈ flattenAnd fs, ∀ hs, g ≠ .and hs :=
  ⟨flattenAnd_holds fs, flattenAnd_noAnd fs⟩

example : flattenAnd [.and [.pred 0 [] [], .and [.pred 1 [] [], .or []]], .top] =
    [.pred 0 [] [], .pred 1 [] [], .or [], .top] := by decide +kernel

end Verif.Engine
