import Verif.AST.Rename
/-!
# C36: instances of type schemes (`src/AST/ty-syntax.go`)

`Glob.Fatal` and `Glob.Anomaly` end the process (src/Glob/errors.go:46-55); both are `none` here.
The Go map from parameters to types is a function of their names; of two parameters with the same
name the later one wins.
-/
set_option linter.unusedSimpArgs false

namespace Verif.Typing
open Verif.AST

/-! ### Model -/

/-- `instanceMap` (src/AST/ty-syntax.go:366-369): the map built by assigning the instances one
after the other. -/
def instMap : List String → List Ty → String → Option Ty
  | v :: vs, t :: ts, s =>
    match instMap vs ts s with
    | some u => some u
    | none => if v = s then some t else none
  | _, _, _ => none

mutual
/-- `instantiateTyRec` (src/AST/ty-syntax.go:383-420). -/
def instRec (m : String → Option Ty) : Ty → Option Ty
  | .var s => m s
  | .constr s args => (instRecL m args).map (.constr s)
  | .prod args => (instRecL m args).map .prod
  | .func a b => (instRec m a).bind fun a' => (instRec m b).map fun b' => .func a' b'
  | .bound _ => none
  | .mv _ _ => none
  | .pi _ _ => none
/-- `Lib.ListMap(rty.args, aux)`. -/
def instRecL (m : String → Option Ty) : List Ty → Option (List Ty)
  | [] => some []
  | a :: l => (instRec m a).bind fun a' => (instRecL m l).map fun l' => a' :: l'
end

/-- `InstantiateTy` (src/AST/ty-syntax.go:344-380). -/
def instantiate (ty : Ty) (inst : List Ty) : Option Ty :=
  match ty with
  | .constr _ _ => if inst = [] then some ty else none
  | .func _ _ => if inst = [] then some ty else none
  | .pi vs t => if inst.length = vs.length then instRec (instMap vs inst) t else none
  | .var _ => none
  | .bound _ => none
  | .mv _ _ => none
  | .prod _ => none

/-- `GetArgsTy` (src/AST/ty-syntax.go:422-439). -/
def getArgs : Ty → Option (List Ty)
  | .constr _ _ => some []
  | .func (.bound n) _ => some [.bound n]
  | .func (.constr s l) _ => some [.constr s l]
  | .func (.prod l) _ => some l
  | _ => none

/-- `tType` (src/AST/tptp-native-types.go:54). -/
def tType : Ty := .constr "$tType" []

/-- `tProp` (src/AST/tptp-native-types.go:61). -/
def tProp : Ty := .constr "$o" []

/-- `tIndividual` (src/AST/tptp-native-types.go:60). -/
def tInd : Ty := .constr "$i" []

/-- `GetOutTy` (src/AST/ty-syntax.go:441-454). -/
def getOut : Ty → Option Ty
  | .constr _ _ => some tType
  | .func _ b => some b
  | _ => none

mutual
/-- `SubstTy` with a type metavariable (src/AST/ty-syntax.go:127,183,218,247,281); with a bound
variable it is `Ty.substBound`. -/
def substMv (n : String) (i : Nat) (new : Ty) : Ty → Ty
  | .var s => .var s
  | .bound m => .bound m
  | .mv a j => if a = n ∧ j = i then new else .mv a j
  | .constr s args => .constr s (substMvL n i new args)
  | .prod args => .prod (substMvL n i new args)
  | .func a b => .func (substMv n i new a) (substMv n i new b)
  | .pi vs t => .pi vs (substMv n i new t)
def substMvL (n : String) (i : Nat) (new : Ty) : List Ty → List Ty
  | [] => []
  | a :: l => substMv n i new a :: substMvL n i new l
end

/-! ### Specification -/

mutual
/-- `InstOf R t t'`: `t'` is `t` with every parameter replaced by a type related to it, and nothing
else changed. -/
inductive InstOf (R : String → Ty → Prop) : Ty → Ty → Prop
  | var {s u} : R s u → InstOf R (.var s) u
  | constr {s l l'} : InstOfL R l l' → InstOf R (.constr s l) (.constr s l')
  | prod {l l'} : InstOfL R l l' → InstOf R (.prod l) (.prod l')
  | func {a a' b b'} : InstOf R a a' → InstOf R b b' → InstOf R (.func a b) (.func a' b')
/-- Pointwise. -/
inductive InstOfL (R : String → Ty → Prop) : List Ty → List Ty → Prop
  | nil : InstOfL R [] []
  | cons {a a' l l'} : InstOf R a a' → InstOfL R l l' → InstOfL R (a :: l) (a' :: l')
end

/-- The type at the position of the parameter. -/
def At (vs : List String) (ts : List Ty) (s : String) (u : Ty) : Prop :=
  ∃ i : Nat, vs[i]? = some s ∧ ts[i]? = some u

/-- A function's or predicate's argument and result types, read off its type: `A > B`,
`(A₁ * … * Aₙ) > B`, or a constant's type. -/
inductive Sig : Ty → List Ty → Ty → Prop
  | const {s l} : Sig (.constr s l) [] (.constr s l)
  | many {l o} : Sig (.func (.prod l) o) l o
  | one {a o} : (∀ l, a ≠ .prod l) → Sig (.func a o) [a] o

mutual
/-- The parameters occurring in a type. -/
def params : Ty → List String
  | .var s => [s]
  | .bound _ => []
  | .mv _ _ => []
  | .constr _ l => paramsL l
  | .prod l => paramsL l
  | .func a b => params a ++ params b
  | .pi _ t => params t
def paramsL : List Ty → List String
  | [] => []
  | a :: l => params a ++ paramsL l
end

mutual
/-- The body of a scheme: no bound variable, no metavariable and no inner quantifier. -/
def Plain : Ty → Prop
  | .var _ => True
  | .bound _ => False
  | .mv _ _ => False
  | .constr _ l => PlainL l
  | .prod l => PlainL l
  | .func a b => Plain a ∧ Plain b
  | .pi _ _ => False
def PlainL : List Ty → Prop
  | [] => True
  | a :: l => Plain a ∧ PlainL l
end

/-- C36, the full claim: for a scheme with distinct parameters all of whose variables are
parameters, and as many types, the instance is the type with every parameter replaced by the type at
its position; its argument and result types are the instances of those of the scheme; a wrong number
of types is rejected. -/
def C36_statement : Prop :=
  ∀ (vs : List String) (t : Ty) (ts : List Ty), vs.Nodup → Plain t → (∀ s ∈ params t, s ∈ vs) →
    (ts.length ≠ vs.length → instantiate (.pi vs t) ts = none) ∧
    (ts.length = vs.length → ∃ t', instantiate (.pi vs t) ts = some t' ∧ InstOf (At vs ts) t t' ∧
      ∀ args out, Sig t args out → ∃ args' out', getArgs t' = some args' ∧ getOut t' = some out' ∧
        InstOfL (At vs ts) args args' ∧ InstOf (At vs ts) out out')

/-! ### The map -/

theorem instMap_mem : ∀ (vs : List String) (ts : List Ty) (s : String) (u : Ty),
    instMap vs ts s = some u → At vs ts s u := by
  intro vs
  induction vs with
  | nil => intro ts s u h; simp [instMap] at h
  | cons v vs ih =>
    intro ts s u h
    cases ts with
    | nil => simp [instMap] at h
    | cons t ts =>
      simp only [instMap] at h
      cases e : instMap vs ts s with
      | some w =>
        rw [e] at h
        obtain ⟨i, h1, h2⟩ := ih ts s w e
        cases h
        exact ⟨i + 1, by simpa using h1, by simpa using h2⟩
      | none =>
        rw [e] at h
        by_cases hv : v = s
        · simp [hv] at h; subst h
          exact ⟨0, by simp [hv], by simp⟩
        · simp [hv] at h

theorem instMap_none : ∀ (vs : List String) (ts : List Ty) (s : String), s ∉ vs →
    instMap vs ts s = none := by
  intro vs
  induction vs with
  | nil => intro ts s _; simp [instMap]
  | cons v vs ih =>
    intro ts s h
    cases ts with
    | nil => simp [instMap]
    | cons t ts =>
      simp only [List.mem_cons, not_or] at h
      simp [instMap, ih ts s h.2, Ne.symm h.1]

theorem instMap_iff {vs : List String} {ts : List Ty} (hn : vs.Nodup) (s : String) (u : Ty) :
    instMap vs ts s = some u ↔ At vs ts s u := by
  refine ⟨instMap_mem vs ts s u, ?_⟩
  induction vs generalizing ts with
  | nil => rintro ⟨i, h, _⟩; simp at h
  | cons v vs ih =>
    rintro ⟨i, h1, h2⟩
    rw [List.nodup_cons] at hn
    cases ts with
    | nil => simp at h2
    | cons t ts =>
      cases i with
      | zero =>
        simp at h1 h2
        subst h1 h2
        simp [instMap, instMap_none vs ts v hn.1]
      | succ i =>
        simp at h1 h2
        simp [instMap, ih hn.2 ⟨i, h1, h2⟩]

theorem instMap_some {vs : List String} {ts : List Ty} (hl : ts.length = vs.length) {s : String}
    (hs : s ∈ vs) : ∃ u, instMap vs ts s = some u := by
  induction vs generalizing ts with
  | nil => simp at hs
  | cons v vs ih =>
    cases ts with
    | nil => simp at hl
    | cons t ts =>
      simp only [instMap]
      by_cases h : s ∈ vs
      · obtain ⟨u, hu⟩ := ih (by simpa using hl) h
        exact ⟨u, by rw [hu]⟩
      · rw [instMap_none vs ts s h]
        have : v = s := by
          rcases List.mem_cons.1 hs with e | e
          · exact e.symm
          · exact absurd e h
        exact ⟨t, by simp [this]⟩

/-! ### The instance -/

mutual
theorem instRec_iff {m : String → Option Ty} {R : String → Ty → Prop}
    (h : ∀ s u, m s = some u ↔ R s u) : ∀ (t t' : Ty), instRec m t = some t' ↔ InstOf R t t'
  | .var s, t' => by
    simp only [instRec, h]
    exact ⟨.var, fun h => by cases h; assumption⟩
  | .bound _, t' => by
    simp only [instRec]
    exact ⟨fun h => by simp at h, fun h => by cases h⟩
  | .mv _ _, t' => by
    simp only [instRec]
    exact ⟨fun h => by simp at h, fun h => by cases h⟩
  | .pi _ _, t' => by
    simp only [instRec]
    exact ⟨fun h => by simp at h, fun h => by cases h⟩
  | .constr s l, t' => by
    simp only [instRec, Option.map_eq_some_iff]
    constructor
    · rintro ⟨l', h1, rfl⟩; exact .constr ((instRecL_iff h l l').1 h1)
    · intro h2; cases h2 with
      | constr h2 => exact ⟨_, (instRecL_iff h l _).2 h2, rfl⟩
  | .prod l, t' => by
    simp only [instRec, Option.map_eq_some_iff]
    constructor
    · rintro ⟨l', h1, rfl⟩; exact .prod ((instRecL_iff h l l').1 h1)
    · intro h2; cases h2 with
      | prod h2 => exact ⟨_, (instRecL_iff h l _).2 h2, rfl⟩
  | .func a b, t' => by
    simp only [instRec, Option.bind_eq_some_iff, Option.map_eq_some_iff]
    constructor
    · rintro ⟨a', h1, b', h2, rfl⟩
      exact .func ((instRec_iff h a a').1 h1) ((instRec_iff h b b').1 h2)
    · intro h2; cases h2 with
      | func h2 h3 => exact ⟨_, (instRec_iff h a _).2 h2, _, (instRec_iff h b _).2 h3, rfl⟩
theorem instRecL_iff {m : String → Option Ty} {R : String → Ty → Prop}
    (h : ∀ s u, m s = some u ↔ R s u) : ∀ (l l' : List Ty), instRecL m l = some l' ↔ InstOfL R l l'
  | [], l' => by
    simp only [instRecL]
    exact ⟨fun h => by cases h; exact .nil, fun h => by cases h; rfl⟩
  | a :: l, l' => by
    simp only [instRecL, Option.bind_eq_some_iff, Option.map_eq_some_iff]
    constructor
    · rintro ⟨a', h1, l', h2, rfl⟩
      exact .cons ((instRec_iff h a a').1 h1) ((instRecL_iff h l l').1 h2)
    · intro h2; cases h2 with
      | cons h2 h3 => exact ⟨_, (instRec_iff h a _).2 h2, _, (instRecL_iff h l _).2 h3, rfl⟩
end

mutual
theorem instRec_some {m : String → Option Ty} : ∀ t : Ty, Plain t →
    (∀ s ∈ params t, ∃ u, m s = some u) → ∃ t', instRec m t = some t'
  | .var s, _, h => by simpa [instRec, params] using h
  | .bound _, h, _ => by simp [Plain] at h
  | .mv _ _, h, _ => by simp [Plain] at h
  | .pi _ _, h, _ => by simp [Plain] at h
  | .constr s l, hp, h => by
    obtain ⟨l', hl⟩ := instRecL_some l hp h
    exact ⟨.constr s l', by simp [instRec, hl]⟩
  | .prod l, hp, h => by
    obtain ⟨l', hl⟩ := instRecL_some l hp h
    exact ⟨.prod l', by simp [instRec, hl]⟩
  | .func a b, hp, h => by
    obtain ⟨a', ha⟩ := instRec_some a hp.1 fun s hs => h s (by simp [params, hs])
    obtain ⟨b', hb⟩ := instRec_some b hp.2 fun s hs => h s (by simp [params, hs])
    exact ⟨.func a' b', by simp [instRec, ha, hb]⟩
theorem instRecL_some {m : String → Option Ty} : ∀ l : List Ty, PlainL l →
    (∀ s ∈ paramsL l, ∃ u, m s = some u) → ∃ l', instRecL m l = some l'
  | [], _, _ => ⟨[], rfl⟩
  | a :: l, hp, h => by
    obtain ⟨a', ha⟩ := instRec_some a hp.1 fun s hs => h s (by simp [paramsL, hs])
    obtain ⟨l', hl⟩ := instRecL_some l hp.2 fun s hs => h s (by simp [paramsL, hs])
    exact ⟨a' :: l', by simp [instRecL, ha, hl]⟩
end

/-- C36, instances: whatever the scheme with distinct parameters, instantiating it returns a type
exactly if the number of types is right and the type has an instance, and then returns this
instance. -/
theorem C36_instance_exact (vs : List String) (t : Ty) (ts : List Ty) (hn : vs.Nodup) (t' : Ty) :
    instantiate (.pi vs t) ts = some t' ↔ ts.length = vs.length ∧ InstOf (At vs ts) t t' := by
  simp only [instantiate]
  by_cases hl : ts.length = vs.length
  · simp [hl, instRec_iff fun s u => instMap_iff (ts := ts) hn s u]
  · simp [hl]

/-- A wrong number of types is rejected, for every type. -/
theorem C36_wrong_number (vs : List String) (t : Ty) (ts : List Ty) (h : ts.length ≠ vs.length) :
    instantiate (.pi vs t) ts = none := by
  simp [instantiate, h]

/-- A type without parameters is its only instance, and accepts no types. -/
theorem C36_monomorphic (t : Ty) (ts : List Ty) (t' : Ty)
    (ht : (∃ s l, t = .constr s l) ∨ ∃ a b, t = .func a b) :
    instantiate t ts = some t' ↔ ts = [] ∧ t' = t := by
  rcases ht with ⟨s, l, rfl⟩ | ⟨a, b, rfl⟩ <;>
    · by_cases h : ts = [] <;> simp [instantiate, h, eq_comm]

/-- Every well-formed scheme has an instance. -/
theorem C36_instance_exists (vs : List String) (t : Ty) (ts : List Ty) (hp : Plain t)
    (hs : ∀ s ∈ params t, s ∈ vs) (hl : ts.length = vs.length) :
    ∃ t', instantiate (.pi vs t) ts = some t' := by
  simp only [instantiate, hl, if_true]
  exact instRec_some t hp fun s h => instMap_some hl (hs s h)

mutual
theorem instOf_unique {R : String → Ty → Prop} (hR : ∀ s u v, R s u → R s v → u = v) :
    ∀ {t u v : Ty}, InstOf R t u → InstOf R t v → u = v
  | .var _, _, _, .var h1, .var h2 => hR _ _ _ h1 h2
  | .constr _ _, _, _, .constr h1, .constr h2 => by rw [instOfL_unique hR h1 h2]
  | .prod _, _, _, .prod h1, .prod h2 => by rw [instOfL_unique hR h1 h2]
  | .func _ _, _, _, .func h1 h3, .func h2 h4 => by rw [instOf_unique hR h1 h2, instOf_unique hR h3 h4]
theorem instOfL_unique {R : String → Ty → Prop} (hR : ∀ s u v, R s u → R s v → u = v) :
    ∀ {l u v : List Ty}, InstOfL R l u → InstOfL R l v → u = v
  | [], _, _, .nil, .nil => rfl
  | _ :: _, _, _, .cons h1 h3, .cons h2 h4 => by rw [instOf_unique hR h1 h2, instOfL_unique hR h3 h4]
end

/-! ### Argument and result types -/

/-- A type that may stand for a type argument of a symbol: a constructor applied to types, or a bound
type variable. -/
def Atomic : Ty → Prop
  | .constr _ _ => True
  | .bound _ => True
  | _ => False

theorem getArgs_one {a o : Ty} (h : Atomic a) : getArgs (.func a o) = some [a] := by
  cases a <;> simp_all [Atomic, getArgs]

/-- C36, argument and result types. For a functional scheme `(A₁ * … * Aₙ) > B` the argument types of
the instance are the instances of the argument types, and the result type that of the result type.
For a scheme `A > B` with a single argument that is not written as a product this holds if `A` is
not a parameter, or if no metavariable, product or function type is put for it. What is missing
(`C36_violated_metavariable`, `C36_violated_constant`): single arguments of a type that is a
metavariable, and the result type of constants. -/
theorem C36_signature_partial (vs : List String) (a o : Ty) (ts : List Ty) (hn : vs.Nodup) (t' : Ty)
    (h : instantiate (.pi vs (.func a o)) ts = some t') :
    (∃ out', getOut t' = some out' ∧ InstOf (At vs ts) o out') ∧
    (∀ l, a = .prod l → ∃ args', getArgs t' = some args' ∧ InstOfL (At vs ts) l args') ∧
    ((∀ s, a ≠ .var s) ∨ (∀ u ∈ ts, Atomic u) → (∀ l, a ≠ .prod l) → (∀ b c, a ≠ .func b c) →
      ∃ a', getArgs t' = some [a'] ∧ InstOf (At vs ts) a a') := by
  obtain ⟨_, h⟩ := (C36_instance_exact vs _ ts hn t').1 h
  cases h with
  | @func _ a' _ b' ha hb =>
    refine ⟨⟨b', rfl, hb⟩, ?_, ?_⟩
    · rintro l rfl
      cases ha with
      | prod ha => exact ⟨_, rfl, ha⟩
    · intro h hp hf
      refine ⟨a', getArgs_one ?_, ha⟩
      cases ha with
      | var hs =>
        rcases h with h | h
        · exact absurd rfl (h _)
        · obtain ⟨i, _, h2⟩ := hs
          exact h _ (List.mem_of_getElem? h2)
      | constr => trivial
      | prod => exact absurd rfl (hp _)
      | func => exact absurd rfl (hf _ _)

/-- The scheme of `$quotient` (src/Typing/init.go:93-99), with two parameters. -/
def quotientTy : Ty :=
  .pi ["number", "rat_or_real"] (.func (.prod [.var "number", .var "number"]) (.var "rat_or_real"))

/-- The hypotheses of the theorems above are met: `$quotient` at `$int` and `$rat`. -/
example : instantiate quotientTy [.constr "$int" [], .constr "$rat" []]
    = some (.func (.prod [.constr "$int" [], .constr "$int" []]) (.constr "$rat" [])) ∧
    instantiate quotientTy [.constr "$int" []] = none ∧
    ["number", "rat_or_real"].Nodup := by decide +kernel

/-- The scheme of `$uminus` (src/Typing/init.go:143-151): a single argument, not a product. -/
def uminusTy : Ty := .pi ["number"] (.func (.var "number") (.var "number"))

example : (instantiate uminusTy [.constr "$int" []]).bind getArgs = some [.constr "$int" []] := by
  decide +kernel

/-- C36 fails when a metavariable is put for the type of a single argument: the argument types of the
instance cannot be computed and the process ends. This happens during the search, in
`buildEqualityProblemMultiListFromPredList` (src/Mods/equality/bse/equality_problem_list.go:213-215),
for any predicate of type `A > $o` that was instantiated by a metavariable. -/
theorem C36_violated_metavariable (n : String) (i : Nat) (s : String) :
    ∃ t', instantiate (.pi [s] (.func (.var s) tProp)) [.mv n i] = some t' ∧
      InstOf (At [s] [.mv n i]) (.func (.var s) tProp) t' ∧ getArgs t' = none := by
  refine ⟨.func (.mv n i) tProp, ?_, ?_, rfl⟩
  · simp [instantiate, instRec, instRecL, instMap, tProp]
  · exact .func (.var ⟨0, rfl, rfl⟩) (.constr .nil)

/-- C36 fails for constants: the result type computed for a constant of type `A` is `$tType`, not
`A`. -/
theorem C36_violated_constant (s : String) (l : List Ty) :
    getOut (.constr s l) = some tType ∧ (s ≠ "$tType" → tType ≠ .constr s l) := by
  refine ⟨rfl, fun h e => h ?_⟩
  simp [tType] at e
  exact e.1.symm

/-- The full claim of C36 is false. -/
theorem C36_statement_false : ¬ C36_statement := by
  intro h
  obtain ⟨_, h⟩ := h ["A"] (.func (.var "A") tProp) [.mv "T" 0] (by simp) (by simp [Plain, PlainL, tProp])
    (by simp [params, paramsL, tProp])
  obtain ⟨t', h1, _, h2⟩ := h rfl
  obtain ⟨_, _, h3, _⟩ := h2 _ _ (.one (by simp))
  have e : t' = .func (.mv "T" 0) tProp := by
    have : instantiate (.pi ["A"] (.func (.var "A") tProp)) [.mv "T" 0] = some (.func (.mv "T" 0) tProp) := by
      decide +kernel
    rw [this] at h1
    exact (Option.some.inj h1).symm
  subst e
  simp [getArgs] at h3

/-! ### Substitution of type variables -/

mutual
/-- `t'` is `t` with every occurrence of the variable for which `P` holds replaced by `new`, and
nothing else changed. -/
inductive Replaces (P : Ty → Prop) (new : Ty) : Ty → Ty → Prop
  | hit {t} : P t → Replaces P new t new
  | var {s} : Replaces P new (.var s) (.var s)
  | bound {n} : ¬ P (.bound n) → Replaces P new (.bound n) (.bound n)
  | mv {n i} : ¬ P (.mv n i) → Replaces P new (.mv n i) (.mv n i)
  | constr {s l l'} : ReplacesL P new l l' → Replaces P new (.constr s l) (.constr s l')
  | prod {l l'} : ReplacesL P new l l' → Replaces P new (.prod l) (.prod l')
  | func {a a' b b'} : Replaces P new a a' → Replaces P new b b' → Replaces P new (.func a b) (.func a' b')
  | pi {vs t t'} : Replaces P new t t' → Replaces P new (.pi vs t) (.pi vs t')
inductive ReplacesL (P : Ty → Prop) (new : Ty) : List Ty → List Ty → Prop
  | nil : ReplacesL P new [] []
  | cons {a a' l l'} : Replaces P new a a' → ReplacesL P new l l' → ReplacesL P new (a :: l) (a' :: l')
end

mutual
/-- C36, `SubstTy` with a bound type variable. -/
theorem C36_substTy_bound (n : String) (new : Ty) : ∀ t : Ty,
    Replaces (· = .bound n) new t (Ty.substBound n new t)
  | .var _ => .var
  | .bound m => by
    by_cases h : m = n
    · simp only [Ty.substBound, h, if_true]; exact .hit rfl
    · simp only [Ty.substBound, h, if_false]; exact .bound (by simpa using h)
  | .mv _ _ => .mv (by simp)
  | .constr _ l => .constr (substBoundL_replaces n new l)
  | .prod l => .prod (substBoundL_replaces n new l)
  | .func a b => .func (C36_substTy_bound n new a) (C36_substTy_bound n new b)
  | .pi _ t => .pi (C36_substTy_bound n new t)
theorem substBoundL_replaces (n : String) (new : Ty) : ∀ l : List Ty,
    ReplacesL (· = .bound n) new l (Ty.substBoundL n new l)
  | [] => .nil
  | a :: l => .cons (C36_substTy_bound n new a) (substBoundL_replaces n new l)
end

mutual
/-- C36, `SubstTy` with a type metavariable. -/
theorem C36_substTy_meta (n : String) (i : Nat) (new : Ty) : ∀ t : Ty,
    Replaces (· = .mv n i) new t (substMv n i new t)
  | .var _ => .var
  | .bound _ => .bound (by simp)
  | .mv a j => by
    by_cases h : a = n ∧ j = i
    · simp only [substMv, h, and_self, if_true]; exact .hit rfl
    · simp only [substMv, h, if_false]; exact .mv (by simpa using h)
  | .constr _ l => .constr (substMvL_replaces n i new l)
  | .prod l => .prod (substMvL_replaces n i new l)
  | .func a b => .func (C36_substTy_meta n i new a) (C36_substTy_meta n i new b)
  | .pi _ t => .pi (C36_substTy_meta n i new t)
theorem substMvL_replaces (n : String) (i : Nat) (new : Ty) : ∀ l : List Ty,
    ReplacesL (· = .mv n i) new l (substMvL n i new l)
  | [] => .nil
  | a :: l => .cons (C36_substTy_meta n i new a) (substMvL_replaces n i new l)
end

end Verif.Typing
