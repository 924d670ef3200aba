import Verif.Search.Quant
import Verif.AST.SubstProps
/-!
# Axioms as rewrite rules (`src/Mods/dmt`): model

`RegisterAxiom` turns an axiom into rewrite rules for literals. A rule is stored under the printed form of its
atom in the map of its polarity and in the code tree of its polarity; here it is the triple of
polarity, atom and result. `none` is a Go panic.

Simplifications: as in `Verif.Search.Rules` (formula indices and names of metavariables are dropped);
new metavariables and new Skolem symbols are numbered from counters; the Skolemisation strategy makes a
new symbol at each call with the metavariables of the formula as arguments (this is what the outer and the
inner strategy do here, since the set given to them is that of the metavariables of the formula).
-/

namespace Verif.Mods.Dmt
open Verif.AST Verif.Search

/-- The options `-polarized`, `-presko` (src/Mods/dmt/dmt.go:55-59) and the index of the
equality symbol `Id_eq`. -/
structure Opts where
  polarized : Bool
  presko : Bool
  eq : Nat

/-- A rewrite rule: polarity, atom, result (`rewriteMapInsertion`, src/Mods/dmt/utils.go:59-69). -/
structure Rule where
  pos : Bool
  atom : Form
  cons : Form

/-- Number of variables of the universal quantifiers at the front. -/
def leadAll : Form → Nat
  | .all vs f => vs.length + leadAll f
  | _ => 0

/-- `instanciateForalls` (src/Mods/dmt/axiom_registration.go:68-74). The first argument bounds the rounds, the
second is the index of the next metavariable. -/
def instForalls : Nat → Nat → Form → Option Form
  | n, m, .all vs f =>
    match n with
    | 0 => none
    | n + 1 => (instantiate m 0 (.all vs f)).bind (instForalls n (m + 1))
  | _, _, f => some f

/-- Number of variables of the existential quantifiers at the front (`true`: under a negation). -/
def leadDelta : Bool → Form → Nat
  | false, .ex vs f => vs.length + leadDelta false f
  | false, .neg f => leadDelta true f
  | true, .all vs f => vs.length + leadDelta true f
  | _, _ => 0

/-- The loop of `addRewriteRule` (src/Mods/dmt/axiom_registration.go:93-95) with `canSkolemize` (115-117). The first
argument bounds the rounds, the second is the next Skolem symbol. -/
def skoLoop : Nat → Nat → Form → Option (Form × Nat)
  | n, sk, f =>
    if showKind f = .delta then
      match n with
      | 0 => none
      | n + 1 => (skolemize sk f.metaElems f).bind (skoLoop n (sk + 1))
    else some (f, sk)

/-- `addPosRewriteRule`, `addNegRewriteRule`, `addRewriteRule`
(src/Mods/dmt/axiom_registration.go:76-98). -/
def addRule (o : Opts) (sk : Nat) (r : Rule) : Option (Rule × Nat) :=
  if o.presko then
    (skoLoop (leadDelta false r.cons) sk r.cons).map fun c => (⟨r.pos, r.atom.removeNeg, c.1⟩, c.2)
  else some (⟨r.pos, r.atom.removeNeg, r.cons⟩, sk)

/-- Several rules in a row. -/
def addRules (o : Opts) : Nat → List Rule → Option (List Rule × Nat)
  | sk, [] => some ([], sk)
  | sk, r :: rs => (addRule o sk r).bind fun a => (addRules o a.2 rs).map fun b => (a.1 :: b.1, b.2)

/-- `isAtomic` (src/Mods/dmt/axiom_registration.go:178-180). -/
def isAtomic (f : Form) : Bool := decide (showKind f = .atomic)

/-- `isEqualityPred` (src/Mods/dmt/axiom_registration.go:190-193) with `predFromNegatedAtom`
(src/Mods/dmt/utils.go:48-50): the type assertion panics on the negation of anything but a predicate. -/
def isEqualityPred (o : Opts) : Form → Option Bool
  | .pred p _ _ => some (decide (p = o.eq))
  | .neg (.pred p _ _) => some (decide (p = o.eq))
  | .neg _ => none
  | _ => some false

/-- `predFromNegatedAtom` (src/Mods/dmt/utils.go:48-50). -/
def predFromNegatedAtom : Form → Option Form
  | .neg (.pred p tys args) => some (.pred p tys args)
  | _ => none

/-- `addEquivalenceRewriteRule` (src/Mods/dmt/axiom_registration.go:203-211). -/
def equRules (ax cons : Form) : List Rule :=
  match ax with
  | .neg _ => [⟨true, ax, .neg cons⟩, ⟨false, ax, cons⟩]
  | _ => [⟨true, ax, cons⟩, ⟨false, ax, .neg cons⟩]

/-- `makeRewriteRuleFromEquivalence`, `addEquRewriteRuleIfNotEquality`
(src/Mods/dmt/axiom_registration.go:161-176, 195-201): the answer and the rules. -/
def fromEqu (o : Opts) (a b : Form) : Option (Bool × List Rule) :=
  if (isAtomic a && isAtomic b) || (!isAtomic a && !isAtomic b) then some (false, [])
  else
    let p := if isAtomic a then (a, b) else (b, a)
    (isEqualityPred o p.1).map fun e => if e then (false, []) else (true, equRules p.1 p.2)

/-- First half of `makeRewriteRuleFromImplication` (src/Mods/dmt/axiom_registration.go:232-238). -/
def impLeft (a b : Form) : Option (List Rule) :=
  if isAtomic a then
    match a with
    | .pred p tys args => some [⟨true, .pred p tys args, b⟩]
    | _ => (predFromNegatedAtom a).map fun q => [⟨false, q, b⟩]
  else some []

/-- Second half of `makeRewriteRuleFromImplication` (src/Mods/dmt/axiom_registration.go:242-248). -/
def impRight (o : Opts) (a b : Form) : Option (List Rule) :=
  if isAtomic b then
    (isEqualityPred o b).bind fun e =>
      if e then some []
      else match b with
        | .pred p tys args => some [⟨false, .pred p tys args, .neg a⟩]
        | _ => (predFromNegatedAtom b).map fun q => [⟨true, q, .neg a⟩]
  else some []

/-- `makeRewriteRuleFromImplication` (src/Mods/dmt/axiom_registration.go:223-251). -/
def fromImp (o : Opts) (a b : Form) : Option (Bool × List Rule) :=
  if !isAtomic a && !isAtomic b then some (false, [])
  else (isEqualityPred o a).bind fun e =>
    if e then some (false, [])
    else (impLeft a b).bind fun l => (impRight o a b).map fun r => (true, l ++ r)

/-- What `RegisterAxiom` does with the instantiated axiom (src/Mods/dmt/axiom_registration.go:57-65). -/
def fromMatrix (o : Opts) : Form → Option (Bool × List Rule)
  | .equ a b => fromEqu o a b
  | .imp a b => if o.polarized then fromImp o a b else some (false, [])
  | _ => some (false, [])

/-- `RegisterAxiom` (src/Mods/dmt/axiom_registration.go:54-66): the answer (is the axiom consumed), the new
rules, and the next Skolem symbol. `m` is the next metavariable, `sk` the next symbol. -/
def register (o : Opts) (m sk : Nat) (F : Form) : Option (Bool × List Rule × Nat) :=
  (instForalls (leadAll F) m F).bind fun g => (fromMatrix o g).bind fun r =>
    (addRules o sk r.2).map fun s => (r.1, s.1, s.2)

/-- `substitute` (src/Mods/dmt/rewritten.go:47-53): the result of a rule under the substitution found
by matching. -/
def substituteAll (σ : List (Nat × Term)) (f : Form) : Form :=
  σ.foldl (fun f p => Form.replaceMetaByTerm p.1 p.2 f) f

/-! ### Specification -/

/-- The literal a rule rewrites. -/
def Rule.lit (r : Rule) : Form := if r.pos then r.atom else .neg r.atom

/-- A rule is valid in an interpretation: for all values of the metavariables the literal implies the
result. -/
def Rule.Valid {D : Type u} (I : Interp D) (ρ : Nat → D) (r : Rule) : Prop :=
  ∀ μ : Nat → D, Form.holds I μ ρ r.lit → Form.holds I μ ρ r.cons

/-- A substitution in solved form, with terms that contain no bound variable. -/
structure Solved (σ : List (Nat × Term)) : Prop where
  nodup : (σ.map (·.1)).Nodup
  vars : ∀ p ∈ σ, p.2.vars = []
  solved : ∀ p ∈ σ, ∀ q ∈ σ, q.1 ∉ p.2.metas

/-- Values of the metavariables under a substitution. -/
def instμ {D : Type u} (I : Interp D) (ρ μ : Nat → D) (σ : List (Nat × Term)) (i : Nat) : D :=
  match σ.find? (fun p => decide (p.1 = i)) with
  | some p => Term.eval I ρ μ p.2
  | none => μ i

/-! ### Universal quantifiers -/

theorem leadAll_replace (x : Term) (u : Term) (f : Form) : leadAll (f.replaceTermByTerm x u).1 = leadAll f := by
  induction f using Form.ind with
  | all vs f ih => simp [Form.replaceTermByTerm, leadAll, ih]
  | pred p tys args => simp [Form.replaceTermByTerm, leadAll]
  | top => rfl
  | bot => rfl
  | neg f ih => simp [Form.replaceTermByTerm, leadAll]
  | and fs ih => simp [Form.replaceTermByTerm, leadAll]
  | or fs ih => simp [Form.replaceTermByTerm, leadAll]
  | imp f g _ _ => simp [Form.replaceTermByTerm, leadAll]
  | equ f g _ _ => simp [Form.replaceTermByTerm, leadAll]
  | ex vs f ih => simp [Form.replaceTermByTerm, leadAll]

theorem leadAll_alls (vs : List TVar) (f : Form) : leadAll (alls vs f) = vs.length + leadAll f := by
  unfold alls; split
  · rfl
  · rename_i h; simp at h; simp [h]

/-- The loop ends; the result is the axiom with fresh metavariables, true for all their values iff the axiom is
true. -/
theorem instForalls_spec (n : Nat) : ∀ (F : Form) (c m : Nat), leadAll F = n → WF F c → (∀ i ∈ F.metas, i < m) →
    ∃ g, instForalls n m F = some g ∧ WF g c ∧ (∀ vs f, g ≠ .all vs f) ∧
      ∀ (D : Type u) (I : Interp D) (ρ μ : Nat → D), Form.holds I μ ρ F ↔
        ∀ μ' : Nat → D, (∀ i, i < m → μ' i = μ i) → Form.holds I μ' ρ g := by
  have base : ∀ (F : Form) (c m : Nat), WF F c → (∀ i ∈ F.metas, i < m) → (∀ vs f, F ≠ .all vs f) →
      ∃ g, some F = some g ∧ WF g c ∧ (∀ vs f, g ≠ .all vs f) ∧
      ∀ (D : Type u) (I : Interp D) (ρ μ : Nat → D), Form.holds I μ ρ F ↔
        ∀ μ' : Nat → D, (∀ i, i < m → μ' i = μ i) → Form.holds I μ' ρ g := by
    intro F c m w hm hna
    refine ⟨F, rfl, w, hna, fun D I ρ μ => ⟨fun h μ' he => ?_, fun h => h μ fun _ _ => rfl⟩⟩
    exact (Form.holds_congr (fun _ _ => rfl) (fun i hi => (he i (hm i hi)).symm) (fun _ _ => rfl) rfl).1 h
  induction n with
  | zero =>
    intro F c m hn w hm
    cases F with
    | all vs f =>
      exfalso
      have := w.fo.1.1
      simp only [leadAll] at hn
      cases vs with
      | nil => exact this rfl
      | cons v vs => simp at hn
    | _ => exact base _ c m w hm (by simp)
  | succ n ih =>
    intro F c m hn w hm
    cases F with
    | all vs f =>
      cases vs with
      | nil => exact absurd rfl w.fo.1.1
      | cons v vs =>
        have hp : gammaParts (.all (v :: vs) f) = some (v, alls vs f) := rfl
        obtain ⟨pw, hmb⟩ := gammaParts_wf hp w
        obtain ⟨g1, hg1, w1, hm1, -, he1⟩ := C21_gamma_partial.{u} (.all (v :: vs) f) c m 0 w (Or.inl ⟨_, _, rfl⟩)
          (fun h => by have := hm m h; omega)
        rw [instantiate_parts hp pw.ty] at hg1
        have hl : leadAll g1 = n := by
          cases hg1
          rw [leadAll_replace, leadAll_alls]
          simp only [leadAll, List.length_cons] at hn
          omega
        obtain ⟨g, hg, wg, hna, he⟩ := ih g1 c (m + 1) hl w1 (by
          intro i hi
          rcases hm1 i hi with h | h
          · have := hm i h; omega
          · omega)
        refine ⟨g, ?_, wg, hna, fun D I ρ μ => ?_⟩
        · rw [instForalls, instantiate_parts hp pw.ty]
          cases hg1
          simpa using hg
        · rw [he1 D I μ ρ]
          constructor
          · intro h μ' hμ
            have := (he D I ρ (upd μ m (μ' m))).1 (h (μ' m)) μ' (by
              intro i hi
              by_cases e : i = m
              · subst e; rw [upd_same]
              · rw [upd_other _ _ e]; exact hμ i (by omega))
            exact this
          · intro h d
            refine (he D I ρ (upd μ m d)).2 fun μ' hμ => h μ' fun i hi => ?_
            rw [hμ i (by omega), upd_other _ _ (by omega)]
    | _ => simp [leadAll] at hn

/-! ### Skolemisation of results -/

theorem leadDelta_replace (b : Bool) (x : Term) (u : Term) (f : Form) :
    leadDelta b (f.replaceTermByTerm x u).1 = leadDelta b f := by
  induction f using Form.ind generalizing b with
  | ex vs f ih => cases b <;> simp [Form.replaceTermByTerm, leadDelta, ih]
  | all vs f ih => cases b <;> simp [Form.replaceTermByTerm, leadDelta, ih]
  | pred p tys args => cases b <;> simp [Form.replaceTermByTerm, leadDelta]
  | top => rfl
  | bot => rfl
  | neg f ih => cases b <;> simp [Form.replaceTermByTerm, leadDelta, ih]
  | and fs ih => cases b <;> simp [Form.replaceTermByTerm, leadDelta]
  | or fs ih => cases b <;> simp [Form.replaceTermByTerm, leadDelta]
  | imp f g _ _ => cases b <;> simp [Form.replaceTermByTerm, leadDelta]
  | equ f g _ _ => cases b <;> simp [Form.replaceTermByTerm, leadDelta]

theorem leadDelta_parts {F : Form} {v : TVar} {b : Form} (h : deltaParts F = some (v, b)) :
    leadDelta false F = leadDelta false b + 1 := by
  unfold deltaParts at h
  split at h <;> cases h
  · rename_i vs f
    cases vs with
    | nil => simp [leadDelta, alls]; omega
    | cons w vs => simp [leadDelta, alls]; omega
  · rename_i vs f
    cases vs with
    | nil => simp [leadDelta, exs]; omega
    | cons w vs => simp [leadDelta, exs]; omega

theorem deltaParts_funs {F : Form} {v : TVar} {b : Form} (hp : deltaParts F = some (v, b)) : b.funs = F.funs := by
  unfold deltaParts at hp
  split at hp <;> cases hp
  · simp [Form.funs, alls_props.2.1]
  · simp [Form.funs, exs_props.2.1]

/-- Changing the interpretation of symbols that do not occur changes nothing. -/
theorem holds_below {D : Type u} {I J : Interp D} {f : Form} {c : Nat} (w : WF f c) (hP : J.pr = I.pr)
    (hF : ∀ p, p < c → J.fn p = I.fn p) {μ ρ : Nat → D} : Form.holds J μ ρ f ↔ Form.holds I μ ρ f :=
  Form.holds_congr (fun _ _ => rfl) (fun _ _ => rfl) (fun p hp => hF p (w.funs p hp)) hP

theorem vars_mvs (l : List Nat) : Term.varsL (l.map .mv) = [] := by
  induction l with
  | nil => rfl
  | cons a l ih => simp [Term.varsL, Term.vars, ih]

theorem funs_mvs (l : List Nat) : Term.funsL (l.map .mv) = [] := by
  induction l with
  | nil => rfl
  | cons a l ih => simp [Term.funsL, Term.funs, ih]

theorem skoLoop_spec (n : Nat) : ∀ (f : Form) (sk : Nat), leadDelta false f = n → WF f sk →
    ∃ g sk', skoLoop n sk f = some (g, sk') ∧ sk ≤ sk' ∧ WF g sk' ∧
      (∀ (D : Type u) (I : Interp D), ∃ J : Interp D, J.pr = I.pr ∧ (∀ p, p < sk → J.fn p = I.fn p) ∧
        ∀ μ ρ : Nat → D, Form.holds I μ ρ f → Form.holds J μ ρ g) ∧
      ∀ (D : Type u) (I : Interp D) (μ ρ : Nat → D), Form.holds I μ ρ g → Form.holds I μ ρ f := by
  have base : ∀ (f : Form) (sk : Nat), WF f sk → ∃ g sk', some (f, sk) = some (g, sk') ∧ sk ≤ sk' ∧ WF g sk' ∧
      (∀ (D : Type u) (I : Interp D), ∃ J : Interp D, J.pr = I.pr ∧ (∀ p, p < sk → J.fn p = I.fn p) ∧
        ∀ μ ρ : Nat → D, Form.holds I μ ρ f → Form.holds J μ ρ g) ∧
      ∀ (D : Type u) (I : Interp D) (μ ρ : Nat → D), Form.holds I μ ρ g → Form.holds I μ ρ f :=
    fun f sk w => ⟨f, sk, rfl, Nat.le_refl _, w, fun D I => ⟨I, rfl, fun _ _ => rfl, fun _ _ h => h⟩,
      fun _ _ _ _ h => h⟩
  induction n with
  | zero =>
    intro f sk hn w
    rw [skoLoop]
    by_cases hk : showKind f = .delta
    · obtain ⟨v, b, hp⟩ := deltaParts_isSome w ((C18_kind_exact f).2.2.2.2.1.1 hk)
      rw [leadDelta_parts hp] at hn
      omega
    · rw [if_neg hk]; exact base f sk w
  | succ n ih =>
    intro f sk hn w
    rw [skoLoop]
    by_cases hk : showKind f = .delta
    · rw [if_pos hk]
      obtain ⟨v, b, hp⟩ := deltaParts_isSome w ((C18_kind_exact f).2.2.2.2.1.1 hk)
      obtain ⟨pw, hmb⟩ := deltaParts_wf hp w
      have hfb := deltaParts_funs hp
      have hsk : sk ∉ f.funs := fun h => by have := w.funs sk h; omega
      rw [skolemize_parts hp]
      have wf1 := pw.replace (c' := sk + 1) (u := .fn sk [] (f.metaElems.map .mv)) (by omega)
        (by simp [Term.vars, vars_mvs]) (by simp [Term.funs, funs_mvs])
      have hl : leadDelta false (b.replaceTermByTerm (.var v.index) (.fn sk [] (f.metaElems.map .mv))).1 = n := by
        rw [leadDelta_replace]
        have := leadDelta_parts hp
        omega
      obtain ⟨g, sk', hg, hle, wg, h1, h2⟩ := ih _ (sk + 1) hl wf1
      refine ⟨g, sk', hg, by omega, wg, fun D I => ?_, fun D I μ ρ h => ?_⟩
      · obtain ⟨J1, e1, e2, e3⟩ := exists_skoAx I (sk := sk) (args := f.metaElems) (v := v) (b := b)
          (by rw [hfb]; exact hsk) (fun i hi => Form.mem_metaElems.2 (hmb ▸ hi)) pw.closed
        obtain ⟨J, j1, j2, j3⟩ := h1 D J1
        refine ⟨J, by rw [j1, e1], fun p hp => by rw [j2 p (by omega), e2 p (by omega)], fun μ ρ h => j3 μ ρ ?_⟩
        obtain ⟨d, hd⟩ := (holds_deltaParts hp).1 h
        refine e3.holds pw (d := d) ?_
        exact (Form.holds_congr (fun _ _ => rfl) (fun _ _ => rfl)
          (fun p hp' => (e2 p (fun e => hsk (by rw [← hfb]; exact e ▸ hp'))).symm) e1.symm).1 hd
      · have := h2 D I μ ρ h
        rw [holds_replaceTermByTerm (pw.binders v.index (by simp)).2 (List.nodup_cons.1 pw.nodup).1 (by simp)
          (by simp [Term.vars, vars_mvs])] at this
        exact (holds_deltaParts hp).2 ⟨_, this⟩
    · rw [if_neg hk]; exact base f sk w

end Verif.Mods.Dmt
