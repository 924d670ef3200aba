import Verif.Search.RulesProps
import Verif.AST.Metas
/-!
# C21, C22: gamma and delta rules
-/
set_option linter.unusedSimpArgs false

namespace Verif.Search
open Verif.AST

mutual
/-- First-order formula: quantifiers introduce at least one variable and no type variable. -/
def FO : Form → Prop
  | .pred _ _ _ => True
  | .top => True
  | .bot => True
  | .neg f => FO f
  | .and fs => FOL fs
  | .or fs => FOL fs
  | .imp f g => FO f ∧ FO g
  | .equ f g => FO f ∧ FO g
  | .all vs f => (vs ≠ [] ∧ ∀ v ∈ vs, isTType v.ty = false) ∧ FO f
  | .ex vs f => (vs ≠ [] ∧ ∀ v ∈ vs, isTType v.ty = false) ∧ FO f
def FOL : List Form → Prop
  | [] => True
  | f :: fs => FO f ∧ FOL fs
end

theorem FOL_iff {fs : List Form} : FOL fs ↔ ∀ f ∈ fs, FO f := by
  induction fs with
  | nil => simp [FOL]
  | cons f fs ih => simp [FOL, ih]

theorem FO_replace {old new : Term} {f : Form} (h : FO f) : FO (f.replaceTermByTerm old new).1 := by
  induction f using Form.ind with
  | pred p tys args => trivial
  | top => trivial
  | bot => trivial
  | neg f ih => exact ih h
  | and fs ih =>
    simp only [FO, Form.replaceTermByTerm, Form.replaceTermByTermL_fst, FOL_iff, List.forall_mem_map] at h ⊢
    exact fun f hf => ih f hf (h f hf)
  | or fs ih =>
    simp only [FO, Form.replaceTermByTerm, Form.replaceTermByTermL_fst, FOL_iff, List.forall_mem_map] at h ⊢
    exact fun f hf => ih f hf (h f hf)
  | imp f g ihf ihg => exact ⟨ihf h.1, ihg h.2⟩
  | equ f g ihf ihg => exact ⟨ihf h.1, ihg h.2⟩
  | all vs f ih => exact ⟨h.1, ih h.2⟩
  | ex vs f ih => exact ⟨h.1, ih h.2⟩

/-- Closed first-order formulas whose binders introduce pairwise different variables, none of which has the
index of a function symbol, all indices being below `c`. This is what `RenameVariables` establishes for
the input (C17) and what the rules preserve. -/
structure WF (f : Form) (c : Nat) : Prop where
  fo : FO f
  nodup : f.binders.Nodup
  binders : ∀ i ∈ f.binders, i < c ∧ i ∉ f.funs
  funs : ∀ i ∈ f.funs, i < c
  closed : ∀ i, i ∉ f.fvs

theorem WF.mono {f : Form} {c c' : Nat} (h : WF f c) (hc : c ≤ c') : WF f c' :=
  ⟨h.fo, h.nodup, fun i hi => ⟨Nat.lt_of_lt_of_le (h.binders i hi).1 hc, (h.binders i hi).2⟩,
    fun i hi => Nat.lt_of_lt_of_le (h.funs i hi) hc, h.closed⟩

/-! ### Quantified formulas as one variable and a body -/

/-- `∃ vs. f`, or `f` when there are no variables. -/
def exs (vs : List TVar) (f : Form) : Form := if vs.length > 0 then .ex vs f else f
/-- `∀ vs. f`, or `f` when there are no variables. -/
def alls (vs : List TVar) (f : Form) : Form := if vs.length > 0 then .all vs f else f

/-- First variable and body of an existential formula. -/
def deltaParts : Form → Option (TVar × Form)
  | .neg (.all (v :: vs) f) => some (v, .neg (alls vs f))
  | .ex (v :: vs) f => some (v, exs vs f)
  | _ => none

/-- First variable and body of a universal formula. -/
def gammaParts : Form → Option (TVar × Form)
  | .neg (.ex (v :: vs) f) => some (v, .neg (exs vs f))
  | .all (v :: vs) f => some (v, alls vs f)
  | _ => none

section
variable {D : Type u} {I : Interp D} {μ ρ : Nat → D}

theorem holds_exs {vs : List TVar} {f : Form} :
    Form.holds I μ ρ (exs vs f) ↔ Form.holds I μ ρ (.ex vs f) := by
  unfold exs; cases vs <;> simp [Form.holds_ex, existsVars]

theorem holds_alls {vs : List TVar} {f : Form} :
    Form.holds I μ ρ (alls vs f) ↔ Form.holds I μ ρ (.all vs f) := by
  unfold alls; cases vs <;> simp [Form.holds_all, forallVars]

theorem holds_deltaParts {F : Form} {v : TVar} {b : Form} (h : deltaParts F = some (v, b)) :
    Form.holds I μ ρ F ↔ ∃ d, Form.holds I μ (upd ρ v.index d) b := by
  unfold deltaParts at h
  split at h <;> cases h
  · simp only [Form.holds_neg, holds_alls, Form.holds_all_cons]; simp
  · simp only [holds_exs, Form.holds_ex_cons]

theorem holds_gammaParts {F : Form} {v : TVar} {b : Form} (h : gammaParts F = some (v, b)) :
    Form.holds I μ ρ F ↔ ∀ d, Form.holds I μ (upd ρ v.index d) b := by
  unfold gammaParts at h
  split at h <;> cases h
  · simp only [Form.holds_neg, holds_exs, Form.holds_ex_cons]; simp
  · simp only [holds_alls, Form.holds_all_cons]
end

theorem exs_replace {old new : Term} {vs : List TVar} {f : Form} :
    ((exs vs f).replaceTermByTerm old new).1 = exs vs (f.replaceTermByTerm old new).1 := by
  unfold exs; split <;> simp [Form.replaceTermByTerm]
theorem alls_replace {old new : Term} {vs : List TVar} {f : Form} :
    ((alls vs f).replaceTermByTerm old new).1 = alls vs (f.replaceTermByTerm old new).1 := by
  unfold alls; split <;> simp [Form.replaceTermByTerm]

/-- `Skolemize` replaces the variable in the body. -/
theorem skolemize_parts {sk : Nat} {args : List Nat} {F : Form} {v : TVar} {b : Form}
    (h : deltaParts F = some (v, b)) :
    skolemize sk args F = some (b.replaceTermByTerm (.var v.index) (.fn sk [] (args.map .mv))).1 := by
  unfold deltaParts at h
  split at h <;> cases h
  · simp only [skolemize, skoFirst, Form.replaceTermByTerm, alls_replace]; rfl
  · simp only [skolemize, skoFirst, exs_replace]; rfl

/-- `Instantiate` replaces the variable in the body. -/
theorem instantiate_parts {m k : Nat} {F : Form} {v : TVar} {b : Form}
    (h : gammaParts F = some (v, b)) (hv : isTType v.ty = false) :
    instantiate m k F = some (b.replaceTermByTerm (.var v.index) (.mv m)).1 := by
  unfold gammaParts at h
  split at h <;> cases h
  · simp only [instantiate, instFirst, hv, Form.replaceTermByTerm, exs_replace, Form.substituteVarByMeta_eq]; rfl
  · simp only [instantiate, instFirst, hv, alls_replace, Form.substituteVarByMeta_eq]; rfl

/-- The parts of a well-formed quantified formula. -/
structure PartsWF (v : TVar) (b : Form) (c : Nat) : Prop where
  ty : isTType v.ty = false
  fo : FO b
  nodup : (v.index :: b.binders).Nodup
  binders : ∀ i ∈ v.index :: b.binders, i < c ∧ i ∉ b.funs
  funs : ∀ i ∈ b.funs, i < c
  closed : ∀ i ∈ b.fvs, i = v.index

theorem exs_props {vs : List TVar} {f : Form} :
    (exs vs f).binders = vs.map TVar.index ++ f.binders ∧ (exs vs f).funs = f.funs ∧
    (exs vs f).metas = f.metas ∧ (∀ i, i ∈ (exs vs f).fvs ↔ i ∈ f.fvs ∧ i ∉ vs.map TVar.index) ∧
    (FO (exs vs f) ↔ (∀ v ∈ vs, isTType v.ty = false) ∧ FO f) := by
  unfold exs
  cases vs with
  | nil => simp
  | cons v vs => simp [Form.binders, Form.funs, Form.metas, Form.fvs, FO]

theorem alls_props {vs : List TVar} {f : Form} :
    (alls vs f).binders = vs.map TVar.index ++ f.binders ∧ (alls vs f).funs = f.funs ∧
    (alls vs f).metas = f.metas ∧ (∀ i, i ∈ (alls vs f).fvs ↔ i ∈ f.fvs ∧ i ∉ vs.map TVar.index) ∧
    (FO (alls vs f) ↔ (∀ v ∈ vs, isTType v.ty = false) ∧ FO f) := by
  unfold alls
  cases vs with
  | nil => simp
  | cons v vs => simp [Form.binders, Form.funs, Form.metas, Form.fvs, FO]

theorem deltaParts_wf {F : Form} {v : TVar} {b : Form} {c : Nat} (h : deltaParts F = some (v, b))
    (w : WF F c) : PartsWF v b c ∧ b.metas = F.metas := by
  obtain ⟨fo, nd, bd, fu, cl⟩ := w
  unfold deltaParts at h
  split at h <;> cases h
  · rename_i vs f
    obtain ⟨h1, h2, h3, h4, h5⟩ := @alls_props vs f
    simp only [FO, Form.binders, Form.funs, Form.fvs, List.map_cons, List.cons_append, List.forall_mem_cons,
      List.mem_filter, Bool.not_eq_true', List.contains_eq_mem, decide_eq_false_iff_not] at fo nd bd fu cl
    refine ⟨⟨fo.1.2.1, by simp only [FO]; rw [h5]; exact ⟨fo.1.2.2, fo.2⟩, ?_, ?_, ?_, ?_⟩, ?_⟩
    · simpa [Form.binders, h1] using nd
    · simpa only [Form.binders, h1, Form.funs, h2, List.forall_mem_cons] using bd
    · simpa only [Form.funs, h2] using fu
    · intro i hi
      simp only [Form.fvs, h4] at hi
      exact Classical.byContradiction fun hne => cl i ⟨hi.1, by simp only [List.mem_cons, not_or]; exact ⟨hne, hi.2⟩⟩
    · simp [Form.metas, h3]
  · rename_i vs f
    obtain ⟨h1, h2, h3, h4, h5⟩ := @exs_props vs f
    simp only [FO, Form.binders, Form.funs, Form.fvs, List.map_cons, List.cons_append, List.forall_mem_cons,
      List.mem_filter, Bool.not_eq_true', List.contains_eq_mem, decide_eq_false_iff_not] at fo nd bd fu cl
    refine ⟨⟨fo.1.2.1, by rw [h5]; exact ⟨fo.1.2.2, fo.2⟩, ?_, ?_, ?_, ?_⟩, ?_⟩
    · simpa [Form.binders, h1] using nd
    · simpa only [Form.binders, h1, Form.funs, h2, List.forall_mem_cons] using bd
    · simpa only [Form.funs, h2] using fu
    · intro i hi
      simp only [Form.fvs, h4] at hi
      exact Classical.byContradiction fun hne => cl i ⟨hi.1, by simp only [List.mem_cons, not_or]; exact ⟨hne, hi.2⟩⟩
    · simp [Form.metas, h3]

theorem gammaParts_wf {F : Form} {v : TVar} {b : Form} {c : Nat} (h : gammaParts F = some (v, b))
    (w : WF F c) : PartsWF v b c ∧ b.metas = F.metas := by
  obtain ⟨fo, nd, bd, fu, cl⟩ := w
  unfold gammaParts at h
  split at h <;> cases h
  · rename_i vs f
    obtain ⟨h1, h2, h3, h4, h5⟩ := @exs_props vs f
    simp only [FO, Form.binders, Form.funs, Form.fvs, List.map_cons, List.cons_append, List.forall_mem_cons,
      List.mem_filter, Bool.not_eq_true', List.contains_eq_mem, decide_eq_false_iff_not] at fo nd bd fu cl
    refine ⟨⟨fo.1.2.1, by simp only [FO]; rw [h5]; exact ⟨fo.1.2.2, fo.2⟩, ?_, ?_, ?_, ?_⟩, ?_⟩
    · simpa [Form.binders, h1] using nd
    · simpa only [Form.binders, h1, Form.funs, h2, List.forall_mem_cons] using bd
    · simpa only [Form.funs, h2] using fu
    · intro i hi
      simp only [Form.fvs, h4] at hi
      exact Classical.byContradiction fun hne => cl i ⟨hi.1, by simp only [List.mem_cons, not_or]; exact ⟨hne, hi.2⟩⟩
    · simp [Form.metas, h3]
  · rename_i vs f
    obtain ⟨h1, h2, h3, h4, h5⟩ := @alls_props vs f
    simp only [FO, Form.binders, Form.funs, Form.fvs, List.map_cons, List.cons_append, List.forall_mem_cons,
      List.mem_filter, Bool.not_eq_true', List.contains_eq_mem, decide_eq_false_iff_not] at fo nd bd fu cl
    refine ⟨⟨fo.1.2.1, by rw [h5]; exact ⟨fo.1.2.2, fo.2⟩, ?_, ?_, ?_, ?_⟩, ?_⟩
    · simpa [Form.binders, h1] using nd
    · simpa only [Form.binders, h1, Form.funs, h2, List.forall_mem_cons] using bd
    · simpa only [Form.funs, h2] using fu
    · intro i hi
      simp only [Form.fvs, h4] at hi
      exact Classical.byContradiction fun hne => cl i ⟨hi.1, by simp only [List.mem_cons, not_or]; exact ⟨hne, hi.2⟩⟩
    · simp [Form.metas, h3]

/-- Universal and existential formulas that are well formed do have parts. -/
theorem deltaParts_isSome {F : Form} {c : Nat} (w : WF F c) (h : IsExistential F) :
    ∃ v b, deltaParts F = some (v, b) := by
  rcases h with ⟨vs, g, rfl⟩ | ⟨vs, g, rfl⟩ <;>
    cases vs <;> first | exact absurd rfl w.fo.1.1 | exact ⟨_, _, rfl⟩

theorem gammaParts_isSome {F : Form} {c : Nat} (w : WF F c) (h : IsUniversal F) :
    ∃ v b, gammaParts F = some (v, b) := by
  rcases h with ⟨vs, g, rfl⟩ | ⟨vs, g, rfl⟩ <;>
    cases vs <;> first | exact absurd rfl w.fo.1.1 | exact ⟨_, _, rfl⟩

theorem PartsWF.replace {v : TVar} {b : Form} {c c' : Nat} (w : PartsWF v b c) (hc : c ≤ c') {u : Term}
    (hu : u.vars = []) (hf : ∀ i ∈ u.funs, c ≤ i ∧ i < c') :
    WF (b.replaceTermByTerm (.var v.index) u).1 c' := by
  have hne : u ≠ .var v.index := by rintro rfl; simp [Term.vars] at hu
  refine ⟨FO_replace w.fo, ?_, ?_, ?_, ?_⟩
  · rw [Form.binders_replaceTermByTerm]; exact (List.nodup_cons.1 w.nodup).2
  · rw [Form.binders_replaceTermByTerm]
    intro i hi
    have := w.binders i (by simp [hi])
    refine ⟨by omega, fun h => ?_⟩
    rcases Form.replaceTermByTerm_funs _ _ hne h with h | h
    · exact this.2 h
    · have := hf i h; omega
  · intro i h
    rcases Form.replaceTermByTerm_funs _ _ hne h with h | h
    · have := w.funs i h; omega
    · exact (hf i h).2
  · intro i h
    rcases Form.replaceTermByTerm_fvs _ _ hne h with h | h
    · exact h.2 (w.closed i h.1)
    · simp [hu] at h

/-! ### C21 -/

section
variable {D : Type u} {I : Interp D}

theorem gamma_holds {v : TVar} {b : Form} {c m : Nat} (w : PartsWF v b c) {μ ρ : Nat → D} :
    Form.holds I μ ρ (b.replaceTermByTerm (.var v.index) (.mv m)).1 ↔
      Form.holds I μ (upd ρ v.index (μ m)) b := by
  rw [holds_replaceTermByTerm (w.binders v.index (by simp)).2 (List.nodup_cons.1 w.nodup).1 (by simp)
    (by simp [Term.vars])]
  simp [Term.eval]

/-- **C21** (for formulas without type quantifiers; quantified type variables are missing). For a universal formula (or negated existential) the rule succeeds; the instance is true
for whatever element the new metavariable denotes when the formula is true; and, the metavariable
being new, the formula is true exactly when the instance is true for all values of it. -/
theorem C21_gamma_partial (F : Form) (c m k : Nat) (hw : WF F c) (hF : IsUniversal F) (hm : m ∉ F.metas) :
    ∃ g, instantiate m k F = some g ∧ WF g c ∧ (∀ i ∈ g.metas, i ∈ F.metas ∨ i = m) ∧
      (∀ (D : Type u) (I : Interp D) (μ ρ : Nat → D), Form.holds I μ ρ F → Form.holds I μ ρ g) ∧
      (∀ (D : Type u) (I : Interp D) (μ ρ : Nat → D),
        Form.holds I μ ρ F ↔ ∀ d, Form.holds I (upd μ m d) ρ g) := by
  obtain ⟨v, b, hp⟩ := gammaParts_isSome hw hF
  obtain ⟨w, hmb⟩ := gammaParts_wf hp hw
  refine ⟨_, instantiate_parts hp w.ty, w.replace (Nat.le_refl _) rfl (by simp [Term.funs]), ?_, ?_, ?_⟩
  · intro i hi
    rcases Form.replaceTermByTerm_metas _ _ (by simp) hi with h | h
    · exact Or.inl (hmb ▸ h)
    · exact Or.inr (by simpa [Term.metas] using h)
  · intro D I μ ρ h
    rw [gamma_holds w]
    exact (holds_gammaParts hp).1 h _
  · intro D I μ ρ
    rw [holds_gammaParts hp]
    apply forall_congr'; intro d
    rw [gamma_holds w, upd_same]
    exact Form.holds_congr (fun _ _ => rfl)
      (fun i hi => (upd_other _ _ (fun e => hm (by rw [← hmb]; exact e ▸ hi))).symm) (fun _ _ => rfl) rfl

/-! ### C22 -/

/-- Every element that the formula asserts to exist is provided by the function `sk` applied to the
metavariables `args`. -/
def SkoAx (I : Interp D) (sk : Nat) (args : List Nat) (v : TVar) (b : Form) : Prop :=
  ∀ (μ ρ : Nat → D) (d : D), Form.holds I μ (upd ρ v.index d) b →
    Form.holds I μ (upd ρ v.index (I.fn sk [] (args.map μ))) b

theorem eval_sko {sk : Nat} {args : List Nat} {μ ρ : Nat → D} :
    Term.eval I ρ μ (.fn sk [] (args.map .mv)) = I.fn sk [] (args.map μ) := by
  simp [Term.eval, Term.evalL_eq_map, List.map_map]; congr 1

theorem SkoAx.holds {sk : Nat} {args : List Nat} {v : TVar} {b : Form} {c : Nat} (w : PartsWF v b c)
    (h : SkoAx I sk args v b) {μ ρ : Nat → D} {d : D} (hd : Form.holds I μ (upd ρ v.index d) b) :
    Form.holds I μ ρ (b.replaceTermByTerm (.var v.index) (.fn sk [] (args.map .mv))).1 := by
  have hv : ∀ l : List Nat, Term.varsL (l.map .mv) = [] := by
    intro l; induction l with
    | nil => rfl
    | cons a l ih => simp [Term.varsL, Term.vars, ih]
  rw [holds_replaceTermByTerm (w.binders v.index (by simp)).2 (List.nodup_cons.1 w.nodup).1 (by simp)
    (by simp [Term.vars, hv]), eval_sko]
  exact h μ ρ d hd

theorem eq_on_of_map_eq {args : List Nat} {μ μ' : Nat → D} (h : args.map μ = args.map μ') :
    ∀ i ∈ args, μ i = μ' i := by
  induction args with
  | nil => simp
  | cons a l ih =>
    simp only [List.map_cons, List.cons.injEq] at h
    intro i hi
    rcases List.mem_cons.1 hi with rfl | hi
    · exact h.1
    · exact ih h.2 i hi

/-- A new function symbol can be interpreted so as to provide the witnesses. -/
theorem exists_skoAx (I : Interp D) {sk : Nat} {args : List Nat} {v : TVar} {b : Form}
    (hsk : sk ∉ b.funs) (hm : ∀ i ∈ b.metas, i ∈ args) (hc : ∀ i ∈ b.fvs, i = v.index) :
    ∃ J : Interp D, J.pr = I.pr ∧ (∀ p, p ≠ sk → J.fn p = I.fn p) ∧ SkoAx J sk args v b := by
  classical
  let W : List D → D → Prop := fun ds d => ∃ μ ρ : Nat → D, args.map μ = ds ∧
    Form.holds I μ (upd ρ v.index d) b
  let J : Interp D := { I with fn := fun p tys ds =>
    if p = sk then if h : ∃ d, W ds d then h.choose else I.fn p tys ds else I.fn p tys ds }
  have hJ : ∀ p, p ≠ sk → J.fn p = I.fn p := by
    intro p hp; funext tys ds; simp [J, hp]
  have hcong : ∀ μ ρ, Form.holds J μ ρ b ↔ Form.holds I μ ρ b := fun μ ρ =>
    Form.holds_congr (fun _ _ => rfl) (fun _ _ => rfl) (fun p hp => hJ p (fun e => hsk (e ▸ hp))) rfl
  refine ⟨J, rfl, hJ, fun μ ρ d hd => ?_⟩
  rw [hcong] at hd ⊢
  have hex : ∃ d, W (args.map μ) d := ⟨d, μ, ρ, rfl, hd⟩
  have : J.fn sk [] (args.map μ) = hex.choose := by simp [J, hex]
  rw [this]
  obtain ⟨μ', ρ', e, hh⟩ := hex.choose_spec
  refine (Form.holds_congr (fun i hi => ?_) (fun i hi => eq_on_of_map_eq e i (hm i hi)) (fun _ _ => rfl) rfl).1 hh
  rw [hc i hi, upd_same, upd_same]

end

/-- **C22** (for formulas without type quantifiers). Take an existential (or negated universal) formula, a Skolem symbol that does not occur in
it, and arguments among which are all metavariables of the formula. The rule succeeds, and every
interpretation can be changed on the Skolem symbol only so that, for all values of the metavariables,
the Skolemised formula is true whenever the formula was. -/
theorem C22_delta_partial (F : Form) (c sk : Nat) (args : List Nat) (hw : WF F c) (hF : IsExistential F)
    (hsk : sk ∉ F.funs) (hargs : ∀ i ∈ F.metas, i ∈ args) :
    ∃ g, skolemize sk args F = some g ∧
      ∀ (D : Type u) (I : Interp D), ∃ J : Interp D, J.pr = I.pr ∧ (∀ p, p ≠ sk → J.fn p = I.fn p) ∧
        ∀ μ ρ : Nat → D, Form.holds I μ ρ F → Form.holds J μ ρ g := by
  obtain ⟨v, b, hp⟩ := deltaParts_isSome hw hF
  obtain ⟨w, hmb⟩ := deltaParts_wf hp hw
  have hfb : b.funs = F.funs := by
    unfold deltaParts at hp
    split at hp <;> cases hp
    · simp [Form.funs, alls_props.2.1]
    · simp [Form.funs, exs_props.2.1]
  refine ⟨_, skolemize_parts hp, fun D I => ?_⟩
  obtain ⟨J, h1, h2, h3⟩ := exists_skoAx I (by rw [hfb]; exact hsk) (by rw [hmb]; exact hargs) w.closed
  refine ⟨J, h1, h2, fun μ ρ h => ?_⟩
  obtain ⟨d, hd⟩ := (holds_deltaParts hp).1 h
  refine h3.holds w (d := d) ?_
  exact (Form.holds_congr (fun _ _ => rfl) (fun _ _ => rfl)
    (fun p hp' => (h2 p (fun e => hsk (by rw [← hfb]; exact e ▸ hp'))).symm) h1.symm).1 hd

/-- **C22, as worded.** A set of formulas true for all values of the metavariables, containing an
existential formula: in some interpretation differing on the new symbol only, the set and the Skolemised
formula are true for all values of the metavariables. -/
theorem C22_delta_satisfiability_partial (Γ : List Form) (F : Form) (c sk : Nat) (args : List Nat) (hw : WF F c)
    (hF : IsExistential F) (hmem : F ∈ Γ) (hsk : ∀ g ∈ Γ, sk ∉ g.funs) (hargs : ∀ i ∈ F.metas, i ∈ args)
    (D : Type u) (I : Interp D) (ρ : Nat → D) (hI : ∀ μ, ∀ g ∈ Γ, Form.holds I μ ρ g) :
    ∃ g', skolemize sk args F = some g' ∧
      ∃ J : Interp D, J.pr = I.pr ∧ (∀ p, p ≠ sk → J.fn p = I.fn p) ∧
        ∀ μ, ∀ g ∈ g' :: Γ, Form.holds J μ ρ g := by
  obtain ⟨g', e, h⟩ := C22_delta_partial.{u} F c sk args hw hF (hsk F hmem) hargs
  obtain ⟨J, h1, h2, h3⟩ := h D I
  refine ⟨g', e, J, h1, h2, fun μ g hg => ?_⟩
  rcases List.mem_cons.1 hg with rfl | hg
  · exact h3 μ ρ (hI μ F hmem)
  · exact (Form.holds_congr (fun _ _ => rfl) (fun _ _ => rfl)
      (fun p hp => (h2 p (fun e => hsk g hg (e ▸ hp))).symm) h1.symm).1 (hI μ g hg)

/-- A formula meeting the hypotheses of C21 and one for C22, with a metavariable and two quantified
variables. -/
example : WF (.all [⟨"x", 3, .constr "$i" []⟩, ⟨"y", 4, .constr "$i" []⟩] (.pred 2 [] [.var 3, .var 4, .mv 7])) 8 ∧
    instantiate 9 0 (.all [⟨"x", 3, .constr "$i" []⟩, ⟨"y", 4, .constr "$i" []⟩] (.pred 2 [] [.var 3, .var 4, .mv 7])) =
      some (.all [⟨"y", 4, .constr "$i" []⟩] (.pred 2 [] [.mv 9, .var 4, .mv 7])) := by
  refine ⟨⟨?_, by decide, by decide, by decide, ?_⟩, by decide⟩
  · simp [FO, isTType]
  · intro i; simp [Form.fvs, Term.varsL, Term.vars]
example : skolemize 9 [7] (.neg (.all [⟨"x", 3, .constr "$i" []⟩, ⟨"y", 4, .constr "$i" []⟩]
      (.pred 2 [] [.var 3, .var 4, .mv 7]))) =
    some (.neg (.all [⟨"y", 4, .constr "$i" []⟩] (.pred 2 [] [.fn 9 [] [.mv 7], .var 4, .mv 7]))) := by decide

end Verif.Search
