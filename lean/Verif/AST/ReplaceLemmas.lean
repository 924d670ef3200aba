import Verif.AST.Replace
import Verif.AST.Semantics
/-!
# Lemmas on the replacement functions
-/
set_option linter.unusedSimpArgs false

namespace Verif.AST

theorem replTL_fst (old new : Term) (l : List Term) :
    (replTL old new l).1 = l.map (fun a => (replT old new a).1) := by
  induction l with
  | nil => rfl
  | cons a l ih => simp [replTL, ih]

theorem Form.replaceTermByTermL_fst (old new : Term) (l : List Form) :
    (Form.replaceTermByTermL old new l).1 = l.map (fun a => (Form.replaceTermByTerm old new a).1) := by
  induction l with
  | nil => rfl
  | cons a l ih => simp [Form.replaceTermByTermL, ih]

theorem Form.substituteVarByMetaL_eq (x m : Nat) (l : List Form) :
    Form.substituteVarByMetaL x m l = l.map (Form.substituteVarByMeta x m) := by
  induction l with
  | nil => rfl
  | cons a l ih => simp [Form.substituteVarByMetaL, ih]

theorem Form.replaceMetaByTermL_eq (m : Nat) (t : Term) (l : List Form) :
    Form.replaceMetaByTermL m t l = l.map (Form.replaceMetaByTerm m t) := by
  induction l with
  | nil => rfl
  | cons a l ih => simp [Form.replaceMetaByTermL, ih]

theorem Term.applySubstL_eq (m : Nat) (t : Term) (l : List Term) :
    Term.applySubstL m t l = l.map (Term.applySubst m t) := by
  induction l with
  | nil => rfl
  | cons a l ih => simp [Term.applySubstL, ih]

theorem Form.substituteVarByMeta_eq (x m : Nat) (f : Form) :
    Form.substituteVarByMeta x m f = (Form.replaceTermByTerm (.var x) (.mv m) f).1 := by
  induction f using Form.ind with
  | pred p tys args => rfl
  | top => rfl
  | bot => rfl
  | neg f ih => simp [Form.substituteVarByMeta, Form.replaceTermByTerm, ih]
  | and fs ih =>
    simp only [Form.substituteVarByMeta, Form.replaceTermByTerm, Form.substituteVarByMetaL_eq,
      Form.replaceTermByTermL_fst]
    congr 1; exact List.map_congr_left ih
  | or fs ih =>
    simp only [Form.substituteVarByMeta, Form.replaceTermByTerm, Form.substituteVarByMetaL_eq,
      Form.replaceTermByTermL_fst]
    congr 1; exact List.map_congr_left ih
  | imp f g ihf ihg => simp [Form.substituteVarByMeta, Form.replaceTermByTerm, ihf, ihg]
  | equ f g ihf ihg => simp [Form.substituteVarByMeta, Form.replaceTermByTerm, ihf, ihg]
  | all vs f ih => simp [Form.substituteVarByMeta, Form.replaceTermByTerm, ih]
  | ex vs f ih => simp [Form.substituteVarByMeta, Form.replaceTermByTerm, ih]

theorem replT_var_fst (x : Nat) (u : Term) (j : Nat) :
    (replT (.var x) u (.var j)).1 = if x = j then u else .var j := by
  by_cases h : x = j <;> simp [replT, Term.index, h]

theorem replT_fn_fst (x : Nat) (u : Term) (p : Nat) (tys : List Ty) (args : List Term) :
    (replT (.var x) u (.fn p tys args)).1 =
      if x = p then u else .fn p tys (args.map fun a => (replT (.var x) u a).1) := by
  by_cases h : x = p <;> simp [replT, Term.index, ← replTL_fst, h]

section
variable {D : Type u} {I : Interp D}

theorem upd_same (ρ : Nat → D) (i : Nat) (d : D) : upd ρ i d i = d := by simp [upd]
theorem upd_other (ρ : Nat → D) {i j : Nat} (d : D) (h : j ≠ i) : upd ρ i d j = ρ j := by simp [upd, h]
theorem upd_comm (ρ : Nat → D) {i j : Nat} (d e : D) (h : i ≠ j) :
    upd (upd ρ i d) j e = upd (upd ρ j e) i d := by
  funext k; simp only [upd]; split <;> split <;> simp_all

/-- Value of a term after replacing a variable. -/
theorem eval_replT {x : Nat} {u t : Term} {ρ μ : Nat → D} (hx : x ∉ t.funs) (hu : u ≠ .var x) :
    Term.eval I ρ μ (replT (.var x) u t).1 = Term.eval I (upd ρ x (Term.eval I ρ μ u)) μ t := by
  induction t using Term.ind with
  | var i =>
    rw [replT_var_fst]
    split
    · subst_vars; simp [Term.eval, upd]
    · rename_i h; simp [Term.eval, upd, Ne.symm h]
  | mv i => simp [replT, Ne.symm hu, Term.eval]
  | fn p tys args ih =>
    simp only [Term.funs, List.mem_cons, not_or, Term.mem_funsL, not_exists, not_and] at hx
    rw [replT_fn_fst, if_neg hx.1]
    simp only [Term.eval, Term.evalL_eq_map, List.map_map]
    congr 1
    apply List.map_congr_left
    intro a ha
    exact ih a ha (hx.2 a ha)

theorem forallVars_upd {Q : (Nat → D) → Prop} {vs : List TVar} {x : Nat} {U : (Nat → D) → D}
    {ρ : Nat → D} (hx : x ∉ vs.map TVar.index)
    (hU : ∀ ρ : Nat → D, ∀ v ∈ vs, ∀ d, U (upd ρ v.index d) = U ρ) :
    forallVars (fun ρ => Q (upd ρ x (U ρ))) vs ρ ↔ forallVars Q vs (upd ρ x (U ρ)) := by
  induction vs generalizing ρ with
  | nil => exact Iff.rfl
  | cons v vs ih =>
    simp only [List.map_cons, List.mem_cons, not_or] at hx
    simp only [forallVars]
    apply forall_congr'; intro d
    rw [ih hx.2 (fun ρ w hw d => hU ρ w (by simp [hw]) d), hU ρ v (by simp),
      upd_comm _ _ _ (Ne.symm hx.1)]

theorem existsVars_upd {Q : (Nat → D) → Prop} {vs : List TVar} {x : Nat} {U : (Nat → D) → D}
    {ρ : Nat → D} (hx : x ∉ vs.map TVar.index)
    (hU : ∀ ρ : Nat → D, ∀ v ∈ vs, ∀ d, U (upd ρ v.index d) = U ρ) :
    existsVars (fun ρ => Q (upd ρ x (U ρ))) vs ρ ↔ existsVars Q vs (upd ρ x (U ρ)) := by
  induction vs generalizing ρ with
  | nil => exact Iff.rfl
  | cons v vs ih =>
    simp only [List.map_cons, List.mem_cons, not_or] at hx
    simp only [existsVars]
    apply exists_congr; intro d
    rw [ih hx.2 (fun ρ w hw d => hU ρ w (by simp [hw]) d), hU ρ v (by simp),
      upd_comm _ _ _ (Ne.symm hx.1)]

/-- Truth of a formula after replacing a variable that the formula does not bind by a term whose
variables it does not bind. -/
theorem holds_replaceTermByTerm {x : Nat} {u : Term} {f : Form} {ρ μ : Nat → D}
    (hx : x ∉ f.funs) (hb : x ∉ f.binders) (hu : u ≠ .var x) (hc : ∀ i ∈ u.vars, i ∉ f.binders) :
    Form.holds I μ ρ (Form.replaceTermByTerm (.var x) u f).1 ↔
      Form.holds I μ (upd ρ x (Term.eval I ρ μ u)) f := by
  induction f using Form.ind generalizing ρ with
  | pred p tys args =>
    simp only [Form.replaceTermByTerm, Form.holds_pred, replTL_fst, List.map_map]
    simp only [Form.funs, Term.mem_funsL, not_exists, not_and] at hx
    have : List.map (Term.eval I ρ μ ∘ fun a => (replT (.var x) u a).1) args =
        List.map (Term.eval I (upd ρ x (Term.eval I ρ μ u)) μ) args :=
      List.map_congr_left (fun a ha => eval_replT (hx a ha) hu)
    rw [this]
  | top => simp [Form.replaceTermByTerm]
  | bot => simp [Form.replaceTermByTerm]
  | neg f ih =>
    simp only [Form.replaceTermByTerm, Form.holds_neg]
    rw [ih (by simpa [Form.funs] using hx) (by simpa [Form.binders] using hb)
      (by simpa [Form.binders] using hc)]
  | and fs ih =>
    simp only [Form.funs, Form.binders, Form.mem_funsL, Form.mem_bindersL, not_exists, not_and] at hx hb hc
    simp only [Form.replaceTermByTerm, Form.holds_and, Form.replaceTermByTermL_fst, List.forall_mem_map]
    apply forall_congr'; intro f
    apply forall_congr'; intro hf
    exact ih f hf (hx f hf) (hb f hf) (fun i hi => hc i hi f hf)
  | or fs ih =>
    simp only [Form.funs, Form.binders, Form.mem_funsL, Form.mem_bindersL, not_exists, not_and] at hx hb hc
    simp only [Form.replaceTermByTerm, Form.holds_or, Form.replaceTermByTermL_fst, exists_mem_map']
    apply exists_congr; intro f
    apply and_congr_right; intro hf
    exact ih f hf (hx f hf) (hb f hf) (fun i hi => hc i hi f hf)
  | imp f g ihf ihg =>
    simp only [Form.funs, Form.binders, List.mem_append, not_or] at hx hb hc
    simp only [Form.replaceTermByTerm, Form.holds_imp]
    rw [ihf hx.1 hb.1 (fun i hi => (hc i hi).1), ihg hx.2 hb.2 (fun i hi => (hc i hi).2)]
  | equ f g ihf ihg =>
    simp only [Form.funs, Form.binders, List.mem_append, not_or] at hx hb hc
    simp only [Form.replaceTermByTerm, Form.holds_equ]
    rw [ihf hx.1 hb.1 (fun i hi => (hc i hi).1), ihg hx.2 hb.2 (fun i hi => (hc i hi).2)]
  | all vs f ih =>
    simp only [Form.funs, Form.binders, List.mem_append, not_or] at hx hb hc
    simp only [Form.replaceTermByTerm, Form.holds_all]
    rw [forallVars_congr (fun ρ => ih (ρ := ρ) hx hb.2 (fun i hi => (hc i hi).2)),
      forallVars_upd (Q := fun ρ => Form.holds I μ ρ f) (U := fun ρ => Term.eval I ρ μ u) hb.1]
    intro ρ v hv d
    apply Term.eval_congr (fun i hi => ?_) (fun _ _ => rfl) (fun _ _ => rfl)
    apply upd_other
    rintro rfl
    exact (hc _ hi).1 (List.mem_map.2 ⟨v, hv, rfl⟩)
  | ex vs f ih =>
    simp only [Form.funs, Form.binders, List.mem_append, not_or] at hx hb hc
    simp only [Form.replaceTermByTerm, Form.holds_ex]
    rw [existsVars_congr (fun ρ => ih (ρ := ρ) hx hb.2 (fun i hi => (hc i hi).2)),
      existsVars_upd (Q := fun ρ => Form.holds I μ ρ f) (U := fun ρ => Term.eval I ρ μ u) hb.1]
    intro ρ v hv d
    apply Term.eval_congr (fun i hi => ?_) (fun _ _ => rfl) (fun _ _ => rfl)
    apply upd_other
    rintro rfl
    exact (hc _ hi).1 (List.mem_map.2 ⟨v, hv, rfl⟩)

end

/-! ### Occurrences after replacement -/

@[simp] theorem Form.binders_replaceTermByTerm (old new : Term) (f : Form) :
    (Form.replaceTermByTerm old new f).1.binders = f.binders := by
  have hl : ∀ l : List Form, (∀ f ∈ l, (Form.replaceTermByTerm old new f).1.binders = f.binders) →
      Form.bindersL (Form.replaceTermByTermL old new l).1 = Form.bindersL l := by
    intro l h
    induction l with
    | nil => rfl
    | cons a l ih =>
      simp only [Form.replaceTermByTermL, Form.bindersL]
      rw [h a (by simp), ih (fun f hf => h f (by simp [hf]))]
  induction f using Form.ind with
  | pred p tys args => rfl
  | top => rfl
  | bot => rfl
  | neg f ih => simpa [Form.replaceTermByTerm, Form.binders] using ih
  | and fs ih => simpa [Form.replaceTermByTerm, Form.binders] using hl fs ih
  | or fs ih => simpa [Form.replaceTermByTerm, Form.binders] using hl fs ih
  | imp f g ihf ihg => simp [Form.replaceTermByTerm, Form.binders, ihf, ihg]
  | equ f g ihf ihg => simp [Form.replaceTermByTerm, Form.binders, ihf, ihg]
  | all vs f ih => simp [Form.replaceTermByTerm, Form.binders, ih]
  | ex vs f ih => simp [Form.replaceTermByTerm, Form.binders, ih]

section
variable (x : Nat) (u : Term)

theorem replT_vars {t : Term} {i : Nat} (hu : u ≠ .var x)
    (h : i ∈ (replT (.var x) u t).1.vars) : (i ∈ t.vars ∧ i ≠ x) ∨ i ∈ u.vars := by
  induction t using Term.ind with
  | var j =>
    rw [replT_var_fst] at h
    split at h
    · exact Or.inr h
    · simp only [Term.vars, List.mem_singleton] at h
      subst h; exact Or.inl ⟨by simp [Term.vars], by rename_i h; exact fun e => h e.symm⟩
  | mv j =>
    simp only [replT, Ne.symm hu, if_false] at h
    simp [Term.vars] at h
  | fn p tys args ih =>
    rw [replT_fn_fst] at h
    split at h
    · exact Or.inr h
    · simp only [Term.vars, Term.mem_varsL, replTL_fst, List.mem_map] at h ⊢
      obtain ⟨_, ⟨a, ha, rfl⟩, h⟩ := h
      rcases ih a ha h with h | h
      · exact Or.inl ⟨⟨a, ha, h.1⟩, h.2⟩
      · exact Or.inr h

theorem replT_metas {t : Term} {i : Nat} (hu : u ≠ .var x)
    (h : i ∈ (replT (.var x) u t).1.metas) : i ∈ t.metas ∨ i ∈ u.metas := by
  induction t using Term.ind with
  | var j =>
    rw [replT_var_fst] at h
    split at h
    · exact Or.inr h
    · exact Or.inl h
  | mv j =>
    simp only [replT, Ne.symm hu, if_false] at h
    exact Or.inl h
  | fn p tys args ih =>
    rw [replT_fn_fst] at h
    split at h
    · exact Or.inr h
    · simp only [Term.metas, Term.mem_metasL, replTL_fst, List.mem_map] at h ⊢
      obtain ⟨_, ⟨a, ha, rfl⟩, h⟩ := h
      rcases ih a ha h with h | h
      · exact Or.inl ⟨a, ha, h⟩
      · exact Or.inr h

theorem replT_funs {t : Term} {i : Nat} (hu : u ≠ .var x)
    (h : i ∈ (replT (.var x) u t).1.funs) : i ∈ t.funs ∨ i ∈ u.funs := by
  induction t using Term.ind with
  | var j =>
    rw [replT_var_fst] at h
    split at h
    · exact Or.inr h
    · exact Or.inl h
  | mv j =>
    simp only [replT, Ne.symm hu, if_false] at h
    exact Or.inl h
  | fn p tys args ih =>
    rw [replT_fn_fst] at h
    split at h
    · exact Or.inr h
    · simp only [Term.funs, List.mem_cons, Term.mem_funsL, replTL_fst, List.mem_map] at h ⊢
      rcases h with h | ⟨_, ⟨a, ha, rfl⟩, h⟩
      · exact Or.inl (Or.inl h)
      · rcases ih a ha h with h | h
        · exact Or.inl (Or.inr ⟨a, ha, h⟩)
        · exact Or.inr h

variable {f : Form} {i : Nat}

theorem Form.replaceTermByTerm_fvs (hu : u ≠ .var x)
    (h : i ∈ (Form.replaceTermByTerm (.var x) u f).1.fvs) : (i ∈ f.fvs ∧ i ≠ x) ∨ i ∈ u.vars := by
  induction f using Form.ind with
  | pred p tys args =>
    simp only [Form.replaceTermByTerm, Form.fvs, replTL_fst, Term.mem_varsL, List.mem_map] at h ⊢
    obtain ⟨_, ⟨a, ha, rfl⟩, h⟩ := h
    rcases replT_vars x u hu h with h | h
    · exact Or.inl ⟨⟨a, ha, h.1⟩, h.2⟩
    · exact Or.inr h
  | top => exact absurd h (by simp [Form.replaceTermByTerm, Form.fvs])
  | bot => exact absurd h (by simp [Form.replaceTermByTerm, Form.fvs])
  | neg f ih => exact ih (by simpa [Form.replaceTermByTerm, Form.fvs] using h)
  | and fs ih =>
    simp only [Form.replaceTermByTerm, Form.fvs, Form.replaceTermByTermL_fst, Form.mem_fvsL, List.mem_map] at h ⊢
    obtain ⟨_, ⟨a, ha, rfl⟩, h⟩ := h
    rcases ih a ha h with h | h
    · exact Or.inl ⟨⟨a, ha, h.1⟩, h.2⟩
    · exact Or.inr h
  | or fs ih =>
    simp only [Form.replaceTermByTerm, Form.fvs, Form.replaceTermByTermL_fst, Form.mem_fvsL, List.mem_map] at h ⊢
    obtain ⟨_, ⟨a, ha, rfl⟩, h⟩ := h
    rcases ih a ha h with h | h
    · exact Or.inl ⟨⟨a, ha, h.1⟩, h.2⟩
    · exact Or.inr h
  | imp f g ihf ihg =>
    simp only [Form.replaceTermByTerm, Form.fvs, List.mem_append] at h ⊢
    rcases h with h | h
    · rcases ihf h with h | h <;> simp [h]
    · rcases ihg h with h | h <;> simp [h]
  | equ f g ihf ihg =>
    simp only [Form.replaceTermByTerm, Form.fvs, List.mem_append] at h ⊢
    rcases h with h | h
    · rcases ihf h with h | h <;> simp [h]
    · rcases ihg h with h | h <;> simp [h]
  | all vs f ih =>
    simp only [Form.replaceTermByTerm, Form.fvs, List.mem_filter] at h ⊢
    rcases ih h.1 with h' | h'
    · exact Or.inl ⟨⟨h'.1, h.2⟩, h'.2⟩
    · exact Or.inr h'
  | ex vs f ih =>
    simp only [Form.replaceTermByTerm, Form.fvs, List.mem_filter] at h ⊢
    rcases ih h.1 with h' | h'
    · exact Or.inl ⟨⟨h'.1, h.2⟩, h'.2⟩
    · exact Or.inr h'

theorem Form.replaceTermByTerm_metas (hu : u ≠ .var x)
    (h : i ∈ (Form.replaceTermByTerm (.var x) u f).1.metas) : i ∈ f.metas ∨ i ∈ u.metas := by
  induction f using Form.ind with
  | pred p tys args =>
    simp only [Form.replaceTermByTerm, Form.metas, replTL_fst, Term.mem_metasL, List.mem_map] at h ⊢
    obtain ⟨_, ⟨a, ha, rfl⟩, h⟩ := h
    rcases replT_metas x u hu h with h | h
    · exact Or.inl ⟨a, ha, h⟩
    · exact Or.inr h
  | top => exact absurd h (by simp [Form.replaceTermByTerm, Form.metas])
  | bot => exact absurd h (by simp [Form.replaceTermByTerm, Form.metas])
  | neg f ih => exact ih (by simpa [Form.replaceTermByTerm, Form.metas] using h)
  | and fs ih =>
    simp only [Form.replaceTermByTerm, Form.metas, Form.replaceTermByTermL_fst, Form.mem_metasL, List.mem_map] at h ⊢
    obtain ⟨_, ⟨a, ha, rfl⟩, h⟩ := h
    rcases ih a ha h with h | h
    · exact Or.inl ⟨a, ha, h⟩
    · exact Or.inr h
  | or fs ih =>
    simp only [Form.replaceTermByTerm, Form.metas, Form.replaceTermByTermL_fst, Form.mem_metasL, List.mem_map] at h ⊢
    obtain ⟨_, ⟨a, ha, rfl⟩, h⟩ := h
    rcases ih a ha h with h | h
    · exact Or.inl ⟨a, ha, h⟩
    · exact Or.inr h
  | imp f g ihf ihg =>
    simp only [Form.replaceTermByTerm, Form.metas, List.mem_append] at h ⊢
    rcases h with h | h
    · rcases ihf h with h | h <;> simp [h]
    · rcases ihg h with h | h <;> simp [h]
  | equ f g ihf ihg =>
    simp only [Form.replaceTermByTerm, Form.metas, List.mem_append] at h ⊢
    rcases h with h | h
    · rcases ihf h with h | h <;> simp [h]
    · rcases ihg h with h | h <;> simp [h]
  | all vs f ih => exact ih (by simpa [Form.replaceTermByTerm, Form.metas] using h)
  | ex vs f ih => exact ih (by simpa [Form.replaceTermByTerm, Form.metas] using h)

theorem Form.replaceTermByTerm_funs (hu : u ≠ .var x)
    (h : i ∈ (Form.replaceTermByTerm (.var x) u f).1.funs) : i ∈ f.funs ∨ i ∈ u.funs := by
  induction f using Form.ind with
  | pred p tys args =>
    simp only [Form.replaceTermByTerm, Form.funs, replTL_fst, Term.mem_funsL, List.mem_map] at h ⊢
    obtain ⟨_, ⟨a, ha, rfl⟩, h⟩ := h
    rcases replT_funs x u hu h with h | h
    · exact Or.inl ⟨a, ha, h⟩
    · exact Or.inr h
  | top => exact absurd h (by simp [Form.replaceTermByTerm, Form.funs])
  | bot => exact absurd h (by simp [Form.replaceTermByTerm, Form.funs])
  | neg f ih => exact ih (by simpa [Form.replaceTermByTerm, Form.funs] using h)
  | and fs ih =>
    simp only [Form.replaceTermByTerm, Form.funs, Form.replaceTermByTermL_fst, Form.mem_funsL, List.mem_map] at h ⊢
    obtain ⟨_, ⟨a, ha, rfl⟩, h⟩ := h
    rcases ih a ha h with h | h
    · exact Or.inl ⟨a, ha, h⟩
    · exact Or.inr h
  | or fs ih =>
    simp only [Form.replaceTermByTerm, Form.funs, Form.replaceTermByTermL_fst, Form.mem_funsL, List.mem_map] at h ⊢
    obtain ⟨_, ⟨a, ha, rfl⟩, h⟩ := h
    rcases ih a ha h with h | h
    · exact Or.inl ⟨a, ha, h⟩
    · exact Or.inr h
  | imp f g ihf ihg =>
    simp only [Form.replaceTermByTerm, Form.funs, List.mem_append] at h ⊢
    rcases h with h | h
    · rcases ihf h with h | h <;> simp [h]
    · rcases ihg h with h | h <;> simp [h]
  | equ f g ihf ihg =>
    simp only [Form.replaceTermByTerm, Form.funs, List.mem_append] at h ⊢
    rcases h with h | h
    · rcases ihf h with h | h <;> simp [h]
    · rcases ihg h with h | h <;> simp [h]
  | all vs f ih => exact ih (by simpa [Form.replaceTermByTerm, Form.funs] using h)
  | ex vs f ih => exact ih (by simpa [Form.replaceTermByTerm, Form.funs] using h)

end

end Verif.AST
