import Verif.Mods.TptpProps
/-!
# The TPTP output: replacing a Skolem term by a new constant keeps a refutation
-/

namespace Verif.Tptp
open Verif.AST
open Verif.Gs3 (Rule Tree allVars allVarsL mem_allVarsL alphaParts betaParts quantParts)

/-! ## Replacing a symbol by a constant -/

mutual
/-- Every term with the symbol `p` becomes the constant `c`. -/
def swapT (p c : Nat) : Term → Term
  | .var i => .var i
  | .mv i => .mv i
  | .fn q tys args => if q = p then .fn c [] [] else .fn q tys (swapTL p c args)
def swapTL (p c : Nat) : List Term → List Term
  | [] => []
  | a :: l => swapT p c a :: swapTL p c l
end

mutual
def swapF (p c : Nat) : Form → Form
  | .pred q tys args => .pred q tys (swapTL p c args)
  | .top => .top
  | .bot => .bot
  | .neg f => .neg (swapF p c f)
  | .and fs => .and (swapFL p c fs)
  | .or fs => .or (swapFL p c fs)
  | .imp f g => .imp (swapF p c f) (swapF p c g)
  | .equ f g => .equ (swapF p c f) (swapF p c g)
  | .all vs f => .all vs (swapF p c f)
  | .ex vs f => .ex vs (swapF p c f)
def swapFL (p c : Nat) : List Form → List Form
  | [] => []
  | f :: fs => swapF p c f :: swapFL p c fs
end

theorem swapTL_eq (p c : Nat) (l : List Term) : swapTL p c l = l.map (swapT p c) := by
  induction l with
  | nil => rfl
  | cons a l ih => simp [swapTL, ih]

theorem swapFL_eq (p c : Nat) (l : List Form) : swapFL p c l = l.map (swapF p c) := by
  induction l with
  | nil => rfl
  | cons a l ih => simp [swapFL, ih]

theorem map_id_of {α : Type} {g : α → α} {l : List α} (h : ∀ a ∈ l, g a = a) : l.map g = l := by
  induction l with
  | nil => rfl
  | cons a l ih => simp only [List.map_cons, h a (by simp), ih (fun b hb => h b (by simp [hb]))]

theorem swapT_absent {p c : Nat} {t : Term} (h : p ∉ t.funs) : swapT p c t = t := by
  induction t using Term.ind with
  | var i => rfl
  | mv i => rfl
  | fn q tys args ih =>
    simp only [Term.funs, List.mem_cons, not_or, Term.mem_funsL, not_exists, not_and] at h
    simp only [swapT, if_neg (Ne.symm h.1), swapTL_eq]
    rw [map_id_of (fun a ha => ih a ha (h.2 a ha))]

theorem swapF_absent {p c : Nat} {f : Form} (h : p ∉ f.funs) : swapF p c f = f := by
  induction f using Form.ind with
  | pred q tys args =>
    simp only [Form.funs, Term.mem_funsL, not_exists, not_and] at h
    simp only [swapF, swapTL_eq]
    rw [map_id_of (fun a ha => swapT_absent (h a ha))]
  | top => rfl
  | bot => rfl
  | neg f ih => simp only [swapF]; rw [ih h]
  | and fs ih =>
    simp only [Form.funs, Form.mem_funsL, not_exists, not_and] at h
    simp only [swapF, swapFL_eq]
    rw [map_id_of (fun f hf => ih f hf (h f hf))]
  | or fs ih =>
    simp only [Form.funs, Form.mem_funsL, not_exists, not_and] at h
    simp only [swapF, swapFL_eq]
    rw [map_id_of (fun f hf => ih f hf (h f hf))]
  | imp f g ihf ihg =>
    simp only [Form.funs, List.mem_append, not_or] at h
    simp only [swapF]; rw [ihf h.1, ihg h.2]
  | equ f g ihf ihg =>
    simp only [Form.funs, List.mem_append, not_or] at h
    simp only [swapF]; rw [ihf h.1, ihg h.2]
  | all vs f ih => simp only [swapF]; rw [ih h]
  | ex vs f ih => simp only [swapF]; rw [ih h]

theorem swapT_funs {p c q : Nat} {t : Term} (h : q ∈ (swapT p c t).funs) : q = c ∨ (q ∈ t.funs ∧ q ≠ p) := by
  induction t using Term.ind with
  | var i => simp [swapT, Term.funs] at h
  | mv i => simp [swapT, Term.funs] at h
  | fn r tys args ih =>
    simp only [swapT] at h
    split at h
    · simp only [Term.funs, Term.funsL, List.mem_singleton] at h; exact .inl h
    · rename_i hr
      simp only [Term.funs, List.mem_cons, Term.mem_funsL, swapTL_eq, List.mem_map] at h ⊢
      rcases h with rfl | ⟨_, ⟨a, ha, rfl⟩, h⟩
      · exact .inr ⟨.inl rfl, hr⟩
      · exact (ih a ha h).imp id (fun h => ⟨.inr ⟨a, ha, h.1⟩, h.2⟩)

theorem swapF_funs {p c q : Nat} {f : Form} (h : q ∈ (swapF p c f).funs) : q = c ∨ (q ∈ f.funs ∧ q ≠ p) := by
  induction f using Form.ind with
  | pred r tys args =>
    simp only [swapF, Form.funs, Term.mem_funsL, swapTL_eq, List.mem_map] at h ⊢
    obtain ⟨_, ⟨a, ha, rfl⟩, h⟩ := h
    exact (swapT_funs h).imp id (fun h => ⟨⟨a, ha, h.1⟩, h.2⟩)
  | top => simp [swapF, Form.funs] at h
  | bot => simp [swapF, Form.funs] at h
  | neg f ih => exact ih h
  | and fs ih =>
    simp only [swapF, Form.funs, Form.mem_funsL, swapFL_eq, List.mem_map] at h ⊢
    obtain ⟨_, ⟨a, ha, rfl⟩, h⟩ := h
    exact (ih a ha h).imp id (fun h => ⟨⟨a, ha, h.1⟩, h.2⟩)
  | or fs ih =>
    simp only [swapF, Form.funs, Form.mem_funsL, swapFL_eq, List.mem_map] at h ⊢
    obtain ⟨_, ⟨a, ha, rfl⟩, h⟩ := h
    exact (ih a ha h).imp id (fun h => ⟨⟨a, ha, h.1⟩, h.2⟩)
  | imp f g ihf ihg =>
    simp only [swapF, Form.funs, List.mem_append] at h ⊢
    rcases h with h | h
    · exact (ihf h).imp id (fun h => ⟨.inl h.1, h.2⟩)
    · exact (ihg h).imp id (fun h => ⟨.inr h.1, h.2⟩)
  | equ f g ihf ihg =>
    simp only [swapF, Form.funs, List.mem_append] at h ⊢
    rcases h with h | h
    · exact (ihf h).imp id (fun h => ⟨.inl h.1, h.2⟩)
    · exact (ihg h).imp id (fun h => ⟨.inr h.1, h.2⟩)
  | all vs f ih => exact ih h
  | ex vs f ih => exact ih h

theorem swapFL_funs {p c q : Nat} {l : List Form} (h : q ∈ Form.funsL (l.map (swapF p c))) :
    q = c ∨ (q ∈ Form.funsL l ∧ q ≠ p) := by
  obtain ⟨_, hm, hq⟩ := Form.mem_funsL.1 h
  obtain ⟨f, hf, rfl⟩ := List.mem_map.1 hm
  exact (swapF_funs hq).imp id (fun h => ⟨Form.mem_funsL.2 ⟨f, hf, h.1⟩, h.2⟩)

theorem swapT_vars {p c i : Nat} {t : Term} (h : i ∈ (swapT p c t).vars) : i ∈ t.vars := by
  induction t using Term.ind with
  | var j => exact h
  | mv j => exact h
  | fn r tys args ih =>
    simp only [swapT] at h
    split at h
    · simp [Term.vars, Term.varsL] at h
    · simp only [Term.vars, Term.mem_varsL, swapTL_eq, List.mem_map] at h ⊢
      obtain ⟨_, ⟨a, ha, rfl⟩, h⟩ := h
      exact ⟨a, ha, ih a ha h⟩

theorem swapF_binders {p c : Nat} {f : Form} : (swapF p c f).binders = f.binders := by
  induction f using Form.ind with
  | pred r tys args => rfl
  | top => rfl
  | bot => rfl
  | neg f ih => exact ih
  | and fs ih =>
    simp only [swapF, Form.binders, swapFL_eq]
    induction fs with
    | nil => rfl
    | cons a l ihl =>
      simp only [List.map_cons, Form.bindersL]
      rw [ih a (by simp), ihl (fun f hf => ih f (by simp [hf]))]
  | or fs ih =>
    simp only [swapF, Form.binders, swapFL_eq]
    induction fs with
    | nil => rfl
    | cons a l ihl =>
      simp only [List.map_cons, Form.bindersL]
      rw [ih a (by simp), ihl (fun f hf => ih f (by simp [hf]))]
  | imp f g ihf ihg => simp only [swapF, Form.binders]; rw [ihf, ihg]
  | equ f g ihf ihg => simp only [swapF, Form.binders]; rw [ihf, ihg]
  | all vs f ih => simp only [swapF, Form.binders]; rw [ih]
  | ex vs f ih => simp only [swapF, Form.binders]; rw [ih]

theorem swapF_allVars {p c i : Nat} {f : Form} (h : i ∈ allVars (swapF p c f)) : i ∈ allVars f := by
  induction f using Form.ind with
  | pred r tys args =>
    simp only [swapF, allVars, Term.mem_varsL, swapTL_eq, List.mem_map] at h ⊢
    obtain ⟨_, ⟨a, ha, rfl⟩, h⟩ := h
    exact ⟨a, ha, swapT_vars h⟩
  | top => exact h
  | bot => exact h
  | neg f ih => exact ih h
  | and fs ih =>
    simp only [swapF, allVars, mem_allVarsL, swapFL_eq, List.mem_map] at h ⊢
    obtain ⟨_, ⟨a, ha, rfl⟩, h⟩ := h
    exact ⟨a, ha, ih a ha h⟩
  | or fs ih =>
    simp only [swapF, allVars, mem_allVarsL, swapFL_eq, List.mem_map] at h ⊢
    obtain ⟨_, ⟨a, ha, rfl⟩, h⟩ := h
    exact ⟨a, ha, ih a ha h⟩
  | imp f g ihf ihg =>
    simp only [swapF, allVars, List.mem_append] at h ⊢
    exact h.imp ihf ihg
  | equ f g ihf ihg =>
    simp only [swapF, allVars, List.mem_append] at h ⊢
    exact h.imp ihf ihg
  | all vs f ih => exact ih h
  | ex vs f ih => exact ih h

/-! ## The replacement functions of the code -/

theorem replT_swapT {p c : Nat} {tys : List Ty} {args : List Term} (hpc : p ≠ c) {t : Term} (hv : p ∉ t.vars) :
    (replT (.fn p tys args) (.fn c [] []) t).1 = swapT p c t := by
  induction t using Term.ind with
  | var i =>
    simp only [Term.vars, List.mem_singleton] at hv
    simp [replT, swapT, Term.index, hv]
  | mv i =>
    have : ¬ (Term.fn p tys args = .fn c [] []) := by
      intro e; cases e; exact hpc rfl
    simp [replT, swapT, this]
  | fn q ty as ih =>
    simp only [Term.vars, Term.mem_varsL, not_exists, not_and] at hv
    simp only [replT, swapT, Term.index]
    by_cases h : q = p
    · simp [h]
    · have h' : ¬ p = q := fun e => h e.symm
      simp only [if_neg h, if_neg h', replTL_fst, swapTL_eq]
      congr 1
      exact List.map_congr_left (fun a ha => ih a ha (hv a ha))

theorem repl_swapF {p c : Nat} {tys : List Ty} {args : List Term} (hpc : p ≠ c) {f : Form} (hv : p ∉ allVars f) :
    repl (.fn p tys args) (.fn c [] []) f = swapF p c f := by
  unfold repl
  induction f using Form.ind with
  | pred q ty as =>
    simp only [allVars, Term.mem_varsL, not_exists, not_and] at hv
    simp only [Form.replaceTermByTerm, swapF, replTL_fst, swapTL_eq]
    congr 1
    exact List.map_congr_left (fun a ha => replT_swapT hpc (hv a ha))
  | top => rfl
  | bot => rfl
  | neg f ih => simp only [Form.replaceTermByTerm, swapF]; rw [ih hv]
  | and fs ih =>
    simp only [allVars, mem_allVarsL, not_exists, not_and] at hv
    simp only [Form.replaceTermByTerm, swapF, Form.replaceTermByTermL_fst, swapFL_eq]
    congr 1
    exact List.map_congr_left (fun a ha => ih a ha (hv a ha))
  | or fs ih =>
    simp only [allVars, mem_allVarsL, not_exists, not_and] at hv
    simp only [Form.replaceTermByTerm, swapF, Form.replaceTermByTermL_fst, swapFL_eq]
    congr 1
    exact List.map_congr_left (fun a ha => ih a ha (hv a ha))
  | imp f g ihf ihg =>
    simp only [allVars, List.mem_append, not_or] at hv
    simp only [Form.replaceTermByTerm, swapF]; rw [ihf hv.1, ihg hv.2]
  | equ f g ihf ihg =>
    simp only [allVars, List.mem_append, not_or] at hv
    simp only [Form.replaceTermByTerm, swapF]; rw [ihf hv.1, ihg hv.2]
  | all vs f ih => simp only [Form.replaceTermByTerm, swapF]; rw [ih hv]
  | ex vs f ih => simp only [Form.replaceTermByTerm, swapF]; rw [ih hv]

/-- Instances and the replacement of a symbol. -/
theorem swapT_instT {p c x : Nat} {u t : Term} (hx : x ∉ t.funs) (hxc : x ≠ c) (hu : u.vars = []) :
    swapT p c (replT (.var x) u t).1 = (replT (.var x) (swapT p c u) (swapT p c t)).1 := by
  have hu1 : ¬ (Term.var x = u) := by rintro rfl; simp [Term.vars] at hu
  have hu2 : ¬ (Term.var x = swapT p c u) := by
    intro e
    have : x ∈ (swapT p c u).vars := by rw [← e]; simp [Term.vars]
    have := swapT_vars this
    rw [hu] at this
    cases this
  induction t using Term.ind with
  | var i =>
    simp only [replT_var_fst, swapT]
    split <;> rfl
  | mv i => simp only [replT, swapT, if_neg hu1, if_neg hu2]
  | fn q tys args ih =>
    simp only [Term.funs, List.mem_cons, not_or, Term.mem_funsL, not_exists, not_and] at hx
    rw [replT_fn_fst, if_neg hx.1]
    simp only [swapT]
    split
    · rw [replT_fn_fst, if_neg hxc]; rfl
    · rw [replT_fn_fst, if_neg hx.1, swapTL_eq, swapTL_eq, List.map_map, List.map_map]
      congr 1
      exact List.map_congr_left (fun a ha => ih a ha (hx.2 a ha))

theorem swapF_inst {p c x : Nat} {u : Term} {f : Form} (hx : x ∉ f.funs) (hxc : x ≠ c) (hu : u.vars = []) :
    swapF p c (repl (.var x) u f) = repl (.var x) (swapT p c u) (swapF p c f) := by
  unfold repl
  induction f using Form.ind with
  | pred q tys args =>
    simp only [Form.funs, Term.mem_funsL, not_exists, not_and] at hx
    simp only [Form.replaceTermByTerm, swapF, replTL_fst, swapTL_eq, List.map_map]
    congr 1
    exact List.map_congr_left (fun a ha => swapT_instT (hx a ha) hxc hu)
  | top => rfl
  | bot => rfl
  | neg f ih => simp only [Form.replaceTermByTerm, swapF]; rw [ih hx]
  | and fs ih =>
    simp only [Form.funs, Form.mem_funsL, not_exists, not_and] at hx
    simp only [Form.replaceTermByTerm, swapF, Form.replaceTermByTermL_fst, swapFL_eq, List.map_map]
    congr 1
    exact List.map_congr_left (fun a ha => ih a ha (hx a ha))
  | or fs ih =>
    simp only [Form.funs, Form.mem_funsL, not_exists, not_and] at hx
    simp only [Form.replaceTermByTerm, swapF, Form.replaceTermByTermL_fst, swapFL_eq, List.map_map]
    congr 1
    exact List.map_congr_left (fun a ha => ih a ha (hx a ha))
  | imp f g ihf ihg =>
    simp only [Form.funs, List.mem_append, not_or] at hx
    simp only [Form.replaceTermByTerm, swapF]; rw [ihf hx.1, ihg hx.2]
  | equ f g ihf ihg =>
    simp only [Form.funs, List.mem_append, not_or] at hx
    simp only [Form.replaceTermByTerm, swapF]; rw [ihf hx.1, ihg hx.2]
  | all vs f ih => simp only [Form.replaceTermByTerm, swapF]; rw [ih hx]
  | ex vs f ih => simp only [Form.replaceTermByTerm, swapF]; rw [ih hx]

theorem inst_varsT {x i : Nat} {u t : Term} (h : i ∈ (replT (.var x) u t).1.vars) : i ∈ t.vars ∨ i ∈ u.vars := by
  induction t using Term.ind with
  | var j =>
    rw [replT_var_fst] at h
    split at h
    · exact .inr h
    · exact .inl h
  | mv j =>
    simp only [replT] at h
    split at h
    · exact .inr h
    · exact .inl h
  | fn q tys args ih =>
    rw [replT_fn_fst] at h
    split at h
    · exact .inr h
    · simp only [Term.vars, Term.mem_varsL, List.mem_map] at h ⊢
      obtain ⟨_, ⟨a, ha, rfl⟩, h⟩ := h
      exact (ih a ha h).imp (fun h => ⟨a, ha, h⟩) id

theorem inst_allVars {x i : Nat} {u : Term} {f : Form} (h : i ∈ allVars (repl (.var x) u f)) :
    i ∈ allVars f ∨ i ∈ u.vars := by
  unfold repl at h
  induction f using Form.ind with
  | pred q tys args =>
    simp only [Form.replaceTermByTerm, allVars, replTL_fst, Term.mem_varsL, List.mem_map] at h ⊢
    obtain ⟨_, ⟨a, ha, rfl⟩, h⟩ := h
    exact (inst_varsT h).imp (fun h => ⟨a, ha, h⟩) id
  | top => exact .inl h
  | bot => exact .inl h
  | neg f ih => exact ih h
  | and fs ih =>
    simp only [Form.replaceTermByTerm, allVars, Form.replaceTermByTermL_fst, mem_allVarsL, List.mem_map] at h ⊢
    obtain ⟨_, ⟨a, ha, rfl⟩, h⟩ := h
    exact (ih a ha h).imp (fun h => ⟨a, ha, h⟩) id
  | or fs ih =>
    simp only [Form.replaceTermByTerm, allVars, Form.replaceTermByTermL_fst, mem_allVarsL, List.mem_map] at h ⊢
    obtain ⟨_, ⟨a, ha, rfl⟩, h⟩ := h
    exact (ih a ha h).imp (fun h => ⟨a, ha, h⟩) id
  | imp f g ihf ihg =>
    simp only [Form.replaceTermByTerm, allVars, List.mem_append] at h ⊢
    rcases h with h | h
    · exact (ihf h).imp .inl id
    · exact (ihg h).imp .inr id
  | equ f g ihf ihg =>
    simp only [Form.replaceTermByTerm, allVars, List.mem_append] at h ⊢
    rcases h with h | h
    · exact (ihf h).imp .inl id
    · exact (ihg h).imp .inr id
  | all vs f ih => exact ih h
  | ex vs f ih => exact ih h

/-! ## Replacing the recorded term -/

/-- `a` is a subterm of `t`. -/
inductive Sub (a : Term) : Term → Prop
  | refl : Sub a a
  | arg {q : Nat} {tys : List Ty} {args : List Term} {s : Term} : s ∈ args → Sub a s → Sub a (.fn q tys args)

/-- The symbol of `a` occurs at most once in `t`, and only in `a`. -/
def Once (a t : Term) : Prop := t.funs.count a.index ≤ 1 ∧ (a.index ∈ t.funs → Sub a t)

theorem Sub.funs {a t : Term} (h : Sub a t) {q : Nat} (hq : q ∈ a.funs) : q ∈ t.funs := by
  induction h with
  | refl => exact hq
  | arg hs _ ih => exact List.mem_cons_of_mem _ (Term.mem_funsL.2 ⟨_, hs, ih⟩)

theorem count_funsL_ge {p : Nat} {a : Term} : ∀ {l : List Term}, a ∈ l → a.funs.count p ≤ (Term.funsL l).count p
  | b :: l, h => by
    simp only [Term.funsL, List.count_append]
    rcases List.mem_cons.1 h with rfl | h
    · omega
    · have := count_funsL_ge (p := p) h; omega

theorem funsL_append (l m : List Term) : Term.funsL (l ++ m) = Term.funsL l ++ Term.funsL m := by
  induction l with
  | nil => rfl
  | cons a l ih => simp [Term.funsL, ih]

theorem count_two {p : Nat} {a b : Term} : ∀ {l : List Term}, a ∈ l → b ∈ l → a ≠ b →
    a.funs.count p + b.funs.count p ≤ (Term.funsL l).count p
  | d :: l, ha, hb, hne => by
    simp only [Term.funsL, List.count_append]
    rcases List.mem_cons.1 ha with rfl | ha' <;> rcases List.mem_cons.1 hb with rfl | hb'
    · exact absurd rfl hne
    · have := count_funsL_ge (p := p) hb'; omega
    · have := count_funsL_ge (p := p) ha'; omega
    · have := count_two (p := p) ha' hb' hne; omega

theorem replaceSub_absent {p : Nat} {tys : List Ty} {args : List Term} {new t : Term} (h : p ∉ t.funs) :
    Term.replaceSubTermBy (.fn p tys args) new t = t := by
  induction t using Term.ind with
  | var i => simp [Term.replaceSubTermBy]
  | mv i => simp [Term.replaceSubTermBy]
  | fn q ty as ih =>
    simp only [Term.funs, List.mem_cons, not_or, Term.mem_funsL, not_exists, not_and] at h
    have hne : ¬ (Term.fn q ty as = .fn p tys args) := by intro e; cases e; exact h.1 rfl
    simp only [Term.replaceSubTermBy, if_neg hne]
    congr 1
    have : ∀ l : List Term, (∀ a ∈ l, a ∈ as) → Term.replaceFirst (.fn p tys args) new l = l := by
      intro l
      induction l with
      | nil => intro _; rfl
      | cons a l ihl =>
        intro hl
        have ha := hl a (by simp)
        simp only [Term.replaceFirst, ih a ha (h.2 a ha), if_true, ihl (fun b hb => hl b (by simp [hb]))]
    exact this as (fun a ha => ha)

/-- The replacement of the recorded term is right when the term occurs once. -/
theorem replaceSub_once {p c : Nat} {tys : List Ty} {args : List Term} (hpc : p ≠ c) {t : Term}
    (h : Once (.fn p tys args) t) : Term.replaceSubTermBy (.fn p tys args) (.fn c [] []) t = swapT p c t := by
  have key : ∀ n (t : Term), sizeOf t ≤ n → Once (.fn p tys args) t →
      Term.replaceSubTermBy (.fn p tys args) (.fn c [] []) t = swapT p c t := by
    intro n
    induction n with
    | zero =>
      intro t ht _
      cases t <;> simp at ht
    | succ n ihn =>
      intro t ht h
      by_cases hp : p ∈ t.funs
      · obtain ⟨hc, hs⟩ := h
        simp only [Term.index] at hc hs
        specialize hs hp
        cases hs with
        | refl => simp [Term.replaceSubTermBy, swapT]
        | arg hs1 hs2 =>
          rename_i q ty as s
          have hps : p ∈ s.funs := hs2.funs (by simp [Term.funs])
          have hcs : 1 ≤ s.funs.count p := List.one_le_count_iff.2 hps
          simp only [Term.funs, List.count_cons] at hc
          have hge := count_funsL_ge (p := p) hs1
          have hq : ¬ q = p := by
            rintro rfl
            simp at hc
            omega
          have hqb : (q == p) = false := by simpa using hq
          rw [hqb] at hc
          simp only [Bool.false_eq_true, if_false, Nat.add_zero] at hc
          have hne : ¬ (Term.fn q ty as = .fn p tys args) := by intro e; cases e; exact hq rfl
          simp only [Term.replaceSubTermBy, if_neg hne, swapT, if_neg hq, swapTL_eq]
          congr 1
          have hsz : ∀ a ∈ as, sizeOf a ≤ n := by
            intro a ha
            have := List.sizeOf_lt_of_mem ha
            simp at ht
            omega
          have hlist : ∀ l : List Term, (∀ a ∈ l, a ∈ as) → (Term.funsL l).count p ≤ 1 →
              (∀ a ∈ l, p ∈ a.funs → a = s) →
              Term.replaceFirst (.fn p tys args) (.fn c [] []) l = l.map (swapT p c) := by
            intro l
            induction l with
            | nil => intro _ _ _; rfl
            | cons a l ihl =>
              intro hl hcl hal
              simp only [Term.funsL, List.count_append] at hcl
              by_cases hpa : p ∈ a.funs
              · have has := hal a (by simp) hpa
                subst has
                have hon : Once (.fn p tys args) a := ⟨by simp only [Term.index]; omega, fun _ => hs2⟩
                have h1 := ihn a (hsz a hs1) hon
                have hne : ¬ a = swapT p c a := by
                  intro e
                  rw [e] at hpa
                  rcases swapT_funs hpa with h | h
                  · exact hpc h
                  · exact h.2 rfl
                have h2 : 1 ≤ a.funs.count p := hcs
                have h3 : (Term.funsL l).count p = 0 := by omega
                simp only [Term.replaceFirst, h1, if_neg hne, List.map_cons]
                congr 1
                refine (map_id_of (fun b hb => swapT_absent ?_)).symm
                intro hpb
                exact (List.count_eq_zero.1 h3) (Term.mem_funsL.2 ⟨b, hb, hpb⟩)
              · simp only [Term.replaceFirst, replaceSub_absent hpa, if_true, List.map_cons, swapT_absent hpa]
                rw [ihl (fun b hb => hl b (by simp [hb])) (by omega) (fun b hb => hal b (by simp [hb]))]
          refine hlist as (fun a ha => ha) hc (fun a ha hpa => ?_)
          refine Classical.byContradiction fun hne' => ?_
          have := count_two (p := p) ha hs1 hne'
          have h1 : 1 ≤ a.funs.count p := List.one_le_count_iff.2 hpa
          omega
      · rw [replaceSub_absent hp, swapT_absent hp]
  exact key _ t (Nat.le_refl _) h

/-- The term is found again in the replaced term. -/
theorem sub_swap {p c : Nat} {tys : List Ty} {args : List Term} (hpc : p ≠ c) {a t : Term} (hs : Sub a t)
    (h : Once (.fn p tys args) t) {q : Nat} (hq : q ∈ a.funs) (hqo : q ∉ (Term.fn p tys args).funs) :
    Once (.fn p tys args) a ∧ Sub (swapT p c a) (swapT p c t) := by
  induction hs with
  | refl => exact ⟨h, .refl⟩
  | arg hm hs ih =>
    rename_i r ty as s
    have hr : ¬ r = p := by
      rintro rfl
      have hsub := h.2 (by simp [Term.index, Term.funs])
      cases hsub with
      | refl =>
        exact hqo (List.mem_cons_of_mem _ (Term.mem_funsL.2 ⟨s, hm, hs.funs hq⟩))
      | arg hm' hs' =>
        rename_i s'
        have h1 := h.1
        have h2 : r ∈ s'.funs := hs'.funs (by simp [Term.funs])
        have h3 : 1 ≤ s'.funs.count r := List.one_le_count_iff.2 h2
        have h4 := count_funsL_ge (p := r) hm'
        simp only [Term.index, Term.funs, List.count_cons, beq_self_eq_true, if_true] at h1
        omega
    have hos : Once (.fn p tys args) s := by
      have h1 := h.1
      simp only [Term.index, Term.funs, List.count_cons] at h1
      refine ⟨?_, ?_⟩
      · have := count_funsL_ge (p := p) hm
        simp only [Term.index]
        omega
      · simp only [Term.index]
        intro hp
        have hsub := h.2 (by
          simp only [Term.index, Term.funs]
          exact List.mem_cons_of_mem _ (Term.mem_funsL.2 ⟨s, hm, hp⟩))
        cases hsub with
        | refl => exact absurd rfl hr
        | arg hm' hs' =>
          rename_i s'
          by_cases he : s' = s
          · rw [← he]; exact hs'
          · exfalso
            have h2 : 1 ≤ s'.funs.count p := List.one_le_count_iff.2 (hs'.funs (by simp [Term.funs]))
            have h3 : 1 ≤ s.funs.count p := List.one_le_count_iff.2 hp
            have := count_two (p := p) hm' hm he
            omega
    obtain ⟨h1, h2⟩ := ih hos
    refine ⟨h1, ?_⟩
    simp only [swapT, if_neg hr, swapTL_eq]
    exact .arg (List.mem_map.2 ⟨s, hm, rfl⟩) h2

theorem swapT_count {p c q : Nat} (hq : q ≠ c) (t : Term) : (swapT p c t).funs.count q ≤ t.funs.count q := by
  induction t using Term.ind with
  | var i => simp [swapT]
  | mv i => simp [swapT]
  | fn r tys args ih =>
    simp only [swapT]
    split
    · simp [Term.funs, Term.funsL, Ne.symm hq]
    · simp only [Term.funs, List.count_cons, swapTL_eq]
      have : ∀ l : List Term, (∀ a ∈ l, a ∈ args) → (Term.funsL (l.map (swapT p c))).count q ≤ (Term.funsL l).count q := by
        intro l
        induction l with
        | nil => intro _; simp [Term.funsL]
        | cons a l ihl =>
          intro hl
          simp only [List.map_cons, Term.funsL, List.count_append]
          have := ih a (hl a (by simp))
          have := ihl (fun b hb => hl b (by simp [hb]))
          omega
      have := this args (fun a ha => ha)
      omega

/-- `Once` is kept when another term is replaced. -/
theorem once_swap {p c : Nat} {tys : List Ty} {args : List Term} (hpc : p ≠ c) {q : Nat} {ty : List Ty} {as : List Term}
    {t : Term} (ht : Once (.fn p tys args) t) (ha : Once (.fn q ty as) t) (hqc : q ≠ c)
    (hqo : q ∉ (Term.fn p tys args).funs) :
    Once (Term.replaceSubTermBy (.fn p tys args) (.fn c [] []) (.fn q ty as)) (swapT p c t) := by
  have hqp : ¬ q = p := fun e => hqo (by simp [Term.funs, e])
  have hne : ¬ (Term.fn q ty as = .fn p tys args) := by intro e; cases e; exact hqp rfl
  have hidx : (Term.replaceSubTermBy (.fn p tys args) (.fn c [] []) (.fn q ty as)).index = q := by
    simp only [Term.replaceSubTermBy, if_neg hne, Term.index]
  refine ⟨?_, ?_⟩
  · rw [hidx]
    exact Nat.le_trans (swapT_count hqc t) ha.1
  · rw [hidx]
    intro hq
    rcases swapT_funs hq with h | h
    · exact absurd h hqc
    · have hs := ha.2 h.1
      obtain ⟨h1, h2⟩ := sub_swap hpc hs ht (by simp [Term.funs]) hqo
      rw [replaceSub_once hpc h1]
      exact h2

end Verif.Tptp
