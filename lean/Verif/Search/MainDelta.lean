import Verif.Search.Tableau
import Verif.Search.IncrGround
/-!
# Formulas in which only the delta rule handles quantifiers

`∃` in positive and `∀` in negative places only (specification for `Verif.Search.MainGroundRun`), and what the rules make of such
formulas.
-/

namespace Verif.Search.Main
open Verif.AST Verif.Search
open Verif.Search.Incr (TPlain TPlainL TPlainL_iff Plain PlainL PlainL_iff)

mutual
/-- A term without metavariables and type arguments, the symbols having the right number of arguments. -/
def TOk (ar : Nat → Nat) : Term → Prop
  | .var _ => True
  | .mv _ => False
  | .fn p tys args => tys = [] ∧ args.length = ar p ∧ TOkL ar args
def TOkL (ar : Nat → Nat) : List Term → Prop
  | [] => True
  | t :: l => TOk ar t ∧ TOkL ar l
end

mutual
/-- In a formula that is asserted (`pol` is true) or denied all quantifiers assert the existence of something. The terms are without
metavariables; connectives have at least one and at most `B` arguments. -/
def Exist (ar : Nat → Nat) (B : Nat) : Bool → Form → Prop
  | _, .pred p tys args => tys = [] ∧ args.length = ar p ∧ TOkL ar args
  | _, .top => True
  | _, .bot => True
  | pol, .neg f => Exist ar B (!pol) f
  | pol, .and fs => fs ≠ [] ∧ fs.length ≤ B ∧ ExistL ar B pol fs
  | pol, .or fs => fs ≠ [] ∧ fs.length ≤ B ∧ ExistL ar B pol fs
  | pol, .imp f g => Exist ar B (!pol) f ∧ Exist ar B pol g
  | _, .equ f g => Exist ar B true f ∧ Exist ar B false f ∧ Exist ar B true g ∧ Exist ar B false g
  | pol, .all _ f => pol = false ∧ Exist ar B pol f
  | pol, .ex _ f => pol = true ∧ Exist ar B pol f
def ExistL (ar : Nat → Nat) (B : Nat) : Bool → List Form → Prop
  | _, [] => True
  | pol, f :: fs => Exist ar B pol f ∧ ExistL ar B pol fs
end

variable {ar : Nat → Nat} {B : Nat}

theorem ExistL_iff {pol : Bool} {l : List Form} : ExistL ar B pol l ↔ ∀ f ∈ l, Exist ar B pol f := by
  induction l with
  | nil => simp [ExistL]
  | cons f l ih => simp [ExistL, ih]

theorem TOkL_iff {l : List Term} : TOkL ar l ↔ ∀ t ∈ l, TOk ar t := by
  induction l with
  | nil => simp [TOkL]
  | cons f l ih => simp [TOkL, ih]

/-! ### Terms -/

mutual
theorem TOk.plain : ∀ {t : Term}, TOk ar t → (∀ i, i ∉ t.vars) → TPlain ar t
  | .var i, _, h => absurd (by simp [Term.vars]) (h i)
  | .mv _, h, _ => by simp [TOk] at h
  | .fn p tys args, h, hv => by
    simp only [TOk] at h
    exact ⟨h.1, h.2.1, TOkL.plain h.2.2 (by simpa [Term.vars] using hv)⟩
theorem TOkL.plain : ∀ {l : List Term}, TOkL ar l → (∀ i, i ∉ Term.varsL l) → TPlainL ar l
  | [], _, _ => trivial
  | t :: l, h, hv => by
    simp only [TOkL] at h
    simp only [Term.varsL, List.mem_append, not_or] at hv
    exact ⟨TOk.plain h.1 fun i => (hv i).1, TOkL.plain h.2 fun i => (hv i).2⟩
end

mutual
theorem TOk.metas : ∀ {t : Term}, TOk ar t → t.metas = []
  | .var i, _ => by simp [Term.metas]
  | .mv _, h => by simp [TOk] at h
  | .fn p tys args, h => by simp only [TOk] at h; simpa [Term.metas] using TOkL.metas h.2.2
theorem TOkL.metas : ∀ {l : List Term}, TOkL ar l → Term.metasL l = []
  | [], _ => by simp [Term.metasL]
  | t :: l, h => by simp only [TOkL] at h; simp [Term.metasL, TOk.metas h.1, TOkL.metas h.2]
end

mutual
theorem TOk.repl {x : Nat} {u : Term} (hu : TOk ar u) : ∀ {t : Term}, TOk ar t → TOk ar (replT (.var x) u t).1
  | .var i, _ => by simp only [replT]; split <;> simp [hu, TOk]
  | .mv _, h => by simp [TOk] at h
  | .fn p tys args, h => by
    have h' := h
    simp only [TOk] at h'
    simp only [replT]; split
    · exact hu
    · obtain ⟨a, b⟩ := TOkL.repl hu h'.2.2
      exact ⟨h'.1, by rw [b]; exact h'.2.1, a⟩
theorem TOkL.repl {x : Nat} {u : Term} (hu : TOk ar u) : ∀ {l : List Term}, TOkL ar l →
    TOkL ar (replTL (.var x) u l).1 ∧ (replTL (.var x) u l).1.length = l.length
  | [], _ => by simp [replTL, TOkL]
  | t :: l, h => by
    simp only [TOkL] at h
    have := TOkL.repl (x := x) hu h.2
    simp [replTL, TOkL, TOk.repl hu h.1, this]
end

/-! ### Formulas -/

theorem Exist.metas {f : Form} : ∀ {pol : Bool}, Exist ar B pol f → f.metas = [] := by
  induction f using Form.ind with
  | pred p tys args => intro pol h; simp only [Exist] at h; simpa [Form.metas] using TOkL.metas h.2.2
  | top => intro _ _; rfl
  | bot => intro _ _; rfl
  | neg f ih => intro pol h; simp only [Exist] at h; simpa [Form.metas] using ih h
  | and fs ih =>
    intro pol h; simp only [Exist, ExistL_iff] at h
    rw [List.eq_nil_iff_forall_not_mem]; intro i hi
    simp only [Form.metas, Form.mem_metasL] at hi
    obtain ⟨f, hf, hi⟩ := hi
    rw [ih f hf (h.2.2 f hf)] at hi; cases hi
  | or fs ih =>
    intro pol h; simp only [Exist, ExistL_iff] at h
    rw [List.eq_nil_iff_forall_not_mem]; intro i hi
    simp only [Form.metas, Form.mem_metasL] at hi
    obtain ⟨f, hf, hi⟩ := hi
    rw [ih f hf (h.2.2 f hf)] at hi; cases hi
  | imp f g ihf ihg => intro pol h; simp only [Exist] at h; simp [Form.metas, ihf h.1, ihg h.2]
  | equ f g ihf ihg => intro pol h; simp only [Exist] at h; simp [Form.metas, ihf h.1, ihg h.2.2.1]
  | all vs f ih => intro pol h; simp only [Exist] at h; simpa [Form.metas] using ih h.2
  | ex vs f ih => intro pol h; simp only [Exist] at h; simpa [Form.metas] using ih h.2

theorem Exist.repl {x : Nat} {u : Term} (hu : TOk ar u) {f : Form} : ∀ {pol : Bool}, Exist ar B pol f →
    Exist ar B pol (f.replaceTermByTerm (.var x) u).1 := by
  induction f using Form.ind with
  | pred p tys args =>
    intro pol h; simp only [Exist, Form.replaceTermByTerm] at h ⊢
    obtain ⟨a, b⟩ := TOkL.repl (x := x) hu h.2.2
    exact ⟨h.1, by rw [b]; exact h.2.1, a⟩
  | top => intro _ _; trivial
  | bot => intro _ _; trivial
  | neg f ih => intro pol h; simp only [Exist, Form.replaceTermByTerm] at h ⊢; exact ih h
  | and fs ih =>
    intro pol h
    simp only [Exist, Form.replaceTermByTerm, Form.replaceTermByTermL_fst, ExistL_iff, List.forall_mem_map, ne_eq, List.map_eq_nil_iff,
      List.length_map] at h ⊢
    exact ⟨h.1, h.2.1, fun f hf => ih f hf (h.2.2 f hf)⟩
  | or fs ih =>
    intro pol h
    simp only [Exist, Form.replaceTermByTerm, Form.replaceTermByTermL_fst, ExistL_iff, List.forall_mem_map, ne_eq, List.map_eq_nil_iff,
      List.length_map] at h ⊢
    exact ⟨h.1, h.2.1, fun f hf => ih f hf (h.2.2 f hf)⟩
  | imp f g ihf ihg => intro pol h; simp only [Exist, Form.replaceTermByTerm] at h ⊢; exact ⟨ihf h.1, ihg h.2⟩
  | equ f g ihf ihg =>
    intro pol h; simp only [Exist, Form.replaceTermByTerm] at h ⊢
    exact ⟨ihf h.1, ihf h.2.1, ihg h.2.2.1, ihg h.2.2.2⟩
  | all vs f ih => intro pol h; simp only [Exist, Form.replaceTermByTerm] at h ⊢; exact ⟨h.1, ih h.2⟩
  | ex vs f ih => intro pol h; simp only [Exist, Form.replaceTermByTerm] at h ⊢; exact ⟨h.1, ih h.2⟩

theorem Exist.alpha {f : Form} (h : Exist ar B true f) : ∀ g ∈ applyAlpha f, Exist ar B true g := by
  intro g hg
  unfold applyAlpha at hg
  split at hg <;> (try simp only [Exist, ExistL_iff, Bool.not_true, Bool.not_false] at h) <;>
    simp only [mem_appendNew, mem_foldl_appendNew, mem_foldl_appendNew_id, List.not_mem_nil, false_or] at hg
  · subst hg; exact h
  · obtain ⟨x, hx, rfl⟩ := hg; exact h.2.2 x hx
  · rcases hg with rfl | rfl
    · exact h.1
    · exact h.2
  · exact h.2.2 g hg

theorem Exist.beta {f : Form} (h : Exist ar B true f) : (applyBeta f).length ≤ max 2 B ∧ ∀ l ∈ applyBeta f, ∀ g ∈ l, Exist ar B true g := by
  unfold applyBeta
  split <;> (try simp only [Exist, ExistL_iff, Bool.not_true, Bool.not_false] at h)
  · refine ⟨by simp only [List.length_map]; omega, ?_⟩
    intro l hl g hg
    obtain ⟨x, hx, rfl⟩ := List.mem_map.1 hl
    simp only [List.mem_singleton] at hg; subst hg
    exact h.2.2 x hx
  · refine ⟨by simp only [List.length_cons, List.length_nil]; omega, ?_⟩
    simp [Exist]; tauto
  · refine ⟨by simp only [List.length_map]; omega, ?_⟩
    intro l hl g hg
    obtain ⟨x, hx, rfl⟩ := List.mem_map.1 hl
    simp only [List.mem_singleton] at hg; subst hg
    exact h.2.2 g hx
  · refine ⟨by simp only [List.length_cons, List.length_nil]; omega, ?_⟩
    simp [Exist]; tauto
  · refine ⟨by simp only [List.length_cons, List.length_nil]; omega, ?_⟩
    simp [Exist]; tauto
  · simp

theorem Exist.not_universal {f : Form} (h : Exist ar B true f) : ¬ IsUniversal f := by
  rintro (⟨vs, g, rfl⟩ | ⟨vs, g, rfl⟩) <;> simp [Exist] at h

theorem Exist.lit {f : Form} {pol : Bool} (h : Exist ar B pol f) (hl : IsLiteral f) (hc : ∀ i, i ∉ f.fvs) : Plain ar B f := by
  rcases hl with (⟨p, tys, args, rfl⟩ | rfl | rfl) | ⟨g, ⟨p, tys, args, rfl⟩ | rfl | rfl, rfl⟩
  · simp only [Exist] at h
    exact ⟨h.1, h.2.1, h.2.2.plain (by simpa [Form.fvs] using hc)⟩
  · trivial
  · trivial
  · simp only [Exist] at h
    exact ⟨h.1, h.2.1, h.2.2.plain (by simpa [Form.fvs] using hc)⟩
  · trivial
  · trivial

theorem exs_exist {vs : List TVar} {f : Form} (h : Exist ar B true f) : Exist ar B true (exs vs f) := by
  unfold exs; split <;> simp [Exist, h]
theorem alls_exist {vs : List TVar} {f : Form} (h : Exist ar B false f) : Exist ar B false (alls vs f) := by
  unfold alls; split <;> simp [Exist, h]

/-- The body of a formula the delta rule is for. -/
theorem deltaParts_exist {F : Form} {v : TVar} {b : Form} (h : deltaParts F = some (v, b)) (hF : Exist ar B true F) : Exist ar B true b := by
  unfold deltaParts at h
  split at h <;> cases h
  · simp only [Exist, Bool.not_true, true_and] at hF ⊢; exact alls_exist hF
  · simp only [Exist, true_and] at hF; exact exs_exist hF

/-! ### Well-formed formulas -/

theorem WF.good {f : Form} {c : Nat} (h : WF f c) : Search.Good (fun i => i ∈ f.binders) c (fun _ => True) f :=
  ⟨h.fo, h.nodup, fun _ hi => hi, fun i hi => ⟨h.funs i hi, fun hb => (h.binders i hb).2 hi⟩, h.closed, fun _ _ => trivial⟩

theorem WF.alpha {f : Form} {c : Nat} (h : WF f c) : ∀ g ∈ applyAlpha f, WF g c := fun _ hg =>
  ((WF.good h).alpha hg).wf fun i hi => (h.binders i hi).1

theorem WF.beta {f : Form} {c : Nat} (h : WF f c) : ∀ l ∈ applyBeta f, ∀ g ∈ l, WF g c := fun _ hl _ hg =>
  ((WF.good h).beta hl hg).wf fun i hi => (h.binders i hi).1

/-! ### Steps of the delta rule -/

theorem weight_repl {old new : Term} {f : Form} : ∀ {b : Bool}, weight b (f.replaceTermByTerm old new).1 = weight b f := by
  have hL : ∀ (fs : List Form), (∀ f ∈ fs, ∀ {b : Bool}, weight b (f.replaceTermByTerm old new).1 = weight b f) → ∀ b,
      weightL b (fs.map fun f => (f.replaceTermByTerm old new).1) = weightL b fs := by
    intro fs
    induction fs with
    | nil => intro _ _; rfl
    | cons f fs ih => intro h b; simp only [List.map_cons, weightL, h f (by simp), ih fun g hg => h g (by simp [hg])]
  induction f using Form.ind with
  | pred p tys args => intro b; simp [Form.replaceTermByTerm, weight]
  | top => intro b; rfl
  | bot => intro b; rfl
  | neg f ih => intro b; simp only [Form.replaceTermByTerm, weight, ih]
  | and fs ih => intro b; simp only [Form.replaceTermByTerm, Form.replaceTermByTermL_fst, weight, hL fs ih]
  | or fs ih => intro b; simp only [Form.replaceTermByTerm, Form.replaceTermByTermL_fst, weight, hL fs ih]
  | imp f g ihf ihg => intro b; simp only [Form.replaceTermByTerm, weight, ihf, ihg]
  | equ f g ihf ihg => intro b; simp only [Form.replaceTermByTerm, weight, ihf, ihg]
  | all vs f ih => intro b; simp only [Form.replaceTermByTerm, weight, ih]
  | ex vs f ih => intro b; simp only [Form.replaceTermByTerm, weight, ih]

theorem weight_deltaParts {F : Form} {v : TVar} {b : Form} (h : deltaParts F = some (v, b)) : weight true b + 1 = weight true F := by
  have h1 : ∀ (vs : List TVar) (f : Form) (p : Bool), weight p (exs vs f) = vs.length + weight p f := by
    intro vs f p; cases vs <;> simp [exs, weight]
  have h2 : ∀ (vs : List TVar) (f : Form) (p : Bool), weight p (alls vs f) = vs.length + weight p f := by
    intro vs f p; cases vs <;> simp [alls, weight]
  unfold deltaParts at h
  split at h <;> cases h
  · simp [weight, h2]; omega
  · simp [weight, h1]; omega

/-- **The delta rule on such a formula**, without metavariables on the branch: the Skolem constant is new. -/
theorem delta_step {F : Form} {c : Nat} (hF : Exist ar B true F) (hw : WF F c) (hx : IsExistential F) (har : ar c = 0) :
    ∃ g, skolemize c [] F = some g ∧ Exist ar B true g ∧ WF g (c + 1) ∧ weight true g < weight true F ∧
      (∀ (D : Type u) (I : Interp D) (μ ρ : Nat → D), Form.holds I μ ρ g → Form.holds I μ ρ F) ∧
      ∀ (D : Type u) (I : Interp D), ∃ J : Interp D, J.pr = I.pr ∧ (∀ p, p ≠ c → J.fn p = I.fn p) ∧
        ∀ μ ρ : Nat → D, Form.holds I μ ρ F → Form.holds J μ ρ g := by
  obtain ⟨v, b, hp⟩ := deltaParts_isSome hw hx
  obtain ⟨w, -⟩ := deltaParts_wf hp hw
  have hsk := skolemize_parts (sk := c) (args := []) hp
  obtain ⟨g, hg, hI⟩ := C22_delta_partial.{u} F c c [] hw hx (fun h => Nat.lt_irrefl _ (hw.funs c h)) (by simp [hF.metas])
  rw [hsk] at hg
  have hg := Option.some.inj hg
  rw [hg] at hsk
  refine ⟨g, hsk, ?_, ?_, ?_, ?_, hI⟩
  · have hu : TOk ar (.fn c [] (List.map Term.mv [])) := ⟨rfl, by simp [har], trivial⟩
    rw [← hg]; exact (deltaParts_exist hp hF).repl hu
  · rw [← hg]; exact w.replace (Nat.le_succ c) (by simp [Term.vars, Term.varsL]) (by simp [Term.funs, Term.funsL])
  · rw [← hg, weight_repl]; have := weight_deltaParts hp; omega
  · intro D I μ ρ h
    rw [← hg, holds_replaceTermByTerm (w.binders v.index (by simp)).2 (List.nodup_cons.1 w.nodup).1 (by simp)
      (by simp [Term.vars, Term.varsL])] at h
    exact (holds_deltaParts hp).2 ⟨_, h⟩

end Verif.Search.Main
