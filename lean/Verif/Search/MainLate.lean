import Verif.Search.MainSound
/-!
# C65 for formulas without disjunctions under a universal quantifier

`NoSplit` formulas, with the connectives taken with their sign, have no disjunction; in `Late` formulas disjunctions are outside of the
universal quantifiers. The beta rule comes before the gamma rule (C24), so a branch of such a formula is split before it has
metavariables, and no substitution has to be agreed upon with the other branches. This file has the properties of these formulas.

`V s p` says that literals of sign `s` and predicate `p` may be under a universal quantifier, hence may have metavariables. It is used
to keep the index to queries it answers rightly (C30).
-/

namespace Verif.Search.Main.Sound
open Verif.AST Verif.Search Verif.Unif Incr

/-! ### Formulas (specification) -/

mutual
/-- With sign `s`, the formula has no disjunction and no equivalence, and its literals are as `V` says. -/
def NoSplit (V : Bool → Nat → Prop) (s : Bool) : Form → Prop
  | .pred p _ _ => V s p
  | .top => True
  | .bot => True
  | .neg f => NoSplit V (!s) f
  | .and fs => s = true ∧ NoSplitL V s fs
  | .or fs => s = false ∧ NoSplitL V s fs
  | .imp f g => s = false ∧ NoSplit V (!s) f ∧ NoSplit V s g
  | .equ _ _ => False
  | .all _ f => NoSplit V s f
  | .ex _ f => NoSplit V s f
def NoSplitL (V : Bool → Nat → Prop) (s : Bool) : List Form → Prop
  | [] => True
  | f :: fs => NoSplit V s f ∧ NoSplitL V s fs
end

mutual
/-- With sign `s`, no disjunction and no equivalence is under a universal quantifier, and the literals there are as `V` says. -/
def Late (V : Bool → Nat → Prop) (s : Bool) : Form → Prop
  | .pred _ _ _ => True
  | .top => True
  | .bot => True
  | .neg f => Late V (!s) f
  | .and fs => LateL V s fs
  | .or fs => LateL V s fs
  | .imp f g => Late V (!s) f ∧ Late V s g
  | .equ f g => (Late V true f ∧ Late V false f) ∧ Late V true g ∧ Late V false g
  | .all _ f => if s then NoSplit V s f else Late V s f
  | .ex _ f => if s then Late V s f else NoSplit V s f
def LateL (V : Bool → Nat → Prop) (s : Bool) : List Form → Prop
  | [] => True
  | f :: fs => Late V s f ∧ LateL V s fs
end

mutual
/-- The symbols of a term are below `c`, have no type arguments and one arity, and its metavariables satisfy `M`. -/
def TSig (M : Nat → Prop) (ar : Nat → Nat) (c : Nat) : Term → Prop
  | .var _ => True
  | .mv i => M i
  | .fn p tys args => p < c ∧ tys = [] ∧ args.length = ar p ∧ TSigL M ar c args
def TSigL (M : Nat → Prop) (ar : Nat → Nat) (c : Nat) : List Term → Prop
  | [] => True
  | t :: l => TSig M ar c t ∧ TSigL M ar c l
end

mutual
/-- The same for a formula, which does not have the predicate `eq`. -/
def Sig (M : Nat → Prop) (ar : Nat → Nat) (eq c : Nat) : Form → Prop
  | .pred p tys args => p < c ∧ p ≠ eq ∧ tys = [] ∧ args.length = ar p ∧ TSigL M ar c args
  | .top => True
  | .bot => True
  | .neg f => Sig M ar eq c f
  | .and fs => SigL M ar eq c fs
  | .or fs => SigL M ar eq c fs
  | .imp f g => Sig M ar eq c f ∧ Sig M ar eq c g
  | .equ f g => Sig M ar eq c f ∧ Sig M ar eq c g
  | .all _ f => Sig M ar eq c f
  | .ex _ f => Sig M ar eq c f
def SigL (M : Nat → Prop) (ar : Nat → Nat) (eq c : Nat) : List Form → Prop
  | [] => True
  | f :: fs => Sig M ar eq c f ∧ SigL M ar eq c fs
end

variable {V : Bool → Nat → Prop} {M M' : Nat → Prop} {ar ar' : Nat → Nat} {eq c c' : Nat}

theorem NoSplitL_iff {s : Bool} {l : List Form} : NoSplitL V s l ↔ ∀ f ∈ l, NoSplit V s f := by
  induction l with
  | nil => simp [NoSplitL]
  | cons f l ih => simp [NoSplitL, ih]

theorem LateL_iff {s : Bool} {l : List Form} : LateL V s l ↔ ∀ f ∈ l, Late V s f := by
  induction l with
  | nil => simp [LateL]
  | cons f l ih => simp [LateL, ih]

theorem SigL_iff {l : List Form} : SigL M ar eq c l ↔ ∀ f ∈ l, Sig M ar eq c f := by
  induction l with
  | nil => simp [SigL]
  | cons f l ih => simp [SigL, ih]

/-! ### Terms -/

mutual
theorem TSig.mono (hM : ∀ i, M i → M' i) (hc : c ≤ c') (ha : ∀ p, p < c → ar' p = ar p) : ∀ {t : Term}, TSig M ar c t → TSig M' ar' c' t
  | .var _, _ => by simp [TSig]
  | .mv i, h => by simp only [TSig] at h ⊢; exact hM i h
  | .fn p tys args, h => by
    simp only [TSig] at h ⊢
    exact ⟨Nat.lt_of_lt_of_le h.1 hc, h.2.1, by rw [ha p h.1]; exact h.2.2.1, TSigL.mono hM hc ha h.2.2.2⟩
theorem TSigL.mono (hM : ∀ i, M i → M' i) (hc : c ≤ c') (ha : ∀ p, p < c → ar' p = ar p) : ∀ {l : List Term}, TSigL M ar c l → TSigL M' ar' c' l
  | [], _ => by simp [TSigL]
  | t :: l, h => by
    simp only [TSigL] at h ⊢
    exact ⟨TSig.mono hM hc ha h.1, TSigL.mono hM hc ha h.2⟩
end

mutual
theorem TSig.metas : ∀ {t : Term}, TSig M ar c t → ∀ i ∈ t.metas, M i
  | .var _, _ => by simp [Term.metas]
  | .mv i, h => by simpa [Term.metas, TSig] using h
  | .fn p tys args, h => by
    simp only [TSig] at h
    simpa [Term.metas] using TSigL.metas h.2.2.2
theorem TSigL.metas : ∀ {l : List Term}, TSigL M ar c l → ∀ i ∈ Term.metasL l, M i
  | [], _ => by simp [Term.metasL]
  | t :: l, h => by
    simp only [TSigL] at h
    intro i hi
    simp only [Term.metasL, List.mem_append] at hi
    exact hi.elim (TSig.metas h.1 i) (TSigL.metas h.2 i)
end

mutual
theorem TSig.repl {x : Nat} {u : Term} (hu : TSig M ar c u) : ∀ {t : Term}, TSig M ar c t → TSig M ar c (replT (.var x) u t).1
  | .var i, _ => by simp only [replT]; split <;> simp [hu, TSig]
  | .mv i, h => by
    simp only [replT]; split
    · exact hu
    · exact h
  | .fn p tys args, h => by
    have h' := h
    simp only [TSig] at h'
    simp only [replT]; split
    · exact hu
    · obtain ⟨a, b⟩ := TSigL.repl hu h'.2.2.2
      exact ⟨h'.1, h'.2.1, by rw [b]; exact h'.2.2.1, a⟩
theorem TSigL.repl {x : Nat} {u : Term} (hu : TSig M ar c u) : ∀ {l : List Term}, TSigL M ar c l →
    TSigL M ar c (replTL (.var x) u l).1 ∧ (replTL (.var x) u l).1.length = l.length
  | [], _ => by simp [replTL, TSigL]
  | t :: l, h => by
    simp only [TSigL] at h
    have := TSigL.repl (x := x) hu h.2
    simp [replTL, TSigL, TSig.repl hu h.1, this]
end

mutual
theorem TSig.ut : ∀ {t : Term}, TSig M ar c t → (∀ i, i ∉ t.vars) → (utOf t).Ar ar ∧ (utOf t).occ = t.metas
  | .var i, _, h => absurd (by simp [Term.vars]) (h i)
  | .mv i, h, _ => by simp [utOf, UT.Ar, UT.occ, Term.metas]
  | .fn p tys args, h, hv => by
    simp only [TSig] at h
    obtain ⟨a, b, l⟩ := TSigL.ut h.2.2.2 (by simpa [Term.vars] using hv)
    simp only [utOf, UT.Ar, UT.occ, Term.metas]
    exact ⟨⟨by rw [l]; exact h.2.2.1, a⟩, b⟩
theorem TSigL.ut : ∀ {l : List Term}, TSigL M ar c l → (∀ i, i ∉ Term.varsL l) →
    UT.ArL ar (utOfL l) ∧ UT.occL (utOfL l) = Term.metasL l ∧ (utOfL l).length = l.length
  | [], _, _ => by simp [utOfL, UT.ArL, UT.occL, Term.metasL]
  | t :: l, h, hv => by
    simp only [TSigL] at h
    simp only [Term.varsL, List.mem_append, not_or] at hv
    obtain ⟨a, b⟩ := TSig.ut h.1 fun i => (hv i).1
    obtain ⟨a', b', l'⟩ := TSigL.ut h.2 fun i => (hv i).2
    simp [utOfL, UT.ArL, UT.occL, Term.metasL, a, b, a', b', l']
end

section
variable {D : Type u}

/-- The interpretation of the function symbols. -/
def algOf (I : Interp D) : Alg D := fun p l => I.fn p [] l

mutual
theorem TSig.eval (I : Interp D) (μ ρ : Nat → D) : ∀ {t : Term}, TSig M ar c t → (∀ i, i ∉ t.vars) →
    Term.eval I ρ μ t = (utOf t).eval (algOf I) μ
  | .var i, _, h => absurd (by simp [Term.vars]) (h i)
  | .mv i, h, _ => by simp [Term.eval, utOf, UT.eval]
  | .fn p tys args, h, hv => by
    simp only [TSig] at h
    simp only [Term.eval, utOf, UT.eval, algOf, h.2.1]
    rw [TSigL.eval I μ ρ h.2.2.2 (by simpa [Term.vars] using hv)]
theorem TSigL.eval (I : Interp D) (μ ρ : Nat → D) : ∀ {l : List Term}, TSigL M ar c l → (∀ i, i ∉ Term.varsL l) →
    Term.evalL I ρ μ l = UT.evalL (algOf I) μ (utOfL l)
  | [], _, _ => by simp [Term.evalL, utOfL, UT.evalL]
  | t :: l, h, hv => by
    simp only [TSigL] at h
    simp only [Term.varsL, List.mem_append, not_or] at hv
    simp only [Term.evalL, utOfL, UT.evalL, TSig.eval I μ ρ h.1 fun i => (hv i).1, TSigL.eval I μ ρ h.2 fun i => (hv i).2]
end

/-- Atoms that have a common instance are not of opposite value for all values of the metavariables. -/
theorem clash {I : Interp D} (d0 : D) {p q : Nat} {as bs : List Term} (ha : TSigL M ar c as) (hb : TSigL M ar c bs)
    (va : ∀ i, i ∉ Term.varsL as) (vb : ∀ i, i ∉ Term.varsL bs) {σ : Nat → UT}
    (h : (Atom.term ⟨p, utOfL as⟩).inst σ = (Atom.term ⟨q, utOfL bs⟩).inst σ)
    (h1 : ∀ μ ρ, Form.holds I μ ρ (.pred p [] as)) (h2 : ∀ μ ρ, ¬ Form.holds I μ ρ (.pred q [] bs)) : False := by
  simp only [Atom.term, UT.inst, UT.eval, termAlg, UT.fn.injEq] at h
  obtain ⟨rfl, h⟩ := h
  let μ : Nat → D := fun i => (σ i).eval (algOf I) fun _ => d0
  have key : ∀ l : List UT, UT.evalL (algOf I) (fun _ => d0) (UT.evalL UT.fn σ l) = UT.evalL (algOf I) μ l := by
    intro l
    simp only [UT.evalL_eq, List.map_map]
    apply List.map_congr_left
    intro t _
    exact UT.eval_inst (algOf I) (fun _ => d0) σ t
  have h1 := h1 μ (fun _ => d0)
  have h2 := h2 μ (fun _ => d0)
  simp only [Form.holds] at h1 h2
  rw [TSigL.eval I μ _ ha va, ← key, h, key, ← TSigL.eval I μ (fun _ => d0) hb vb] at h1
  exact h2 h1

end

/-! ### Formulas -/

theorem Sig.mono (hM : ∀ i, M i → M' i) (hc : c ≤ c') (ha : ∀ p, p < c → ar' p = ar p) {f : Form} (h : Sig M ar eq c f) : Sig M' ar' eq c' f := by
  induction f using Form.ind with
  | pred p tys args => exact ⟨Nat.lt_of_lt_of_le h.1 hc, h.2.1, h.2.2.1, by rw [ha p h.1]; exact h.2.2.2.1, h.2.2.2.2.mono hM hc ha⟩
  | top => trivial
  | bot => trivial
  | neg f ih => exact ih h
  | and fs ih => simp only [Sig, SigL_iff] at h ⊢; exact fun f hf => ih f hf (h f hf)
  | or fs ih => simp only [Sig, SigL_iff] at h ⊢; exact fun f hf => ih f hf (h f hf)
  | imp f g ihf ihg => exact ⟨ihf h.1, ihg h.2⟩
  | equ f g ihf ihg => exact ⟨ihf h.1, ihg h.2⟩
  | all vs f ih => exact ih h
  | ex vs f ih => exact ih h

theorem Sig.metas {f : Form} (h : Sig M ar eq c f) : ∀ i ∈ f.metas, M i := by
  induction f using Form.ind with
  | pred p tys args => simpa [Form.metas] using h.2.2.2.2.metas
  | top => simp [Form.metas]
  | bot => simp [Form.metas]
  | neg f ih => simpa [Form.metas] using ih h
  | and fs ih =>
    simp only [Sig, SigL_iff] at h
    intro i hi; simp only [Form.metas, Form.mem_metasL] at hi
    obtain ⟨f, hf, hi⟩ := hi; exact ih f hf (h f hf) i hi
  | or fs ih =>
    simp only [Sig, SigL_iff] at h
    intro i hi; simp only [Form.metas, Form.mem_metasL] at hi
    obtain ⟨f, hf, hi⟩ := hi; exact ih f hf (h f hf) i hi
  | imp f g ihf ihg =>
    intro i hi; simp only [Form.metas, List.mem_append] at hi
    exact hi.elim (ihf h.1 i) (ihg h.2 i)
  | equ f g ihf ihg =>
    intro i hi; simp only [Form.metas, List.mem_append] at hi
    exact hi.elim (ihf h.1 i) (ihg h.2 i)
  | all vs f ih => simpa [Form.metas] using ih h
  | ex vs f ih => simpa [Form.metas] using ih h

theorem Sig.repl {x : Nat} {u : Term} (hu : TSig M ar c u) {f : Form} (h : Sig M ar eq c f) : Sig M ar eq c (f.replaceTermByTerm (.var x) u).1 := by
  induction f using Form.ind with
  | pred p tys args =>
    simp only [Sig, Form.replaceTermByTerm] at h ⊢
    obtain ⟨a, b⟩ := TSigL.repl (x := x) hu h.2.2.2.2
    exact ⟨h.1, h.2.1, h.2.2.1, by rw [b]; exact h.2.2.2.1, a⟩
  | top => trivial
  | bot => trivial
  | neg f ih => simp only [Sig, Form.replaceTermByTerm] at h ⊢; exact ih h
  | and fs ih =>
    simp only [Sig, Form.replaceTermByTerm, Form.replaceTermByTermL_fst, SigL_iff, List.forall_mem_map] at h ⊢
    exact fun f hf => ih f hf (h f hf)
  | or fs ih =>
    simp only [Sig, Form.replaceTermByTerm, Form.replaceTermByTermL_fst, SigL_iff, List.forall_mem_map] at h ⊢
    exact fun f hf => ih f hf (h f hf)
  | imp f g ihf ihg => simp only [Sig, Form.replaceTermByTerm] at h ⊢; exact ⟨ihf h.1, ihg h.2⟩
  | equ f g ihf ihg => simp only [Sig, Form.replaceTermByTerm] at h ⊢; exact ⟨ihf h.1, ihg h.2⟩
  | all vs f ih => simp only [Sig, Form.replaceTermByTerm] at h ⊢; exact ih h
  | ex vs f ih => simp only [Sig, Form.replaceTermByTerm] at h ⊢; exact ih h

theorem NoSplit.repl {old new : Term} {f : Form} : ∀ {s : Bool}, NoSplit V s f → NoSplit V s (f.replaceTermByTerm old new).1 := by
  induction f using Form.ind with
  | pred p tys args => intro s h; exact h
  | top => intro _ _; trivial
  | bot => intro _ _; trivial
  | neg f ih => intro s h; simp only [NoSplit, Form.replaceTermByTerm] at h ⊢; exact ih h
  | and fs ih =>
    intro s h
    simp only [NoSplit, Form.replaceTermByTerm, Form.replaceTermByTermL_fst, NoSplitL_iff, List.forall_mem_map] at h ⊢
    exact ⟨h.1, fun f hf => ih f hf (h.2 f hf)⟩
  | or fs ih =>
    intro s h
    simp only [NoSplit, Form.replaceTermByTerm, Form.replaceTermByTermL_fst, NoSplitL_iff, List.forall_mem_map] at h ⊢
    exact ⟨h.1, fun f hf => ih f hf (h.2 f hf)⟩
  | imp f g ihf ihg => intro s h; simp only [NoSplit, Form.replaceTermByTerm] at h ⊢; exact ⟨h.1, ihf h.2.1, ihg h.2.2⟩
  | equ f g ihf ihg => intro s h; simp [NoSplit] at h
  | all vs f ih => intro s h; simp only [NoSplit, Form.replaceTermByTerm] at h ⊢; exact ih h
  | ex vs f ih => intro s h; simp only [NoSplit, Form.replaceTermByTerm] at h ⊢; exact ih h

theorem Late.repl {old new : Term} {f : Form} : ∀ {s : Bool}, Late V s f → Late V s (f.replaceTermByTerm old new).1 := by
  induction f using Form.ind with
  | pred p tys args => intro s h; exact h
  | top => intro _ _; trivial
  | bot => intro _ _; trivial
  | neg f ih => intro s h; simp only [Late, Form.replaceTermByTerm] at h ⊢; exact ih h
  | and fs ih =>
    intro s h
    simp only [Late, Form.replaceTermByTerm, Form.replaceTermByTermL_fst, LateL_iff, List.forall_mem_map] at h ⊢
    exact fun f hf => ih f hf (h f hf)
  | or fs ih =>
    intro s h
    simp only [Late, Form.replaceTermByTerm, Form.replaceTermByTermL_fst, LateL_iff, List.forall_mem_map] at h ⊢
    exact fun f hf => ih f hf (h f hf)
  | imp f g ihf ihg => intro s h; simp only [Late, Form.replaceTermByTerm] at h ⊢; exact ⟨ihf h.1, ihg h.2⟩
  | equ f g ihf ihg =>
    intro s h; simp only [Late, Form.replaceTermByTerm] at h ⊢
    exact ⟨⟨ihf h.1.1, ihf h.1.2⟩, ihg h.2.1, ihg h.2.2⟩
  | all vs f ih =>
    intro s h; simp only [Late, Form.replaceTermByTerm] at h ⊢
    cases s
    · simp only [Bool.false_eq_true, if_false] at h ⊢; exact ih h
    · simp only [if_true] at h ⊢; exact h.repl
  | ex vs f ih =>
    intro s h; simp only [Late, Form.replaceTermByTerm] at h ⊢
    cases s
    · simp only [Bool.false_eq_true, if_false] at h ⊢; exact h.repl
    · simp only [if_true] at h ⊢; exact ih h

theorem Sig.alpha {f : Form} (h : Sig M ar eq c f) : ∀ g ∈ applyAlpha f, Sig M ar eq c g := by
  intro g hg
  unfold applyAlpha at hg
  split at hg <;> (try simp only [Sig, SigL_iff] at h) <;>
    simp only [mem_appendNew, mem_foldl_appendNew, mem_foldl_appendNew_id, List.not_mem_nil, false_or] at hg
  · subst hg; exact h
  · obtain ⟨x, hx, rfl⟩ := hg; exact h x hx
  · rcases hg with rfl | rfl
    · exact h.1
    · exact h.2
  · exact h g hg

theorem NoSplit.alpha {f : Form} (h : NoSplit V true f) : ∀ g ∈ applyAlpha f, NoSplit V true g := by
  intro g hg
  unfold applyAlpha at hg
  split at hg <;> (try simp only [NoSplit, NoSplitL_iff, Bool.not_true, Bool.not_false] at h) <;>
    simp only [mem_appendNew, mem_foldl_appendNew, mem_foldl_appendNew_id, List.not_mem_nil, false_or] at hg
  · subst hg; exact h
  · obtain ⟨x, hx, rfl⟩ := hg; exact h.2 x hx
  · rcases hg with rfl | rfl
    · exact h.2.1
    · exact h.2.2
  · exact h.2 g hg

theorem Late.alpha {f : Form} (h : Late V true f) : ∀ g ∈ applyAlpha f, Late V true g := by
  intro g hg
  unfold applyAlpha at hg
  split at hg <;> (try simp only [Late, LateL_iff, Bool.not_true, Bool.not_false] at h) <;>
    simp only [mem_appendNew, mem_foldl_appendNew, mem_foldl_appendNew_id, List.not_mem_nil, false_or] at hg
  · subst hg; exact h
  · obtain ⟨x, hx, rfl⟩ := hg; exact h x hx
  · rcases hg with rfl | rfl
    · exact h.1
    · exact h.2
  · exact h g hg

theorem Sig.beta {f : Form} (h : Sig M ar eq c f) : ∀ l ∈ applyBeta f, ∀ g ∈ l, Sig M ar eq c g := by
  unfold applyBeta
  split <;> (try simp only [Sig, SigL_iff] at h)
  · intro l hl g hg
    obtain ⟨x, hx, rfl⟩ := List.mem_map.1 hl
    simp only [List.mem_singleton] at hg; subst hg
    exact h x hx
  · simp [Sig]; tauto
  · intro l hl g hg
    obtain ⟨x, hx, rfl⟩ := List.mem_map.1 hl
    simp only [List.mem_singleton] at hg; subst hg
    exact h g hx
  · simp [Sig]; tauto
  · simp [Sig]; tauto
  · simp

theorem Late.beta {f : Form} (h : Late V true f) : ∀ l ∈ applyBeta f, ∀ g ∈ l, Late V true g := by
  unfold applyBeta
  split <;> (try simp only [Late, LateL_iff, Bool.not_true, Bool.not_false] at h)
  · intro l hl g hg
    obtain ⟨x, hx, rfl⟩ := List.mem_map.1 hl
    simp only [List.mem_singleton] at hg; subst hg
    exact h x hx
  · simp [Late]; tauto
  · intro l hl g hg
    obtain ⟨x, hx, rfl⟩ := List.mem_map.1 hl
    simp only [List.mem_singleton] at hg; subst hg
    exact h g hx
  · simp [Late]; tauto
  · simp [Late]; tauto
  · simp

theorem NoSplit.not_disjunctive {f : Form} (h : NoSplit V true f) : ¬ IsDisjunctive f := by
  rintro (⟨fs, rfl⟩ | ⟨a, b, rfl⟩ | ⟨a, b, rfl⟩ | ⟨fs, rfl⟩ | ⟨a, b, rfl⟩) <;> simp [NoSplit] at h

theorem Late.universal {f : Form} (h : Late V true f) (hf : IsUniversal f) : NoSplit V true f := by
  rcases hf with ⟨vs, g, rfl⟩ | ⟨vs, g, rfl⟩ <;> simpa [Late, NoSplit] using h

theorem deltaParts_sig {F : Form} {v : TVar} {b : Form} (h : deltaParts F = some (v, b)) (hF : Sig M ar eq c F) : Sig M ar eq c b := by
  unfold deltaParts at h
  split at h <;> cases h
  · unfold alls; split <;> exact hF
  · unfold exs; split <;> exact hF

theorem deltaParts_noSplit {F : Form} {v : TVar} {b : Form} (h : deltaParts F = some (v, b)) (hF : NoSplit V true F) : NoSplit V true b := by
  unfold deltaParts at h
  split at h <;> cases h
  · unfold alls; split <;> exact hF
  · unfold exs; split <;> exact hF

theorem deltaParts_late {F : Form} {v : TVar} {b : Form} (h : deltaParts F = some (v, b)) (hF : Late V true F) : Late V true b := by
  unfold deltaParts at h
  split at h <;> cases h
  · unfold alls; split <;> simpa [Late] using hF
  · unfold exs; split <;> simpa [Late] using hF

theorem gammaParts_sig {F : Form} {v : TVar} {b : Form} (h : gammaParts F = some (v, b)) (hF : Sig M ar eq c F) : Sig M ar eq c b := by
  unfold gammaParts at h
  split at h <;> cases h
  · unfold exs; split <;> exact hF
  · unfold alls; split <;> exact hF

theorem gammaParts_noSplit {F : Form} {v : TVar} {b : Form} (h : gammaParts F = some (v, b)) (hF : NoSplit V true F) : NoSplit V true b := by
  unfold gammaParts at h
  split at h <;> cases h
  · unfold exs; split <;> exact hF
  · unfold alls; split <;> exact hF

end Verif.Search.Main.Sound
