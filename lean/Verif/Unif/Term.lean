/-!
# Terms seen by the unification procedures (`src/Unif`)

The unification machine works on terms in which type arguments have been turned into ordinary
arguments (`getFunctionalArguments`, src/Unif/parsing.go:147-164) and in which no bound variable
occurs (atomic formulas of a branch are closed). Such a term is a metavariable or a function symbol
applied to terms; identifiers and metavariables are compared by index (C11).
-/

namespace Verif.Unif

/-- A term for unification. -/
inductive UT where
  | mv (i : Nat)
  | fn (p : Nat) (args : List UT)

theorem UT.ind {P : UT → Prop} (mv : ∀ i, P (.mv i))
    (fn : ∀ p args, (∀ a ∈ args, P a) → P (.fn p args)) : ∀ t, P t := by
  intro t
  refine UT.rec (motive_1 := P) (motive_2 := fun l => ∀ a ∈ l, P a) mv (fun p args h => fn p args h) ?_ ?_ t
  · simp
  · intro h tl h1 h2 a ha
    rcases List.mem_cons.1 ha with rfl | ha
    · exact h1
    · exact h2 a ha

mutual
def UT.beq : UT → UT → Bool
  | .mv a, .mv b => a == b
  | .fn p l, .fn q m => p == q && UT.beqL l m
  | _, _ => false
def UT.beqL : List UT → List UT → Bool
  | [], [] => true
  | a :: l, b :: m => UT.beq a b && UT.beqL l m
  | _, _ => false
end

theorem UT.beqL_iff {l : List UT} (h : ∀ a ∈ l, ∀ b, UT.beq a b = true ↔ a = b) (m : List UT) :
    UT.beqL l m = true ↔ l = m := by
  induction l generalizing m with
  | nil => cases m <;> simp [UT.beqL]
  | cons a l ih =>
    cases m with
    | nil => simp [UT.beqL]
    | cons b m =>
      simp only [UT.beqL, Bool.and_eq_true, List.cons.injEq]
      rw [h a (by simp), ih (fun a ha => h a (by simp [ha]))]

theorem UT.beq_iff : ∀ a b : UT, UT.beq a b = true ↔ a = b := by
  intro a
  induction a using UT.ind with
  | mv s => intro b; cases b <;> simp [UT.beq]
  | fn p args ih =>
    intro b; cases b <;> simp [UT.beq]
    intro _; exact UT.beqL_iff ih _

instance : DecidableEq UT := fun a b => decidable_of_iff _ (UT.beq_iff a b)

mutual
/-- The metavariables of a term, in order, with repetitions (`GetMetaList`, src/AST/termsDef.go:180-193). -/
def UT.occ : UT → List Nat
  | .mv i => [i]
  | .fn _ args => UT.occL args
def UT.occL : List UT → List Nat
  | [] => []
  | a :: l => UT.occ a ++ UT.occL l
end

mutual
/-- Replacement of a metavariable by a term. -/
def UT.sub : UT → Nat → UT → UT
  | .mv i, k, v => if i = k then v else .mv i
  | .fn p args, k, v => .fn p (UT.subL args k v)
def UT.subL : List UT → Nat → UT → List UT
  | [], _, _ => []
  | a :: l, k, v => UT.sub a k v :: UT.subL l k v
end

/-! ### Algebras -/

/-- An interpretation of the function symbols. -/
abbrev Alg (D : Type u) := Nat → List D → D

/-- Constructors are injective and disjoint (as in the algebra of terms). -/
def Alg.Free {D : Type u} (A : Alg D) : Prop := ∀ p l q m, A p l = A q m → p = q ∧ l = m

mutual
/-- Value of a term. -/
def UT.eval {D : Type u} (A : Alg D) (σ : Nat → D) : UT → D
  | .mv i => σ i
  | .fn p args => A p (UT.evalL A σ args)
def UT.evalL {D : Type u} (A : Alg D) (σ : Nat → D) : List UT → List D
  | [] => []
  | a :: l => UT.eval A σ a :: UT.evalL A σ l
end

/-- The algebra of terms; evaluation in it is application of a substitution. -/
def termAlg : Alg UT := UT.fn

theorem termAlg_free : termAlg.Free := by
  intro p l q m h
  simp only [termAlg, UT.fn.injEq] at h
  exact h

/-- Application of a simultaneous substitution. -/
def UT.inst (σ : Nat → UT) (t : UT) : UT := t.eval termAlg σ

mutual
/-- Every symbol is used with the arity `ar` gives it. -/
def UT.Ar (ar : Nat → Nat) : UT → Prop
  | .mv _ => True
  | .fn p args => args.length = ar p ∧ UT.ArL ar args
def UT.ArL (ar : Nat → Nat) : List UT → Prop
  | [] => True
  | a :: l => UT.Ar ar a ∧ UT.ArL ar l
end

/-! ### Basic facts -/

section
variable {D : Type u} {A : Alg D}

theorem UT.evalL_eq (σ : Nat → D) (l : List UT) : UT.evalL A σ l = l.map (UT.eval A σ) := by
  induction l with
  | nil => rfl
  | cons a l ih => simp [UT.evalL, ih]

theorem UT.evalL_length (σ : Nat → D) (l : List UT) : (UT.evalL A σ l).length = l.length := by
  simp [UT.evalL_eq]

theorem UT.subL_eq (k : Nat) (v : UT) (l : List UT) : UT.subL l k v = l.map (fun a => a.sub k v) := by
  induction l with
  | nil => rfl
  | cons a l ih => simp [UT.subL, ih]

theorem UT.mem_occL {i : Nat} {l : List UT} : i ∈ UT.occL l ↔ ∃ a ∈ l, i ∈ a.occ := by
  induction l with
  | nil => simp [UT.occL]
  | cons a l ih => simp [UT.occL, ih]

theorem UT.ArL_iff {ar : Nat → Nat} {l : List UT} : UT.ArL ar l ↔ ∀ a ∈ l, a.Ar ar := by
  induction l with
  | nil => simp [UT.ArL]
  | cons a l ih => simp [UT.ArL, ih]

theorem UT.eval_congr {σ τ : Nat → D} (t : UT) (h : ∀ i ∈ t.occ, σ i = τ i) : t.eval A σ = t.eval A τ := by
  induction t using UT.ind with
  | mv i => exact h i (by simp [UT.occ])
  | fn p args ih =>
    simp only [UT.eval, UT.evalL_eq]
    congr 1
    refine List.map_congr_left fun a ha => ih a ha fun i hi => h i ?_
    simp only [UT.occ, UT.mem_occL]
    exact ⟨a, ha, hi⟩

/-- Replacing a metavariable by a term with the same value does not change the value. -/
theorem UT.eval_sub {σ : Nat → D} {k : Nat} {v : UT} (h : σ k = v.eval A σ) (t : UT) :
    (t.sub k v).eval A σ = t.eval A σ := by
  induction t using UT.ind with
  | mv i =>
    by_cases hi : i = k
    · subst hi; simp [UT.sub, UT.eval, h]
    · simp [UT.sub, UT.eval, hi]
  | fn p args ih =>
    simp only [UT.sub, UT.eval, UT.evalL_eq, UT.subL_eq, List.map_map]
    congr 1
    exact List.map_congr_left fun a ha => ih a ha

end

theorem UT.sub_of_not_mem {k : Nat} {v : UT} (t : UT) (h : k ∉ t.occ) : t.sub k v = t := by
  induction t using UT.ind with
  | mv i =>
    have : i ≠ k := by rintro rfl; simp [UT.occ] at h
    simp [UT.sub, this]
  | fn p args ih =>
    simp only [UT.occ, UT.mem_occL, not_exists, not_and] at h
    simp only [UT.sub, UT.subL_eq, UT.fn.injEq, true_and]
    have := List.map_congr_left (l := args) (f := fun a => a.sub k v) (g := id) fun a ha => ih a ha (h a ha)
    simpa using this

theorem UT.mem_occ_sub {k : Nat} {v : UT} {i : Nat} (t : UT) (hk : k ∈ t.occ) (hi : i ∈ v.occ) :
    i ∈ (t.sub k v).occ := by
  induction t using UT.ind with
  | mv j =>
    simp only [UT.occ, List.mem_singleton] at hk
    subst hk
    simpa [UT.sub] using hi
  | fn p args ih =>
    simp only [UT.occ, UT.mem_occL, UT.sub, UT.subL_eq] at hk ⊢
    obtain ⟨a, ha, hk⟩ := hk
    exact ⟨_, List.mem_map.2 ⟨a, ha, rfl⟩, ih a ha hk⟩

theorem UT.occ_sub {k : Nat} {v : UT} {i : Nat} (t : UT) (h : i ∈ (t.sub k v).occ) :
    (i ∈ t.occ ∧ i ≠ k) ∨ (k ∈ t.occ ∧ i ∈ v.occ) := by
  induction t using UT.ind with
  | mv j =>
    by_cases hj : j = k
    · subst hj; simp only [UT.sub, if_true] at h; right; exact ⟨by simp [UT.occ], h⟩
    · simp only [UT.sub, hj, if_false, UT.occ, List.mem_singleton] at h
      subst h; left; exact ⟨by simp [UT.occ], hj⟩
  | fn p args ih =>
    simp only [UT.occ, UT.mem_occL, UT.sub, UT.subL_eq, List.mem_map] at h ⊢
    obtain ⟨_, ⟨a, ha, rfl⟩, h⟩ := h
    rcases ih a ha h with ⟨h1, h2⟩ | ⟨h1, h2⟩
    · exact Or.inl ⟨⟨a, ha, h1⟩, h2⟩
    · exact Or.inr ⟨⟨a, ha, h1⟩, h2⟩

theorem UT.Ar_sub {ar : Nat → Nat} {k : Nat} {v : UT} (hv : v.Ar ar) (t : UT) (h : t.Ar ar) :
    (t.sub k v).Ar ar := by
  induction t using UT.ind with
  | mv i => by_cases hi : i = k <;> simp [UT.sub, hi, hv, UT.Ar]
  | fn p args ih =>
    simp only [UT.Ar, UT.ArL_iff, UT.sub, UT.subL_eq, List.length_map, List.mem_map] at h ⊢
    refine ⟨h.1, ?_⟩
    rintro _ ⟨a, ha, rfl⟩
    exact ih a ha (h.2 a ha)

end Verif.Unif
