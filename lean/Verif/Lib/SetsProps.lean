import Verif.Lib.SetsInv
/-! # Properties C01–C06: the ordered sets of `src/Lib/sets.go` -/

namespace Verif.Lib
open GoOrdered

section
variable {α : Type} [GoOrdered α] [LawfulGoOrdered α]

/-! ### C01 -/

/-- **C01.** After any history of `Add`/`Remove`/`Copy` calls starting from the empty set, no call
crashes and `Contains(x)` is true exactly when some `Add(x)` is not followed by a `Remove(x)`. -/
theorem C01_membership_exact (ops : List (SetOp α)) :
    ∃ s, runOps GoSet.empty ops = some s ∧
      ∀ x, s.contains x = true ↔ LastWasAdd ops x := by
  obtain ⟨s, e, _, m⟩ := runOps_inv (inv_empty (α := α)) ops
  refine ⟨s, e, fun x => ?_⟩
  rw [m]; simp [GoSet.contains, GoSet.empty, Node.find]

/-- Non-trivial history for C01: with rebalancing and a removal. -/
example : (runOps (GoSet.empty : GoSet Nat)
    [.add 1, .add 2, .add 3, .remove 2, .copy, .add 5]).map
      (fun s => [1, 2, 3, 4, 5].map s.contains) = some [true, false, true, false, true] := by decide

/-! ### C02 -/

/-- **C02.** `Union` of two API-built sets never crashes and contains exactly the elements of either. -/
theorem C02_union {s0 s1 : GoSet α} (r0 : Reachable s0) (r1 : Reachable s1) :
    ∃ s, s0.union s1 = some s ∧
      ∀ x, s.contains x = true ↔ (s0.contains x = true ∨ s1.contains x = true) := by
  obtain ⟨s, e, _, m⟩ := foldAdd_inv r0.inv s1.elements
  exact ⟨s, e, fun x => by rw [m, r1.inv.contains_iff, or_comm]⟩

/-- **C02.** `Inter` contains exactly the common elements. -/
theorem C02_inter {s0 s1 : GoSet α} (r0 : Reachable s0) (r1 : Reachable s1) :
    ∃ s, s0.inter s1 = some s ∧
      ∀ x, s.contains x = true ↔ (s0.contains x = true ∧ s1.contains x = true) := by
  obtain ⟨s, e, _, m⟩ := foldInter_inv (s0 := s0) (inv_empty (α := α)) s1.elements
  refine ⟨s, e, fun x => ?_⟩
  rw [m, r1.inv.contains_iff]
  have : (GoSet.empty : GoSet α).contains x = false := rfl
  simp only [this, Bool.false_eq_true, or_false]
  constructor
  · rintro ⟨y, hy, h, e⟩; exact ⟨by rw [contains_congr r0.inv e]; exact h, y, hy, e⟩
  · rintro ⟨h, y, hy, e⟩; exact ⟨y, hy, by rw [← contains_congr r0.inv e]; exact h, e⟩

/-- **C02.** `Diff` contains exactly the elements of the first set that are not in the second. -/
theorem C02_diff {s0 s1 : GoSet α} (r0 : Reachable s0) (r1 : Reachable s1) :
    ∃ s, s0.diff s1 = some s ∧
      ∀ x, s.contains x = true ↔ (s0.contains x = true ∧ s1.contains x = false) := by
  obtain ⟨s, e, _, m⟩ := foldRemove_inv r0.inv s1.elements
  refine ⟨s, e, fun x => ?_⟩
  rw [m, and_comm]
  apply and_congr Iff.rfl
  rw [← Bool.not_eq_true, r1.inv.contains_iff]
  simp

/-- **C02.** `Disjoint` is true exactly when no element is in both sets. -/
theorem C02_disjoint {s0 s1 : GoSet α} (r0 : Reachable s0) (r1 : Reachable s1) :
    s0.disjoint s1 = true ↔ ∀ x, ¬ (s0.contains x = true ∧ s1.contains x = true) := by
  simp only [GoSet.disjoint, Bool.not_eq_true', List.any_eq_false]
  constructor
  · rintro h x ⟨h0, h1⟩
    obtain ⟨y, hy, e⟩ := (r1.inv.contains_iff x).1 h1
    exact h y hy (by rw [← contains_congr r0.inv e]; exact h0)
  · intro h x hx h0
    exact h x ⟨h0, (r1.inv.contains_iff x).2 ⟨x, hx, Node.eqb_refl x⟩⟩

/-- Two reachable, overlapping sets: the hypotheses of C02 are satisfiable. -/
example : ∃ s0 s1 : GoSet Nat, Reachable s0 ∧ Reachable s1 ∧
    s0.elements = [1, 3, 2] ∧ s1.elements = [2, 4, 3] ∧ s0.disjoint s1 = false :=
  ⟨⟨.node 2 (.node 1 .nil 1 .nil) 2 (.node 1 .nil 3 .nil)⟩,
   ⟨.node 2 (.node 1 .nil 2 .nil) 3 (.node 1 .nil 4 .nil)⟩,
   .add (s := .empty) [1, 2, 3] .empty (by decide), .add (s := .empty) [2, 3, 4] .empty (by decide),
   by decide, by decide, by decide⟩

/-! ### C03 -/

/-- **C03.** `Elements` lists each member exactly once (no two listed elements are `Equals`),
`Cardinal` is its length, `IsEmpty` is emptiness. -/
theorem C03_elements {s : GoSet α} (r : Reachable s) :
    s.elements.Pairwise (fun x y => eqb x y = false) ∧
    (∀ x, s.contains x = true ↔ ∃ y ∈ s.elements, eqb x y = true) ∧
    s.cardinal = s.elements.length ∧
    (s.isEmpty = true ↔ ∀ x, s.contains x = false) := by
  refine ⟨?_, r.inv.contains_iff, Node.cardinal_eq _, ?_⟩
  · have hs := r.inv.2
    have hp : s.root.inorder.Pairwise (fun x y : α => eqb x y = false) :=
      hs.imp (fun h => Node.eqb_false_of_less h)
    exact (List.Perm.pairwise_iff (fun {x y} h => by rw [Node.eqb_comm]; exact h)
      (Node.elements_perm s.root)).2 hp
  · obtain ⟨t⟩ := s
    cases t with
    | nil => simp [GoSet.isEmpty, GoSet.contains, Node.find]
    | node h l v rr =>
      simp only [GoSet.isEmpty, Bool.false_eq_true, false_iff]
      intro hh
      have := hh v
      simp [GoSet.contains, Node.find, Node.eqb_refl] at this

example : ∃ s : GoSet Nat, Reachable s ∧ s.elements = [1, 3, 2] ∧ s.cardinal = 3 :=
  ⟨⟨.node 2 (.node 1 .nil 1 .nil) 2 (.node 1 .nil 3 .nil)⟩,
   .add (s := .empty) [1, 2, 3] .empty (by decide), by decide, by decide⟩

/-! ### C04 -/

/-- The full statement of C04. -/
def C04_statement (α : Type) [GoOrdered α] : Prop :=
  ∀ (s : GoSet α) (p : α → Bool), Reachable s →
    ∃ s', s.filter p = some s' ∧ ∀ x ∈ s.elements, (s'.contains x = true ↔ p x = true)

/-- **C04 is false of the code**: `Filter` throws away the result of `Add`
(src/Lib/sets.go:325), so filtering {1} with the always-true predicate gives the empty set. -/
theorem C04_filter_violated : ¬ C04_statement Nat := by
  intro h
  obtain ⟨s', e, m⟩ := h ⟨.node 1 .nil 1 .nil⟩ (fun _ => true)
    (.add (s := .empty) [1] .empty (by decide))
  rw [filter_eq_empty] at e; cases e
  have := m 1 (by decide)
  simp [GoSet.contains, GoSet.empty, Node.find] at this

/-- **C04, what the code does**: `Filter` always returns the empty set. -/
theorem C04_filter_always_empty (s : GoSet α) (p : α → Bool) : s.filter p = some GoSet.empty :=
  filter_eq_empty p

/-- **C04 (partial).** Elements rejected by the predicate are absent from the result, and the
result is exact when the predicate rejects every element. Missing: accepted elements are kept. -/
theorem C04_filter_partial (s : GoSet α) (p : α → Bool) :
    ∃ s', s.filter p = some s' ∧ (∀ x, s'.contains x = true → s.contains x = true ∧ p x = true) ∧
      ((∀ x ∈ s.elements, p x = false) → ∀ x ∈ s.elements, (s'.contains x = true ↔ p x = true)) := by
  refine ⟨GoSet.empty, filter_eq_empty p, ?_, ?_⟩
  · intro x h; simp [GoSet.contains, GoSet.empty, Node.find] at h
  · intro h x hx; simp [GoSet.contains, GoSet.empty, Node.find, h x hx]

/-! ### C05 -/

/-- The full statement of C05: balance for all reachable sets. -/
def C05_statement (α : Type) [GoOrdered α] : Prop :=
  ∀ s : GoSet α, Reachable s → Balanced s.root

/-- **C05 (partial).** After any sequence of `Add`s from the empty set (no `Remove`, no `Copy`)
the tree is height balanced, and its depth `d` satisfies `2^d ≤ (n+1)^2`, that is
`d ≤ 2·log2(n+1)`: lookups are logarithmic. Missing: histories with `Remove` and `Copy`,
for which the claim is false, see below. -/
theorem C05_balanced_partial (xs : List α) :
    ∃ s, GoSet.empty.addAll xs = some s ∧ Balanced s.root ∧
      2 ^ s.root.depth ≤ (s.cardinal + 1) ^ 2 := by
  obtain ⟨s, e, _, _⟩ := addAll_inv (inv_empty (α := α)) xs
  have a := addAll_avl (s := GoSet.empty) trivial e
  exact ⟨s, e, Avl.balanced a, a.card⟩

end

/-- A concrete history with rotations. -/
example : ∃ s, (GoSet.empty : GoSet Nat).addAll [1, 2, 3, 4, 5, 6, 7] = some s ∧
    Balanced s.root ∧ s.root.depth = 3 :=
  ⟨_, rfl, by decide, by decide⟩

/-- **C05 is false of the code after a removal**: `rebalance` uses strict tests on the child's
balance (src/Lib/sets.go:113,123); when the heavy child is itself level it performs a double
rotation, which leaves a node whose sub-trees differ by two levels. -/
theorem C05_balanced_violated_remove : ∃ s : GoSet Nat,
    runOps GoSet.empty [.add 50, .add 30, .add 60, .add 20, .add 40, .add 70, .add 10, .add 45,
      .remove 70] = some s ∧ ¬ Balanced s.root :=
  ⟨_, rfl, by decide⟩

/-- **C05 is false of the code after a copy**: a copy forgets all heights, so later insertions do
rebalance on wrong information. -/
theorem C05_balanced_violated_copy : ∃ s : GoSet Nat,
    runOps GoSet.empty [.add 0, .add 1, .add 2, .add 3, .add 4, .add 5, .add 6, .add 7, .add 8,
      .add 9, .add 10, .add 11, .copy, .add 12] = some s ∧
      ¬ Balanced s.root :=
  ⟨_, rfl, by decide⟩

theorem C05_statement_false : ¬ C05_statement Nat := by
  intro h
  obtain ⟨s, e, hb⟩ := C05_balanced_violated_remove
  exact hb (h s (Reachable.runOps .empty e))

section
variable {α : Type} [GoOrdered α] [LawfulGoOrdered α]

/-! ### C06 -/

/-- **C06.** `Copy` has the same members, elements and cardinal, and after any later history the
copy gives the same answers as the original would. -/
theorem C06_copy_faithful {s : GoSet α} (r : Reachable s) (ops : List (SetOp α)) :
    s.copy.elements = s.elements ∧ s.copy.cardinal = s.cardinal ∧
    ∃ s1 s2, runOps s ops = some s1 ∧ runOps s.copy ops = some s2 ∧
      ∀ x, s1.contains x = s2.contains x := by
  have he : s.copy.elements = s.elements := by
    simp only [GoSet.copy, GoSet.elements]
    induction s.root with
    | nil => rfl
    | node h l v r ihl ihr => simp [Node.nodeCpy, Node.elements, ihl, ihr]
  refine ⟨he, ?_, ?_⟩
  · show Node.cardinal _ = Node.cardinal _
    rw [Node.cardinal_eq, Node.cardinal_eq]; exact congrArg List.length he
  · obtain ⟨s1, e1, _, m1⟩ := runOps_inv r.inv ops
    obtain ⟨s2, e2, _, m2⟩ := runOps_inv (copy_inv r.inv).1 ops
    refine ⟨s1, s2, e1, e2, fun x => ?_⟩
    rw [Bool.eq_iff_iff, m1, m2, (copy_inv r.inv).2]

end

example : ∃ s : GoSet Nat, Reachable s ∧ s.cardinal = 3 ∧ s.copy ≠ s :=
  ⟨⟨.node 2 (.node 1 .nil 1 .nil) 2 (.node 1 .nil 3 .nil)⟩,
   .add (s := .empty) [1, 2, 3] .empty (by decide), by decide, by decide⟩

end Verif.Lib
