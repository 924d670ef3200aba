import Verif.Lib.SetsSpec
/-! Invariant of the sets a client can build, and effect of each API call. -/

namespace Verif.Lib
open GoOrdered

section
set_option linter.unusedSectionVars false
variable {α : Type} [GoOrdered α]

/-! ### Supporting invariant -/

/-- Invariant of every reachable set. -/
def GoSet.Inv (s : GoSet α) : Prop := s.root.WeakH ∧ Node.Sorted s.root.inorder

variable [LawfulGoOrdered α]

theorem GoSet.Inv.contains_iff {s : GoSet α} (i : s.Inv) (x : α) :
    s.contains x = true ↔ ∃ y ∈ s.elements, eqb x y = true := by
  simp only [GoSet.contains, Node.find_iff i.2, Node.MemL, GoSet.elements, Node.mem_elements]

theorem inv_empty : (GoSet.empty : GoSet α).Inv := ⟨trivial, List.Pairwise.nil⟩

theorem add_inv {s : GoSet α} (i : s.Inv) (x : α) : ∃ s', s.add x = some s' ∧ s'.Inv ∧
    ∀ y, s'.contains y = true ↔ (eqb y x = true ∨ s.contains y = true) := by
  obtain ⟨t', e, w, so, m1, m2, m3⟩ := Node.insert_spec i.1 i.2 x
  refine ⟨⟨t'⟩, by simp [GoSet.add, GoSet.addAll, e], ⟨w, so⟩, ?_⟩
  intro y
  simp only [GoSet.contains, Node.find_iff i.2, Node.find_iff so]
  constructor
  · rintro ⟨z, hz, hyz⟩
    rcases m1 z hz with h | rfl
    · exact Or.inr ⟨z, h, hyz⟩
    · exact Or.inl hyz
  · rintro (h | ⟨z, hz, hyz⟩)
    · obtain ⟨z, hz, hxz⟩ := m3
      exact ⟨z, hz, Node.eqb_trans h hxz⟩
    · exact ⟨z, m2 z hz, hyz⟩

theorem addAll_inv {s : GoSet α} (i : s.Inv) (xs : List α) : ∃ s', s.addAll xs = some s' ∧ s'.Inv ∧
    ∀ y, s'.contains y = true ↔ ((∃ x ∈ xs, eqb y x = true) ∨ s.contains y = true) := by
  induction xs generalizing s with
  | nil => exact ⟨s, rfl, i, by simp⟩
  | cons x xs ih =>
    obtain ⟨s1, e1, i1, m1⟩ := add_inv i x
    obtain ⟨s2, e2, i2, m2⟩ := ih i1
    refine ⟨s2, ?_, i2, ?_⟩
    · simp only [GoSet.add, GoSet.addAll, Option.bind_eq_some_iff] at e1
      obtain ⟨t, et, e1⟩ := e1
      cases e1
      simp [GoSet.addAll, et, e2]
    · intro y
      rw [m2, m1]; simp [or_assoc, or_left_comm]

theorem remove_inv {s : GoSet α} (i : s.Inv) (x : α) : ∃ s', s.remove x = some s' ∧ s'.Inv ∧
    ∀ y, s'.contains y = true ↔ (eqb y x = false ∧ s.contains y = true) := by
  obtain ⟨t', e, w, so, m⟩ := Node.remove_spec i.1 i.2 x
  refine ⟨⟨t'⟩, by simp [GoSet.remove, e], ⟨w, so⟩, ?_⟩
  intro y
  simp only [GoSet.contains, Node.find_iff i.2, Node.find_iff so, Node.MemL, m]
  constructor
  · rintro ⟨z, ⟨hz, hxz⟩, hyz⟩
    refine ⟨?_, z, hz, hyz⟩
    cases h : eqb y x with
    | false => rfl
    | true => rw [Node.eqb_trans (Node.eqb_symm h) hyz] at hxz; cases hxz
  · rintro ⟨h, z, hz, hyz⟩
    refine ⟨z, ⟨hz, ?_⟩, hyz⟩
    cases h' : eqb x z with
    | false => rfl
    | true => rw [Node.eqb_trans hyz (Node.eqb_symm h')] at h; cases h

theorem copy_inv {s : GoSet α} (i : s.Inv) : s.copy.Inv ∧ ∀ y, s.copy.contains y = s.contains y :=
  ⟨⟨Node.weakH_nodeCpy _, by simp only [GoSet.copy, Node.inorder_nodeCpy]; exact i.2⟩,
    fun y => Node.find_nodeCpy _ y⟩

theorem foldAdd_inv {s : GoSet α} (i : s.Inv) (xs : List α) :
    ∃ s', xs.foldlM (fun s x => s.add x) s = some s' ∧ s'.Inv ∧
    ∀ y, s'.contains y = true ↔ ((∃ x ∈ xs, eqb y x = true) ∨ s.contains y = true) := by
  induction xs generalizing s with
  | nil => exact ⟨s, rfl, i, by simp⟩
  | cons x xs ih =>
    obtain ⟨s1, e1, i1, m1⟩ := add_inv i x
    obtain ⟨s2, e2, i2, m2⟩ := ih i1
    refine ⟨s2, by simp [List.foldlM_cons, e1, e2], i2, ?_⟩
    intro y; rw [m2, m1]; simp [or_assoc, or_left_comm]

theorem foldRemove_inv {s : GoSet α} (i : s.Inv) (xs : List α) :
    ∃ s', xs.foldlM (fun s x => s.remove x) s = some s' ∧ s'.Inv ∧
    ∀ y, s'.contains y = true ↔ ((∀ x ∈ xs, eqb y x = false) ∧ s.contains y = true) := by
  induction xs generalizing s with
  | nil => exact ⟨s, rfl, i, by simp⟩
  | cons x xs ih =>
    obtain ⟨s1, e1, i1, m1⟩ := remove_inv i x
    obtain ⟨s2, e2, i2, m2⟩ := ih i1
    refine ⟨s2, by simp [List.foldlM_cons, e1, e2], i2, ?_⟩
    intro y; rw [m2, m1]; simp only [List.forall_mem_cons]; constructor
    · rintro ⟨a, b, c⟩; exact ⟨⟨b, a⟩, c⟩
    · rintro ⟨⟨b, a⟩, c⟩; exact ⟨a, b, c⟩

theorem foldInter_inv {s0 s : GoSet α} (i : s.Inv) (xs : List α) :
    ∃ s', xs.foldlM (fun s2 x => if s0.contains x then s2.add x else some s2) s = some s' ∧ s'.Inv ∧
    ∀ y, s'.contains y = true ↔
      ((∃ x ∈ xs, s0.contains x = true ∧ eqb y x = true) ∨ s.contains y = true) := by
  induction xs generalizing s with
  | nil => exact ⟨s, rfl, i, by simp⟩
  | cons x xs ih =>
    by_cases hc : s0.contains x = true
    · obtain ⟨s1, e1, i1, m1⟩ := add_inv i x
      obtain ⟨s2, e2, i2, m2⟩ := ih i1
      refine ⟨s2, by simp [List.foldlM_cons, hc, e1, e2], i2, ?_⟩
      intro y; rw [m2, m1]; simp [or_assoc, or_left_comm, hc]
    · obtain ⟨s2, e2, i2, m2⟩ := ih i
      refine ⟨s2, by simp [List.foldlM_cons, hc, e2], i2, ?_⟩
      intro y; rw [m2]; simp [hc]

theorem contains_congr {s : GoSet α} (i : s.Inv) {x y : α} (h : eqb x y = true) :
    s.contains x = s.contains y := by
  rw [Bool.eq_iff_iff, i.contains_iff, i.contains_iff]
  constructor
  · rintro ⟨z, hz, e⟩; exact ⟨z, hz, Node.eqb_trans (Node.eqb_symm h) e⟩
  · rintro ⟨z, hz, e⟩; exact ⟨z, hz, Node.eqb_trans h e⟩

theorem filter_eq_empty {s : GoSet α} (p : α → Bool) : s.filter p = some GoSet.empty := by
  unfold GoSet.filter
  generalize s.elements = xs
  induction xs with
  | nil => rfl
  | cons x xs ih =>
    rw [List.foldlM_cons]
    have : (if p x = true then Option.map (fun _ => (GoSet.empty : GoSet α)) (GoSet.empty.add x)
        else some GoSet.empty) = some GoSet.empty := by
      split
      · obtain ⟨s', e, _⟩ := add_inv (inv_empty (α := α)) x; simp [e]
      · rfl
    rw [this]; simpa using ih

theorem Reachable.inv {s : GoSet α} (r : Reachable s) : GoSet.Inv s := by
  induction r with
  | empty => exact inv_empty
  | singleton x e =>
    obtain ⟨s', e', i, _⟩ := add_inv (inv_empty (α := α)) x
    simp only [GoSet.singleton, GoSet.add, GoSet.addAll, GoSet.empty, Node.insert, Option.map_some,
      Option.bind_some, Option.some.injEq] at *
    rw [← e, e']; exact i
  | add xs _ e ih =>
    obtain ⟨s', e', i, _⟩ := addAll_inv ih xs
    rw [e] at e'; cases e'; exact i
  | remove x _ e ih =>
    obtain ⟨s', e', i, _⟩ := remove_inv ih x
    rw [e] at e'; cases e'; exact i
  | copy _ ih => exact (copy_inv ih).1
  | union _ _ e ih0 _ =>
    obtain ⟨s', e', i, _⟩ := foldAdd_inv ih0 _
    rw [GoSet.union, e'] at e; cases e; exact i
  | @inter s0 s1 _ _ _ e _ _ =>
    obtain ⟨s', e', i, _⟩ := foldInter_inv (s0 := s0) (inv_empty (α := α)) s1.elements
    rw [GoSet.inter, e'] at e; cases e; exact i
  | diff _ _ e ih0 _ =>
    obtain ⟨s', e', i, _⟩ := foldRemove_inv ih0 _
    rw [GoSet.diff, e'] at e; cases e; exact i
  | filter p _ e _ =>
    rw [filter_eq_empty] at e; cases e; exact inv_empty

omit [LawfulGoOrdered α] in
theorem Reachable.runOps {s s' : GoSet α} {ops : List (SetOp α)} (r : Reachable s)
    (e : Lib.runOps s ops = some s') : Reachable s' := by
  induction ops generalizing s with
  | nil => simp [Lib.runOps] at e; exact e ▸ r
  | cons op ops ih =>
    cases op with
    | add x =>
      simp only [Lib.runOps, Option.bind_eq_some_iff] at e
      obtain ⟨s1, e1, e2⟩ := e
      exact ih (.add [x] r e1) e2
    | remove x =>
      simp only [Lib.runOps, Option.bind_eq_some_iff] at e
      obtain ⟨s1, e1, e2⟩ := e
      exact ih (.remove x r e1) e2
    | copy => exact ih (.copy r) e

theorem runOps_inv {s : GoSet α} (i : s.Inv) (ops : List (SetOp α)) :
    ∃ s', runOps s ops = some s' ∧ s'.Inv ∧ ∀ x, s'.contains x = true ↔
      (LastWasAdd ops x ∨ (s.contains x = true ∧ ∀ z, SetOp.remove z ∈ ops → eqb x z = false)) := by
  induction ops generalizing s with
  | nil =>
    refine ⟨s, rfl, i, fun x => ?_⟩
    simp [LastWasAdd]
  | cons op ops ih =>
    have lw : ∀ (op : SetOp α) x, LastWasAdd (op :: ops) x ↔
        (LastWasAdd ops x ∨ ∃ y, op = .add y ∧ eqb x y = true ∧
          ∀ z, SetOp.remove z ∈ ops → eqb x z = false) := by
      intro op x
      constructor
      · rintro ⟨pre, y, post, e, h1, h2⟩
        cases pre with
        | nil => simp at e; exact Or.inr ⟨y, e.1, h1, e.2 ▸ h2⟩
        | cons p pre => simp at e; exact Or.inl ⟨pre, y, post, e.2, h1, h2⟩
      · rintro (⟨pre, y, post, rfl, h⟩ | ⟨y, rfl, h⟩)
        · exact ⟨op :: pre, y, post, rfl, h⟩
        · exact ⟨[], y, ops, rfl, h⟩
    cases op with
    | add a =>
      obtain ⟨s1, e1, i1, m1⟩ := add_inv i a
      obtain ⟨s2, e2, i2, m2⟩ := ih i1
      refine ⟨s2, by simp [runOps, e1, e2], i2, fun x => ?_⟩
      rw [m2, m1, lw]
      simp only [List.mem_cons, reduceCtorEq, false_or, SetOp.add.injEq]
      constructor
      · rintro (h | ⟨h | h, h'⟩)
        · exact Or.inl (Or.inl h)
        · exact Or.inl (Or.inr ⟨a, rfl, h, h'⟩)
        · exact Or.inr ⟨h, h'⟩
      · rintro ((h | ⟨y, rfl, h, h'⟩) | ⟨h, h'⟩)
        · exact Or.inl h
        · exact Or.inr ⟨Or.inl h, h'⟩
        · exact Or.inr ⟨Or.inr h, h'⟩
    | remove a =>
      obtain ⟨s1, e1, i1, m1⟩ := remove_inv i a
      obtain ⟨s2, e2, i2, m2⟩ := ih i1
      refine ⟨s2, by simp [runOps, e1, e2], i2, fun x => ?_⟩
      rw [m2, m1, lw]
      simp only [List.mem_cons, reduceCtorEq, false_and, exists_false, or_false, SetOp.remove.injEq]
      constructor
      · rintro (h | ⟨⟨h, hs⟩, h'⟩)
        · exact Or.inl h
        · refine Or.inr ⟨hs, ?_⟩
          rintro z (rfl | hz)
          · exact h
          · exact h' z hz
      · rintro (h | ⟨hs, h⟩)
        · exact Or.inl h
        · exact Or.inr ⟨⟨h a (Or.inl rfl), hs⟩, fun z hz => h z (Or.inr hz)⟩
    | copy =>
      obtain ⟨s2, e2, i2, m2⟩ := ih (copy_inv i).1
      refine ⟨s2, by simp [runOps, e2], i2, fun x => ?_⟩
      rw [m2, (copy_inv i).2, lw]
      simp

omit [LawfulGoOrdered α] in
theorem Avl.balanced {t : Node α} (a : t.Avl) : Balanced t := by
  induction t with
  | nil => trivial
  | node h l v r ihl ihr =>
    obtain ⟨_, b1, b2, al, ar⟩ := a
    exact ⟨by rw [al.depth_eq, ar.depth_eq]; exact b1, by rw [al.depth_eq, ar.depth_eq]; exact b2,
      ihl al, ihr ar⟩

omit [LawfulGoOrdered α] in
theorem addAll_avl {s s' : GoSet α} (a : s.root.Avl) {xs : List α} (e : s.addAll xs = some s') :
    s'.root.Avl := by
  induction xs generalizing s with
  | nil => simp [GoSet.addAll] at e; subst e; exact a
  | cons x xs ih =>
    simp only [GoSet.addAll, Option.bind_eq_some_iff] at e
    obtain ⟨t, et, e⟩ := e
    exact ih (Node.insert_avl a et).1 e

end
end Verif.Lib
