import Verif.Lib.SetsModel
/-! Helper lemmas about the AVL model. -/

namespace Verif.Lib
open GoOrdered

namespace Node
set_option linter.unusedSectionVars false
set_option linter.unusedSimpArgs false
variable {α : Type}

/-- In-order traversal, used only in proofs. -/
def inorder : Node α → List α
  | nil => []
  | node _ l v r => inorder l ++ v :: inorder r

@[simp] theorem height_nil : height (nil : Node α) = 0 := rfl
@[simp] theorem height_node (h : Nat) (l : Node α) (v : α) (r : Node α) :
    height (node h l v r) = h := rfl

@[simp] theorem inorder_mk (l : Node α) (v : α) (r : Node α) :
    inorder (mk l v r) = inorder l ++ v :: inorder r := rfl

@[simp] theorem height_mk (l : Node α) (v : α) (r : Node α) :
    height (mk l v r) = 1 + max (height l) (height r) := rfl

theorem inorder_rotateLeft {t t' : Node α} (h : rotateLeft t = some t') :
    inorder t' = inorder t := by
  unfold rotateLeft at h
  split at h <;> simp_all
  subst h; simp [inorder]

theorem inorder_rotateRight {t t' : Node α} (h : rotateRight t = some t') :
    inorder t' = inorder t := by
  unfold rotateRight at h
  split at h <;> simp_all
  subst h; simp [inorder]

theorem inorder_rebalance {t t' : Node α} (h : rebalance t = some t') :
    inorder t' = inorder t := by
  cases t with
  | nil => simp [rebalance] at h; subst h; rfl
  | node ht l v r =>
    simp only [rebalance] at h
    split at h
    · split at h
      · exact inorder_rotateLeft h
      · rcases hr : rotateRight l with _ | l'
        · simp [hr] at h
        · simp only [hr, Option.bind_some] at h
          rw [inorder_rotateLeft h]; simp [inorder, inorder_rotateRight hr]
    · split at h
      · split at h
        · exact inorder_rotateRight h
        · rcases hr : rotateLeft r with _ | r'
          · simp [hr] at h
          · simp only [hr, Option.bind_some] at h
            rw [inorder_rotateRight h]; simp [inorder, inorder_rotateLeft hr]
      · simp at h; subst h; rfl

/-- Height bookkeeping that holds for every tree the API can produce (copies have the
stale height 1 in every node). -/
def WeakH : Node α → Prop
  | nil => True
  | node h l _ r => (h = 1 ∨ h = 1 + max (height l) (height r)) ∧ WeakH l ∧ WeakH r

theorem weakH_mk {l r : Node α} {v : α} : WeakH (mk l v r) ↔ WeakH l ∧ WeakH r := by
  simp [mk, WeakH]

theorem rotateLeft_total {h : Nat} {l r : Node α} {v : α} (hl : l ≠ nil)
    (wl : WeakH l) (wr : WeakH r) : ∃ t', rotateLeft (node h l v r) = some t' ∧ WeakH t' := by
  cases l with
  | nil => exact absurd rfl hl
  | node h' ll lv lr =>
    refine ⟨_, rfl, ?_⟩
    simp [weakH_mk, WeakH] at *; simp [*]

theorem rotateRight_total {h : Nat} {l r : Node α} {v : α} (hr : r ≠ nil)
    (wl : WeakH l) (wr : WeakH r) : ∃ t', rotateRight (node h l v r) = some t' ∧ WeakH t' := by
  cases r with
  | nil => exact absurd rfl hr
  | node h' rl rv rr =>
    refine ⟨_, rfl, ?_⟩
    simp [weakH_mk, WeakH] at *; simp [*]

theorem rebalance_total {h : Nat} {l r : Node α} {v : α}
    (w : WeakH (node h l v r)) : ∃ t', rebalance (node h l v r) = some t' ∧ WeakH t' := by
  have wl := w.2.1
  have wr := w.2.2
  simp only [rebalance]
  split
  · rename_i hb
    have hl2 : height l ≥ 2 := by simp only [balance] at hb; omega
    cases l with
    | nil => simp [height] at hl2
    | node lh ll lv lr =>
      split
      · exact rotateLeft_total (by simp) wl wr
      · rename_i hbl
        have hlr : lr ≠ nil := by
          rintro rfl
          simp [WeakH, balance] at *
          omega
        obtain ⟨l', e, wl'⟩ := rotateRight_total (h := lh) (l := ll) (v := lv) hlr wl.2.1 wl.2.2
        simp only [e, Option.bind_some]
        apply rotateLeft_total _ wl' wr
        cases lr with
        | nil => exact absurd rfl hlr
        | node => simp [rotateRight] at e; subst e; simp [mk]
  · split
    · rename_i hb
      have hr2 : height r ≥ 2 := by simp only [balance] at hb; omega
      cases r with
      | nil => simp [height] at hr2
      | node rh rl rv rr =>
        split
        · exact rotateRight_total (by simp) wl wr
        · rename_i hbr
          have hrl : rl ≠ nil := by
            rintro rfl
            simp [WeakH, balance] at *
            omega
          obtain ⟨r', e, wr'⟩ := rotateLeft_total (h := rh) (r := rr) (v := rv) hrl wr.2.1 wr.2.2
          simp only [e, Option.bind_some]
          apply rotateRight_total _ wl wr'
          cases rl with
          | nil => exact absurd rfl hrl
          | node => simp [rotateLeft] at e; subst e; simp [mk]
    · exact ⟨_, rfl, w⟩

theorem rebalance_mk_total {l r : Node α} {v : α} (wl : WeakH l) (wr : WeakH r) :
    ∃ t', rebalance (mk l v r) = some t' ∧ WeakH t' ∧ inorder t' = inorder l ++ v :: inorder r := by
  obtain ⟨t', e, w⟩ := rebalance_total (h := 1 + max (height l) (height r)) (l := l) (r := r) (v := v)
    ⟨Or.inr rfl, wl, wr⟩
  exact ⟨t', e, w, by rw [inorder_rebalance (t := mk l v r) e]; rfl⟩

variable [GoOrdered α]

/-- Strictly increasing list. -/
abbrev Sorted (l : List α) : Prop := l.Pairwise (fun x y => less x y = true)

section laws
variable [LawfulGoOrdered α]

theorem less_irrefl (x : α) : less x x = false := LawfulGoOrdered.irrefl x
theorem less_trans {x y z : α} (h : less x y = true) (h' : less y z = true) : less x z = true :=
  LawfulGoOrdered.trans x y z h h'
theorem less_asymm {x y : α} (h : less x y = true) : less y x = false := by
  cases h' : less y x with
  | false => rfl
  | true => have := less_trans h h'; rw [less_irrefl] at this; cases this
theorem eqb_refl (x : α) : eqb x x = true := by
  rw [LawfulGoOrdered.eqb_iff]; exact ⟨less_irrefl x, less_irrefl x⟩
theorem eqb_symm {x y : α} (h : eqb x y = true) : eqb y x = true := by
  rw [LawfulGoOrdered.eqb_iff] at *; exact ⟨h.2, h.1⟩
theorem eqb_comm (x y : α) : eqb x y = eqb y x := by
  rw [Bool.eq_iff_iff]; exact ⟨eqb_symm, eqb_symm⟩
theorem eqb_less {x y z : α} (h : eqb x y = true) (h' : less y z = true) : less x z = true := by
  rw [LawfulGoOrdered.eqb_iff] at h
  rcases LawfulGoOrdered.negtrans y z x h' with h1 | h1
  · rw [h1] at h; simp at h
  · exact h1
theorem less_eqb {x y z : α} (h : less x y = true) (h' : eqb y z = true) : less x z = true := by
  rw [LawfulGoOrdered.eqb_iff] at h'
  rcases LawfulGoOrdered.negtrans x y z h with h1 | h1
  · exact h1
  · rw [h1] at h'; simp at h'
theorem eqb_trans {x y z : α} (h : eqb x y = true) (h' : eqb y z = true) : eqb x z = true := by
  rw [LawfulGoOrdered.eqb_iff]
  constructor
  · cases e : less x z with
    | false => rfl
    | true => have := less_eqb e (eqb_symm h'); rw [LawfulGoOrdered.eqb_iff] at h; simp [this] at h
  · cases e : less z x with
    | false => rfl
    | true => have := less_eqb e h; rw [LawfulGoOrdered.eqb_iff] at h'; simp [this] at h'
theorem trich (x y : α) (h1 : eqb x y = false) (h2 : less x y = false) : less y x = true := by
  cases h : less y x with
  | true => rfl
  | false => have := (LawfulGoOrdered.eqb_iff x y).2 ⟨h2, h⟩; simp_all
theorem eqb_false_of_less {x y : α} (h : less x y = true) : eqb x y = false := by
  cases e : eqb x y with
  | false => rfl
  | true => rw [LawfulGoOrdered.eqb_iff] at e; simp [h] at e
theorem eqb_false_of_less' {x y : α} (h : less x y = true) : eqb y x = false := by
  rw [eqb_comm]; exact eqb_false_of_less h

/-- Membership up to `Equals` in a list. -/
abbrev MemL (x : α) (l : List α) : Prop := ∃ y ∈ l, eqb x y = true

theorem sorted_node {l r : List α} {v : α} : Sorted (l ++ v :: r) ↔
    Sorted l ∧ Sorted r ∧ (∀ y ∈ l, less y v = true) ∧ (∀ y ∈ r, less v y = true) := by
  simp only [Sorted, List.pairwise_append, List.pairwise_cons, List.mem_cons]
  constructor
  · rintro ⟨h1, ⟨h2, h3⟩, h4⟩
    exact ⟨h1, h3, fun y hy => h4 y hy v (Or.inl rfl), h2⟩
  · rintro ⟨h1, h2, h3, h4⟩
    refine ⟨h1, ⟨h4, h2⟩, ?_⟩
    rintro a ha b (rfl | hb)
    · exact h3 a ha
    · exact less_trans (h3 a ha) (h4 b hb)

theorem find_iff {t : Node α} (hs : Sorted (inorder t)) (x : α) :
    find t x = true ↔ MemL x (inorder t) := by
  induction t with
  | nil => simp [find, inorder]
  | node h l v r ihl ihr =>
    simp only [inorder] at hs
    obtain ⟨sl, sr, hl, hr⟩ := sorted_node.1 hs
    simp only [find, inorder, MemL, List.mem_append, List.mem_cons]
    split
    · rename_i e
      simp only [true_iff]
      exact ⟨v, Or.inr (Or.inl rfl), e⟩
    · rename_i e
      split
      · rename_i lt
        rw [ihl sl]
        constructor
        · rintro ⟨y, hy, hxy⟩; exact ⟨y, Or.inl hy, hxy⟩
        · rintro ⟨y, (hy | rfl | hy), hxy⟩
          · exact ⟨y, hy, hxy⟩
          · exact absurd hxy e
          · have := less_trans lt (hr y hy)
            rw [eqb_false_of_less this] at hxy; cases hxy
      · rename_i nlt
        have gt : less v x = true := trich x v (by simpa using e) (by simpa using nlt)
        rw [ihr sr]
        constructor
        · rintro ⟨y, hy, hxy⟩; exact ⟨y, Or.inr (Or.inr hy), hxy⟩
        · rintro ⟨y, (hy | rfl | hy), hxy⟩
          · have := less_trans (hl y hy) gt
            rw [eqb_false_of_less' this] at hxy; cases hxy
          · exact absurd hxy e
          · exact ⟨y, hy, hxy⟩

/-- What an insertion does, on the in-order list. -/
theorem insert_spec {t : Node α} (w : WeakH t) (hs : Sorted (inorder t)) (x : α) :
    ∃ t', insert t x = some t' ∧ WeakH t' ∧ Sorted (inorder t') ∧
      (∀ y, y ∈ inorder t' → y ∈ inorder t ∨ y = x) ∧
      (∀ y, y ∈ inorder t → y ∈ inorder t') ∧ MemL x (inorder t') := by
  induction t with
  | nil =>
    refine ⟨mkNode x, rfl, by simp [mkNode, WeakH], ?_, ?_, ?_, x, ?_⟩ <;>
      simp [mkNode, inorder, eqb_refl]
  | node h l v r ihl ihr =>
    simp only [inorder] at hs
    obtain ⟨sl, sr, hl, hr⟩ := sorted_node.1 hs
    obtain ⟨_, wl, wr⟩ := w
    simp only [insert]
    split
    · rename_i e
      refine ⟨_, rfl, ⟨by assumption, wl, wr⟩, hs, fun y hy => Or.inl hy, fun y hy => hy, ?_⟩
      exact ⟨v, by simp [inorder], eqb_symm e⟩
    · rename_i e
      split
      · rename_i lt
        obtain ⟨l', e1, wl', sl', m1, m2, m3⟩ := ihl wl sl
        obtain ⟨t', e2, wt, it⟩ := rebalance_mk_total (v := v) wl' wr
        refine ⟨t', by simp [e1, e2], wt, ?_, ?_, ?_, ?_⟩
        · rw [it, sorted_node]
          refine ⟨sl', sr, ?_, hr⟩
          intro y hy
          rcases m1 y hy with h | rfl
          · exact hl y h
          · exact lt
        · rw [it]; simp only [inorder, List.mem_append, List.mem_cons]
          rintro y (hy | hy | hy)
          · rcases m1 y hy with h | h <;> simp [h]
          · simp [hy]
          · simp [hy]
        · rw [it]; simp only [inorder, List.mem_append, List.mem_cons]
          rintro y (hy | hy | hy)
          · exact Or.inl (m2 y hy)
          · simp [hy]
          · simp [hy]
        · obtain ⟨y, hy, hxy⟩ := m3
          exact ⟨y, by rw [it]; simp [hy], hxy⟩
      · rename_i nlt
        have gt : less v x = true :=
          trich x v (by rw [eqb_comm]; simpa using e) (by simpa using nlt)
        obtain ⟨r', e1, wr', sr', m1, m2, m3⟩ := ihr wr sr
        obtain ⟨t', e2, wt, it⟩ := rebalance_mk_total (v := v) wl wr'
        refine ⟨t', by simp [e1, e2], wt, ?_, ?_, ?_, ?_⟩
        · rw [it, sorted_node]
          refine ⟨sl, sr', hl, ?_⟩
          intro y hy
          rcases m1 y hy with h | rfl
          · exact hr y h
          · exact gt
        · rw [it]; simp only [inorder, List.mem_append, List.mem_cons]
          rintro y (hy | hy | hy)
          · simp [hy]
          · simp [hy]
          · rcases m1 y hy with h | h <;> simp [h]
        · rw [it]; simp only [inorder, List.mem_append, List.mem_cons]
          rintro y (hy | hy | hy)
          · simp [hy]
          · simp [hy]
          · exact Or.inr (Or.inr (m2 y hy))
        · obtain ⟨y, hy, hxy⟩ := m3
          exact ⟨y, by rw [it]; simp [hy], hxy⟩

theorem inorder_minValue (h : Nat) (l : Node α) (v : α) (r : Node α) :
    ∃ rest, inorder (node h l v r) = minValue l v :: rest := by
  induction l generalizing h v r with
  | nil => exact ⟨inorder r, rfl⟩
  | node h' l' v' r' ihl _ =>
    obtain ⟨rest, e⟩ := ihl h' v' r'
    refine ⟨rest ++ v :: inorder r, ?_⟩
    have : inorder (node h (node h' l' v' r') v r) = inorder (node h' l' v' r') ++ v :: inorder r := rfl
    rw [this, e]; rfl

/-- What a removal does, on the in-order list. -/
theorem remove_spec {t : Node α} (w : WeakH t) (hs : Sorted (inorder t)) (x : α) :
    ∃ t', remove t x = some t' ∧ WeakH t' ∧ Sorted (inorder t') ∧
      (∀ y, y ∈ inorder t' ↔ y ∈ inorder t ∧ eqb x y = false) := by
  induction t generalizing x with
  | nil => exact ⟨nil, rfl, trivial, hs, by simp [inorder]⟩
  | node h l v r ihl ihr =>
    simp only [inorder] at hs
    obtain ⟨sl, sr, hl, hr⟩ := sorted_node.1 hs
    obtain ⟨_, wl, wr⟩ := w
    unfold remove
    split
    · rename_i lt
      obtain ⟨l', e1, wl', sl', m⟩ := ihl wl sl x
      obtain ⟨t', e2, wt, it⟩ := rebalance_mk_total (v := v) wl' wr
      refine ⟨t', by simp [e1, e2], wt, ?_, ?_⟩
      · rw [it, sorted_node]
        exact ⟨sl', sr, fun y hy => hl y ((m y).1 hy).1, hr⟩
      · intro y
        rw [it]; simp only [inorder, List.mem_append, List.mem_cons, m]
        constructor
        · rintro (⟨hy, e⟩ | rfl | hy)
          · exact ⟨Or.inl hy, e⟩
          · exact ⟨Or.inr (Or.inl rfl), eqb_false_of_less lt⟩
          · exact ⟨Or.inr (Or.inr hy), eqb_false_of_less (less_trans lt (hr y hy))⟩
        · rintro ⟨(hy | rfl | hy), e⟩
          · exact Or.inl ⟨hy, e⟩
          · simp
          · simp [hy]
    · rename_i nlt
      split
      · rename_i gt
        obtain ⟨r', e1, wr', sr', m⟩ := ihr wr sr x
        obtain ⟨t', e2, wt, it⟩ := rebalance_mk_total (v := v) wl wr'
        refine ⟨t', by simp [e1, e2], wt, ?_, ?_⟩
        · rw [it, sorted_node]
          exact ⟨sl, sr', hl, fun y hy => hr y ((m y).1 hy).1⟩
        · intro y
          rw [it]; simp only [inorder, List.mem_append, List.mem_cons, m]
          constructor
          · rintro (hy | rfl | ⟨hy, e⟩)
            · exact ⟨Or.inl hy, eqb_false_of_less' (less_trans (hl y hy) gt)⟩
            · exact ⟨Or.inr (Or.inl rfl), eqb_false_of_less' gt⟩
            · exact ⟨Or.inr (Or.inr hy), e⟩
          · rintro ⟨(hy | rfl | hy), e⟩
            · simp [hy]
            · simp
            · exact Or.inr (Or.inr ⟨hy, e⟩)
      · rename_i ngt
        have exv : eqb x v = true := by
          rw [LawfulGoOrdered.eqb_iff]; exact ⟨by simpa using nlt, by simpa using ngt⟩
        have keyl : ∀ y ∈ inorder l, eqb x y = false := fun y hy =>
          eqb_false_of_less' (less_eqb (hl y hy) (eqb_symm exv))
        have keyr : ∀ y ∈ inorder r, eqb x y = false := fun y hy =>
          eqb_false_of_less (eqb_less exv (hr y hy))
        have memAll : ∀ y, (y ∈ inorder l ∨ y ∈ inorder r) ↔
            (y ∈ inorder (node h l v r) ∧ eqb x y = false) := by
          intro y
          simp only [inorder, List.mem_append, List.mem_cons]
          constructor
          · rintro (hy | hy)
            · exact ⟨Or.inl hy, keyl y hy⟩
            · exact ⟨Or.inr (Or.inr hy), keyr y hy⟩
          · rintro ⟨(hy | rfl | hy), e⟩
            · exact Or.inl hy
            · simp [exv] at e
            · exact Or.inr hy
        cases l with
        | nil =>
          cases r with
          | nil =>
            refine ⟨nil, rfl, trivial, by simp [inorder], ?_⟩
            intro y; rw [← memAll]; simp [inorder]
          | node rh rl rv rr =>
            obtain ⟨t', e2, wt, it⟩ := rebalance_mk_total (v := rv) wr.2.1 wr.2.2
            refine ⟨t', e2, wt, by rw [it]; exact sr, ?_⟩
            intro y; rw [← memAll, it]; simp [inorder]
        | node lh ll lv lr =>
          cases r with
          | nil =>
            obtain ⟨t', e2, wt, it⟩ := rebalance_mk_total (v := lv) wl.2.1 wl.2.2
            refine ⟨t', e2, wt, by rw [it]; exact sl, ?_⟩
            intro y; rw [← memAll, it]; simp [inorder]
          | node rh rl rv rr =>
            obtain ⟨rest, hrest⟩ := inorder_minValue rh rl rv rr
            generalize hnv : minValue rl rv = nv at *
            obtain ⟨r', e1, wr', sr', m⟩ := ihr wr sr nv
            obtain ⟨t', e2, wt, it⟩ := rebalance_mk_total (v := nv) wl wr'
            have nvmem : nv ∈ inorder (node rh rl rv rr) := by rw [hrest]; simp
            have nvmin : ∀ y ∈ inorder (node rh rl rv rr), eqb nv y = false → less nv y = true := by
              rw [hrest] at sr ⊢
              intro y hy e
              rcases List.mem_cons.1 hy with rfl | hy
              · rw [eqb_refl] at e; cases e
              · exact (List.pairwise_cons.1 sr).1 y hy
            have nvuniq : ∀ y ∈ inorder (node rh rl rv rr), eqb nv y = true → y = nv := by
              rw [hrest] at sr ⊢
              intro y hy e
              rcases List.mem_cons.1 hy with rfl | hy
              · rfl
              · have := (List.pairwise_cons.1 sr).1 y hy
                rw [eqb_false_of_less this] at e; cases e
            refine ⟨t', by simp [hnv, e1, e2], wt, ?_, ?_⟩
            · rw [it, sorted_node]
              refine ⟨sl, sr', ?_, ?_⟩
              · intro y hy; exact less_trans (hl y hy) (hr nv nvmem)
              · intro y hy; exact nvmin y ((m y).1 hy).1 ((m y).1 hy).2
            · intro y
              rw [← memAll, it, List.mem_append, List.mem_cons, m]
              constructor
              · rintro (hy | rfl | hy)
                · exact Or.inl hy
                · exact Or.inr nvmem
                · exact Or.inr hy.1
              · rintro (hy | hy)
                · exact Or.inl hy
                · right
                  cases e : eqb nv y with
                  | true => exact Or.inl (nvuniq y hy e)
                  | false => exact Or.inr ⟨hy, rfl⟩

end laws

theorem mem_elements (t : Node α) (x : α) : x ∈ elements t ↔ x ∈ inorder t := by
  induction t with
  | nil => simp [elements, inorder]
  | node h l v r ihl ihr => simp [elements, inorder, ihl, ihr, or_comm, or_left_comm]

theorem elements_perm (t : Node α) : (elements t).Perm (inorder t) := by
  induction t with
  | nil => exact List.Perm.refl _
  | node h l v r ihl ihr =>
    simp only [elements, inorder]
    refine List.Perm.append ihl ?_
    exact (List.perm_append_comm).trans (List.Perm.cons v ihr)

theorem cardinal_eq (t : Node α) : cardinal t = (elements t).length := by
  induction t with
  | nil => rfl
  | node h l v r ihl ihr => simp [cardinal, elements, ihl, ihr]; omega

theorem inorder_nodeCpy (t : Node α) : inorder (nodeCpy t) = inorder t := by
  induction t with
  | nil => rfl
  | node h l v r ihl ihr => simp [nodeCpy, inorder, ihl, ihr]

theorem weakH_nodeCpy (t : Node α) : WeakH (nodeCpy t) := by
  induction t with
  | nil => trivial
  | node h l v r ihl ihr => exact ⟨Or.inl rfl, ihl, ihr⟩

theorem find_nodeCpy (t : Node α) (x : α) : find (nodeCpy t) x = find t x := by
  induction t with
  | nil => rfl
  | node h l v r ihl ihr => simp [nodeCpy, find, ihl, ihr]

theorem rebalance_mk (l : Node α) (v : α) (r : Node α) : rebalance (mk l v r) =
    if height l > height r + 1 then
      if balance l > 0 then rotateLeft (mk l v r)
      else (rotateRight l).bind fun l' => rotateLeft (node (1 + max (height l) (height r)) l' v r)
    else if height r > height l + 1 then
      if balance r < 0 then rotateRight (mk l v r)
      else (rotateLeft r).bind fun r' => rotateRight (node (1 + max (height l) (height r)) l v r')
    else some (mk l v r) := by
  show rebalance (node _ l v r) = _
  unfold rebalance
  have h1 : (balance (node (1 + max (height l) (height r)) l v r) > 1) ↔ height l > height r + 1 := by
    simp only [balance]; omega
  have h2 : (balance (node (1 + max (height l) (height r)) l v r) < -1) ↔ height r > height l + 1 := by
    simp only [balance]; omega
  simp only [h1, h2]; rfl

/-- The AVL invariant: stored heights are exact and children heights differ by at most one. -/
def Avl : Node α → Prop
  | nil => True
  | node h l _ r => h = 1 + max (height l) (height r) ∧
      height l ≤ height r + 1 ∧ height r ≤ height l + 1 ∧ Avl l ∧ Avl r

theorem insert_avl {t t' : Node α} (a : Avl t) {x : α} (e : insert t x = some t') :
    Avl t' ∧ (height t' = height t ∨
      (height t' = height t + 1 ∧ (t = nil ∨ balance t' ≠ 0))) := by
  induction t generalizing t' with
  | nil => simp [insert] at e; subst e; simp [mkNode, Avl]
  | node h l v r ihl ihr =>
    obtain ⟨hh, b1, b2, al, ar⟩ := a
    simp only [insert] at e
    split at e
    · cases e; exact ⟨⟨hh, b1, b2, al, ar⟩, Or.inl rfl⟩
    · split at e
      · rcases el : insert l x with _ | l'
        · simp [el] at e
        · simp only [el, Option.bind_some] at e
          obtain ⟨al', hl'⟩ := ihl al el
          have hgr : height (node h l v r) = 1 + max (height l) (height r) := hh
          rw [hgr]
          clear hh hgr ihl ihr el
          rw [rebalance_mk] at e
          cases l' with
          | nil => 
            simp at e hl'
            have hx : ¬ (1 < height r) := by omega
            have hy : ¬ (1 < height l) := by omega
            simp [hx, hy] at e; subst e
            simp [mk]; simp [Avl, balance]
            refine ⟨⟨by omega, ar⟩, ?_⟩
            omega
          | node lh ll lv lr =>
            by_cases hb : height (node lh ll lv lr) > height r + 1
            · rw [if_pos hb] at e
              obtain ⟨hlh, c1, c2, all, alr⟩ := al'
              by_cases hbl : balance (node lh ll lv lr) > 0
              · rw [if_pos hbl] at e
                simp only [balance] at hbl
                simp [rotateLeft, mk] at e; subst e
                simp [Avl, balance] at *
                refine ⟨⟨?_, ?_, all, ?_, ?_, alr, ar⟩, ?_⟩ <;> omega
              · rw [if_neg hbl] at e
                simp only [balance] at hbl
                cases lr with
                | nil => simp at *; omega
                | node lrh lrl lrv lrr =>
                  obtain ⟨hlrh, d1, d2, alrl, alrr⟩ := alr
                  simp [rotateRight, rotateLeft, mk] at e; subst e
                  simp [Avl, balance] at *
                  have hne : l ≠ nil := by
                    rintro rfl; simp at *; omega
                  simp [hne] at hl'
                  refine ⟨⟨?_, ?_, ⟨?_, ?_, all, alrl⟩, ?_, ?_, alrr, ar⟩, ?_⟩ <;> omega
            · rw [if_neg (by omega), if_neg (by omega)] at e
              cases e
              refine ⟨⟨rfl, by omega, by omega, al', ar⟩, ?_⟩
              simp only [balance, mk]
              simp only [height_node] at *
              omega
      · rcases er : insert r x with _ | r'
        · simp [er] at e
        · simp only [er, Option.bind_some] at e
          obtain ⟨ar', hr'⟩ := ihr ar er
          have hgr : height (node h l v r) = 1 + max (height l) (height r) := hh
          rw [hgr]
          clear hh hgr ihl ihr er
          rw [rebalance_mk] at e
          cases r' with
          | nil => 
            simp at e hr'
            have hx : ¬ (1 < height r) := by omega
            have hy : ¬ (1 < height l) := by omega
            simp [hx, hy] at e; subst e
            simp [mk]; simp [Avl, balance]
            refine ⟨⟨by omega, al⟩, ?_⟩
            omega
          | node rh rl rv rr =>
            by_cases hb : height (node rh rl rv rr) > height l + 1
            · rw [if_neg (by omega), if_pos hb] at e
              obtain ⟨hrh, c1, c2, arl, arr⟩ := ar'
              by_cases hbr : balance (node rh rl rv rr) < 0
              · rw [if_pos hbr] at e
                simp only [balance] at hbr
                simp [rotateRight, mk] at e; subst e
                simp [Avl, balance] at *
                refine ⟨⟨?_, ?_, ⟨?_, ?_, al, arl⟩, arr⟩, ?_⟩ <;> omega
              · rw [if_neg hbr] at e
                simp only [balance] at hbr
                cases rl with
                | nil => simp at *; omega
                | node rlh rll rlv rlr =>
                  obtain ⟨hrlh, d1, d2, arll, arlr⟩ := arl
                  simp [rotateRight, rotateLeft, mk] at e; subst e
                  simp [Avl, balance] at *
                  have hne : r ≠ nil := by
                    rintro rfl; simp at *; omega
                  simp [hne] at hr'
                  refine ⟨⟨?_, ?_, ⟨?_, ?_, al, arll⟩, ?_, ?_, arlr, arr⟩, ?_⟩ <;> omega
            · rw [if_neg (by omega), if_neg (by omega)] at e
              cases e
              refine ⟨⟨rfl, by omega, by omega, al, ar'⟩, ?_⟩
              simp only [balance, mk]
              simp only [height_node] at *
              omega

/-- Real height of the tree (number of levels). -/
def depth : Node α → Nat
  | nil => 0
  | node _ l _ r => 1 + max (depth l) (depth r)

theorem Avl.depth_eq {t : Node α} (a : Avl t) : depth t = height t := by
  induction t with
  | nil => rfl
  | node h l v r ihl ihr =>
    obtain ⟨hh, _, _, al, ar⟩ := a
    simp [depth, height, ihl al, ihr ar, hh]

theorem Avl.card {t : Node α} (a : Avl t) :
    2 ^ (depth t) ≤ (cardinal t + 1) ^ 2 := by
  induction t with
  | nil => simp [depth, cardinal]
  | node h l v r ihl ihr =>
    obtain ⟨hh, b1, b2, al, ar⟩ := a
    have il := ihl al
    have ir := ihr ar
    rw [← al.depth_eq, ← ar.depth_eq] at *
    simp only [depth, cardinal]
    have key : ∀ a b : Nat, a ≤ b → b ≤ a + 1 → ∀ m n : Nat, 2 ^ a ≤ (m+1)^2 → 2 ^ b ≤ (n+1)^2 →
        2 ^ (1 + b) ≤ (1 + m + n + 1) ^ 2 := by
      intro a b hab hba m n h1 h2
      have : 2 ^ b ≤ 2 * 2 ^ a := by
        calc 2 ^ b ≤ 2 ^ (a + 1) := Nat.pow_le_pow_right (by omega) hba
          _ = _ := by rw [Nat.pow_succ]; omega
      rw [Nat.pow_add]
      have e1 : (1 + m + n + 1)^2 = (m+1)^2 + (n+1)^2 + 2*((m+1)*(n+1)) := by
        simp only [Nat.pow_two]
        have : 1 + m + n + 1 = (m+1)+(n+1) := by omega
        rw [this]
        simp only [Nat.add_mul, Nat.mul_add, Nat.mul_comm n m]; omega
      rw [e1]
      -- 2*2^b ≤ (m+1)^2+(n+1)^2+2(m+1)(n+1)
      by_cases hmn : m ≤ n
      · have : (m+1)*(m+1) ≤ (m+1)*(n+1) := Nat.mul_le_mul_left _ (by omega)
        simp only [Nat.pow_two] at *
        omega
      · have : (n+1)*(n+1) ≤ (m+1)*(n+1) := Nat.mul_le_mul_right _ (by omega)
        simp only [Nat.pow_two] at *
        omega
    rcases Nat.le_total (depth l) (depth r) with hle | hle
    · rw [Nat.max_eq_right hle]
      exact key _ _ hle (by omega) _ _ il ir
    · rw [Nat.max_eq_left hle]
      have := key _ _ hle (by omega) _ _ ir il
      have e : 1 + cardinal l + cardinal r = 1 + cardinal r + cardinal l := by omega
      rw [e]; exact this

end Node
end Verif.Lib
