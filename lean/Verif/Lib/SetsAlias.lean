import Verif.Lib.SetsProps
/-!
# Sets in memory (`src/Lib/sets.go`): the nodes are shared and changed in place

`Verif.Lib.SetsModel` models a set by a tree. In Go a set is a pointer to nodes, and `Add` changes
nodes in place. Here the nodes live in a memory. The result of `Add` is shown to be the tree of
`Verif.Lib.SetsModel`, and nodes outside the set are shown to be untouched. The second part shows what
happens to *another* set value that shares nodes with the changed one.

Each operation runs alone; interleavings of memory accesses are not modelled.
-/
set_option linter.unusedSimpArgs false

namespace Verif.Lib.Alias
open Verif.Lib GoOrdered

/-! ### Model -/

/-- A node (src/Lib/sets.go:56-61); `none` is the nil pointer. -/
structure Cell (α : Type) where
  h : Nat
  l : Option Nat
  v : α
  r : Option Nat

/-- The memory: addresses from `next` on are free. -/
structure Mem (α : Type) where
  cell : Nat → Option (Cell α)
  next : Nat

variable {α : Type}

/-- The memory of a program that has not allocated any node. -/
def Mem.empty : Mem α := ⟨fun _ => none, 0⟩

/-- Assignment to the fields of a node. -/
def Mem.set (H : Mem α) (a : Nat) (c : Cell α) : Mem α :=
  ⟨fun b => if b = a then some c else H.cell b, H.next⟩

/-- Allocation (src/Lib/sets.go:70-78). -/
def Mem.alloc (H : Mem α) (x : α) : Mem α × Nat :=
  (⟨fun b => if b = H.next then some ⟨1, none, x, none⟩ else H.cell b, H.next + 1⟩, H.next)

/-- src/Lib/sets.go:63-68. -/
def Mem.height (H : Mem α) : Option Nat → Option Nat
  | none => some 0
  | some a => (H.cell a).map (·.h)

/-- src/Lib/sets.go:80-85. -/
def Mem.balance (H : Mem α) : Option Nat → Option Int
  | none => some 0
  | some a => (H.cell a).bind fun c => (H.height c.l).bind fun x => (H.height c.r).map fun y =>
      (x : Int) - (y : Int)

/-- `node.height = newHeight(node)` (src/Lib/sets.go:87-89). -/
def Mem.newHeight (H : Mem α) (a : Nat) : Option (Mem α) :=
  (H.cell a).bind fun c => (H.height c.l).bind fun x => (H.height c.r).map fun y =>
    H.set a { c with h := 1 + max x y }

/-- src/Lib/sets.go:91-98; `none` is a nil dereference. -/
def Mem.rotateLeft (H : Mem α) (w : Nat) : Option (Mem α × Nat) :=
  (H.cell w).bind fun cw => cw.l.bind fun n => (H.cell n).bind fun cn =>
  let H1 := H.set w { cw with l := cn.r }
  (H1.cell n).bind fun cn =>
  let H2 := H1.set n { cn with r := some w }
  (H2.newHeight w).bind fun H3 => (H3.newHeight n).map fun H4 => (H4, n)

/-- src/Lib/sets.go:100-107. -/
def Mem.rotateRight (H : Mem α) (w : Nat) : Option (Mem α × Nat) :=
  (H.cell w).bind fun cw => cw.r.bind fun n => (H.cell n).bind fun cn =>
  let H1 := H.set w { cw with r := cn.l }
  (H1.cell n).bind fun cn =>
  let H2 := H1.set n { cn with l := some w }
  (H2.newHeight w).bind fun H3 => (H3.newHeight n).map fun H4 => (H4, n)

/-- `node.left = p`. -/
def Mem.setLeft (H : Mem α) (a p : Nat) : Option (Mem α) :=
  (H.cell a).map fun c => H.set a { c with l := some p }

/-- `node.right = p`. -/
def Mem.setRight (H : Mem α) (a p : Nat) : Option (Mem α) :=
  (H.cell a).map fun c => H.set a { c with r := some p }

/-- src/Lib/sets.go:109-134. -/
def Mem.rebalance (H : Mem α) (a : Nat) : Option (Mem α × Nat) :=
  (H.balance (some a)).bind fun b =>
  (H.cell a).bind fun c =>
  if b > 1 then
    (H.balance c.l).bind fun bl =>
    if bl > 0 then H.rotateLeft a
    else c.l.bind fun lp => (H.rotateRight lp).bind fun q =>
      (q.1.setLeft a q.2).bind fun H' => H'.rotateLeft a
  else if b < -1 then
    (H.balance c.r).bind fun br =>
    if br < 0 then H.rotateRight a
    else c.r.bind fun rp => (H.rotateLeft rp).bind fun q =>
      (q.1.setRight a q.2).bind fun H' => H'.rotateRight a
  else some (H, a)

variable [GoOrdered α]

/-- src/Lib/sets.go:136-152. The fuel bounds the recursion along the pointers; `none` stands for
running out of fuel or a nil dereference. -/
def Mem.insert : Nat → Mem α → Option Nat → α → Option (Mem α × Nat)
  | 0, _, _, _ => none
  | _ + 1, H, none, x => some (H.alloc x)
  | n + 1, H, some a, x =>
    (H.cell a).bind fun c =>
    if eqb c.v x then some (H, a)
    else if less x c.v then
      (Mem.insert n H c.l x).bind fun q => (q.1.setLeft a q.2).bind fun H1 =>
      (H1.newHeight a).bind fun H2 => H2.rebalance a
    else
      (Mem.insert n H c.r x).bind fun q => (q.1.setRight a q.2).bind fun H1 =>
      (H1.newHeight a).bind fun H2 => H2.rebalance a

/-- src/Lib/sets.go:208-221. -/
def Mem.find : Nat → Mem α → Option Nat → α → Option Bool
  | 0, _, _, _ => none
  | _ + 1, _, none, _ => some false
  | n + 1, H, some a, x =>
    (H.cell a).bind fun c =>
    if eqb x c.v then some true
    else if less x c.v then Mem.find n H c.l x
    else Mem.find n H c.r x

/-! ### Trees in memory -/

omit [GoOrdered α] in
/-- Free addresses are free. -/
def Mem.WF (H : Mem α) : Prop := ∀ b, H.next ≤ b → H.cell b = none

/-- The nodes reachable from the pointer form the tree, without sharing; the last argument lists their
addresses. -/
inductive Tree (H : Mem α) : Option Nat → Node α → List Nat → Prop
  | nil : Tree H none .nil []
  | node {a h l v r tl tr fl fr} : H.cell a = some ⟨h, l, v, r⟩ → Tree H l tl fl → Tree H r tr fr →
      a ∉ fl → a ∉ fr → (∀ b ∈ fl, b ∉ fr) → Tree H (some a) (.node h tl v tr) (a :: (fl ++ fr))

/-- What an operation on the nodes `fp` may do: change nodes of `fp`, allocate. -/
structure Upd (H H' : Mem α) (fp fp' : List Nat) : Prop where
  next : H.next ≤ H'.next
  wf : H'.WF
  frame : ∀ b, b ∉ fp → b < H.next → H'.cell b = H.cell b
  foot : ∀ b ∈ fp', b ∈ fp ∨ H.next ≤ b

omit [GoOrdered α]

theorem Tree.frame {H H' : Mem α} {p : Option Nat} {t : Node α} {fp : List Nat} (h : Tree H p t fp)
    (hf : ∀ b ∈ fp, H'.cell b = H.cell b) : Tree H' p t fp := by
  induction h with
  | nil => exact .nil
  | node hc _ _ h1 h2 h3 ihl ihr =>
    refine .node ?_ (ihl fun b hb => hf b (by simp [hb])) (ihr fun b hb => hf b (by simp [hb])) h1 h2 h3
    rw [hf _ (by simp)]; exact hc

theorem Tree.height {H : Mem α} {p : Option Nat} {t : Node α} {fp : List Nat} (h : Tree H p t fp) :
    H.height p = some t.height := by
  cases h with
  | nil => rfl
  | node hc => simp [Mem.height, hc, Node.height]

theorem Tree.balance {H : Mem α} {p : Option Nat} {t : Node α} {fp : List Nat} (h : Tree H p t fp) :
    H.balance p = some t.balance := by
  cases h with
  | nil => rfl
  | node hc hl hr => simp [Mem.balance, hc, Node.balance, hl.height, hr.height]

theorem Tree.lt {H : Mem α} {p : Option Nat} {t : Node α} {fp : List Nat} (h : Tree H p t fp)
    (hw : H.WF) : ∀ b ∈ fp, b < H.next := by
  induction h with
  | nil => simp
  | @node a _ _ _ _ _ _ _ _ hc _ _ _ _ _ ihl ihr =>
    intro b hb
    rcases List.mem_cons.1 hb with rfl | hb
    · rcases Nat.lt_or_ge b H.next with h | h
      · exact h
      · rw [hw b h] at hc; simp at hc
    · rcases List.mem_append.1 hb with hb | hb
      · exact ihl b hb
      · exact ihr b hb

theorem set_cell (H : Mem α) (a b : Nat) (c : Cell α) :
    (H.set a c).cell b = if b = a then some c else H.cell b := rfl

theorem set_next (H : Mem α) (a : Nat) (c : Cell α) : (H.set a c).next = H.next := rfl

theorem set_wf {H : Mem α} (hw : H.WF) {a : Nat} {c0 : Cell α} (h : H.cell a = some c0) (c : Cell α) :
    (H.set a c).WF := by
  intro b hb
  rw [set_cell]
  by_cases e : b = a
  · subst e
    rw [set_next] at hb
    rw [hw b hb] at h; simp at h
  · rw [if_neg e]; exact hw b hb

theorem height_frame {H H' : Mem α} {p : Option Nat} (h : ∀ a, p = some a → H'.cell a = H.cell a) :
    H'.height p = H.height p := by
  cases p with
  | none => rfl
  | some a => simp [Mem.height, h a rfl]

theorem rotateLeft_spec {H : Mem α} (hw : H.WF) {a : Nat} {h hl : Nat} {ll lr r : Node α} {lv v : α}
    {fp : List Nat} (ht : Tree H (some a) (.node h (.node hl ll lv lr) v r) fp) :
    ∃ H' n fp', H.rotateLeft a = some (H', n) ∧
      Tree H' (some n) (Node.mk ll lv (Node.mk lr v r)) fp' ∧ Upd H H' fp fp' := by
  cases ht with
  | @node _ _ lp _ rp _ _ fl fr hc tl tr na nb nd =>
    cases tl with
    | @node n _ llp _ lrp _ _ fll flr hcn tll tlr m1 m2 md =>
      have han : a ≠ n := fun e => na (by simp [e])
      have hna : n ≠ a := fun e => han e.symm
      simp only [List.mem_cons, List.mem_append, not_or] at na nd
      have nd2 : ∀ b, b ∈ flr → b ∉ fr := fun b hb => nd b (by simp [hb])
      have nd1 : ∀ b, b ∈ fll → b ∉ fr := fun b hb => nd b (by simp [hb])
      have nd0 : n ∉ fr := nd n (by simp)
      -- the final memory
      let cw : Cell α := ⟨1 + max lr.height r.height, lrp, v, rp⟩
      let cn : Cell α := ⟨1 + max ll.height (1 + max lr.height r.height), llp, lv, some a⟩
      let H' : Mem α := ⟨fun b => if b = n then some cn else if b = a then some cw else H.cell b, H.next⟩
      have fr_ : ∀ {p : Option Nat} {t : Node α} {f : List Nat}, Tree H p t f → a ∉ f → n ∉ f →
          Tree H' p t f := by
        intro p t f ht h1 h2
        refine ht.frame fun b hb => ?_
        have e1 : b ≠ n := fun e => h2 (e ▸ hb)
        have e2 : b ≠ a := fun e => h1 (e ▸ hb)
        simp [H', e1, e2]
      have T1 := fr_ tll (by simp [na]) m1
      have T2 := fr_ tlr (by simp [na]) m2
      have T3 := fr_ tr nb nd0
      have Ta : Tree H' (some a) (Node.mk lr v r) (a :: (flr ++ fr)) :=
        .node (h := 1 + max lr.height r.height) (by simp [H', han, cw]) T2 T3 (by simp [na]) nb nd2
      have Tn : Tree H' (some n) (Node.mk ll lv (Node.mk lr v r)) (n :: (fll ++ (a :: (flr ++ fr)))) := by
        refine .node (by simp [H', cn, Node.height, Node.mk]) T1 Ta m1 ?_ ?_
        · simp [hna, m2, nd0]
        · intro b hb
          simp only [List.mem_cons, List.mem_append, not_or]
          refine ⟨?_, md b hb, nd1 b hb⟩
          rintro rfl; exact na.2.1 hb
      refine ⟨H', n, _, ?_, Tn, ?_⟩
      · have hh : ∀ (K : Mem α) (p : Option Nat) (t : Node α) (f : List Nat), Tree H p t f → a ∉ f → n ∉ f →
            (∀ b, b ≠ a → b ≠ n → K.cell b = H.cell b) → K.height p = some t.height := by
          intro K p t f ht h1 h2 hk
          refine Tree.height (ht.frame (H' := K) fun b hb => hk b ?_ ?_)
          · rintro rfl; exact h1 hb
          · rintro rfl; exact h2 hb
        simp only [Mem.rotateLeft, hc, hcn, Option.bind_some, set_cell, hna, han, if_false, if_true,
          Mem.newHeight]
        rw [hh _ lrp lr _ tlr (by simp [na]) m2 (by intro b h1 h2; simp [set_cell, h1, h2]),
          hh _ rp r _ tr nb nd0 (by intro b h1 h2; simp [set_cell, h1, h2])]
        simp only [Option.bind_some, Option.map_some, set_cell, hna, if_false, if_true, ite_true]
        rw [hh _ llp ll _ tll (by simp [na]) m1 (by intro b h1 h2; simp [set_cell, h1, h2])]
        simp only [Mem.height, set_cell, if_true, Option.map_some, Option.bind_some, if_neg han]
        congr 2
        simp only [H', Mem.set, cn, cw]
        congr 1
        funext b
        by_cases e1 : b = n
        · simp [e1]
        · by_cases e2 : b = a <;> simp [e1, e2, han]
      · refine ⟨Nat.le_refl _, ?_, ?_, ?_⟩
        · intro b hb
          have e1 : b ≠ n := by rintro rfl; rw [hw b hb] at hcn; simp at hcn
          have e2 : b ≠ a := by rintro rfl; rw [hw b hb] at hc; simp at hc
          simp only [H', e1, e2, if_false]
          exact hw b hb
        · intro b hb _
          simp only [List.mem_cons, List.mem_append, not_or] at hb
          simp [H', hb.1, hb.2.1.1]
        · intro b hb
          left
          simp only [List.mem_cons, List.mem_append] at hb ⊢
          rcases hb with h | h | h | h | h <;> simp [h]

theorem rotateRight_spec {H : Mem α} (hw : H.WF) {a : Nat} {h hr : Nat} {l rl rr : Node α} {rv v : α}
    {fp : List Nat} (ht : Tree H (some a) (.node h l v (.node hr rl rv rr)) fp) :
    ∃ H' n fp', H.rotateRight a = some (H', n) ∧
      Tree H' (some n) (Node.mk (Node.mk l v rl) rv rr) fp' ∧ Upd H H' fp fp' := by
  cases ht with
  | @node _ _ lp _ rp _ _ fl fr hc tl tr na nb nd =>
    cases tr with
    | @node n _ rlp _ rrp _ _ frl frr hcn trl trr m1 m2 md =>
      have han : a ≠ n := fun e => nb (by simp [e])
      have hna : n ≠ a := fun e => han e.symm
      simp only [List.mem_cons, List.mem_append, not_or] at nb nd
      have nd2 : ∀ b, b ∈ fl → b ∉ frl := fun b hb => (nd b hb).2.1
      have nd1 : ∀ b, b ∈ fl → b ∉ frr := fun b hb => (nd b hb).2.2
      have nd0 : n ∉ fl := fun hb => (nd n hb).1 rfl
      let cw : Cell α := ⟨1 + max l.height rl.height, lp, v, rlp⟩
      let cn : Cell α := ⟨1 + max (1 + max l.height rl.height) rr.height, some a, rv, rrp⟩
      let H' : Mem α := ⟨fun b => if b = n then some cn else if b = a then some cw else H.cell b, H.next⟩
      have fr_ : ∀ {p : Option Nat} {t : Node α} {f : List Nat}, Tree H p t f → a ∉ f → n ∉ f →
          Tree H' p t f := by
        intro p t f ht h1 h2
        refine ht.frame fun b hb => ?_
        have e1 : b ≠ n := fun e => h2 (e ▸ hb)
        have e2 : b ≠ a := fun e => h1 (e ▸ hb)
        simp [H', e1, e2]
      have T1 := fr_ trl nb.2.1 m1
      have T2 := fr_ trr nb.2.2 m2
      have T3 := fr_ tl na nd0
      have Ta : Tree H' (some a) (Node.mk l v rl) (a :: (fl ++ frl)) :=
        .node (h := 1 + max l.height rl.height) (by simp [H', han, cw]) T3 T1 na nb.2.1 nd2
      have Tn : Tree H' (some n) (Node.mk (Node.mk l v rl) rv rr) (n :: ((a :: (fl ++ frl)) ++ frr)) := by
        refine .node (by simp [H', cn, Node.height, Node.mk]) Ta T2 ?_ m2 ?_
        · simp [hna, m1, nd0]
        · intro b hb
          simp only [List.mem_cons, List.mem_append] at hb
          rcases hb with rfl | hb | hb
          · exact nb.2.2
          · exact nd1 b hb
          · exact md b hb
      refine ⟨H', n, _, ?_, Tn, ?_⟩
      · have hh : ∀ (K : Mem α) (p : Option Nat) (t : Node α) (f : List Nat), Tree H p t f → a ∉ f → n ∉ f →
            (∀ b, b ≠ a → b ≠ n → K.cell b = H.cell b) → K.height p = some t.height := by
          intro K p t f ht h1 h2 hk
          refine Tree.height (ht.frame (H' := K) fun b hb => hk b ?_ ?_)
          · rintro rfl; exact h1 hb
          · rintro rfl; exact h2 hb
        simp only [Mem.rotateRight, hc, hcn, Option.bind_some, set_cell, hna, han, if_false, if_true,
          Mem.newHeight]
        rw [hh _ lp l _ tl na nd0 (by intro b h1 h2; simp [set_cell, h1, h2]),
          hh _ rlp rl _ trl nb.2.1 m1 (by intro b h1 h2; simp [set_cell, h1, h2])]
        simp only [Option.bind_some, Option.map_some, set_cell, hna, if_false, if_true, ite_true]
        rw [hh _ rrp rr _ trr nb.2.2 m2 (by intro b h1 h2; simp [set_cell, h1, h2])]
        simp only [Mem.height, set_cell, if_true, Option.map_some, Option.bind_some, if_neg han]
        congr 2
        simp only [H', Mem.set, cn, cw]
        congr 1
        funext b
        by_cases e1 : b = n
        · simp [e1]
        · by_cases e2 : b = a <;> simp [e1, e2, han]
      · refine ⟨Nat.le_refl _, ?_, ?_, ?_⟩
        · intro b hb
          have e1 : b ≠ n := by rintro rfl; rw [hw b hb] at hcn; simp at hcn
          have e2 : b ≠ a := by rintro rfl; rw [hw b hb] at hc; simp at hc
          simp only [H', e1, e2, if_false]
          exact hw b hb
        · intro b hb _
          simp only [List.mem_cons, List.mem_append, not_or] at hb
          simp [H', hb.1, hb.2.2.1]
        · intro b hb
          left
          simp only [List.mem_cons, List.mem_append] at hb ⊢
          rcases hb with h | (h | h | h) | h <;> simp [h]

theorem Upd.trans {H H1 H2 : Mem α} {f f1 f2 : List Nat} (u1 : Upd H H1 f f1) (u2 : Upd H1 H2 f1 f2) :
    Upd H H2 f f2 := by
  refine ⟨Nat.le_trans u1.next u2.next, u2.wf, ?_, ?_⟩
  · intro b hb hl
    rw [u2.frame b ?_ (Nat.lt_of_lt_of_le hl u1.next), u1.frame b hb hl]
    intro h
    rcases u1.foot b h with h | h
    · exact hb h
    · omega
  · intro b hb
    rcases u2.foot b hb with h | h
    · exact u1.foot b h
    · have := u1.next; right; omega

theorem newHeight_spec {H : Mem α} (hw : H.WF) {a : Nat} {h : Nat} {l r : Node α} {v : α} {fp : List Nat}
    (ht : Tree H (some a) (.node h l v r) fp) :
    ∃ H', H.newHeight a = some H' ∧ Tree H' (some a) (Node.mk l v r) fp ∧ Upd H H' fp fp := by
  cases ht with
  | @node _ _ lp _ rp _ _ fl fr hc tl tr na nb nd =>
    refine ⟨H.set a ⟨1 + max l.height r.height, lp, v, rp⟩, ?_, ?_, ?_⟩
    · simp [Mem.newHeight, hc, tl.height, tr.height]
    · refine .node (by simp [set_cell]) (tl.frame fun b hb => ?_) (tr.frame fun b hb => ?_) na nb nd
      · rw [set_cell, if_neg]; rintro rfl; exact na hb
      · rw [set_cell, if_neg]; rintro rfl; exact nb hb
    · refine ⟨Nat.le_refl _, set_wf hw hc _, ?_, fun b hb => .inl hb⟩
      intro b hb _
      rw [set_cell, if_neg]; rintro rfl; simp at hb

theorem graftLeft {H H1 : Mem α} (hw : H.WF) {a h : Nat} {lp rp : Option Nat} {n : Nat} {v : α}
    {l' r : Node α} {fl fl' fr : List Nat} (hc : H.cell a = some ⟨h, lp, v, rp⟩) (tr : Tree H rp r fr)
    (na : a ∉ fl) (nb : a ∉ fr) (nd : ∀ b ∈ fl, b ∉ fr) (t' : Tree H1 (some n) l' fl')
    (u : Upd H H1 fl fl') :
    ∃ H2, H1.setLeft a n = some H2 ∧ Tree H2 (some a) (.node h l' v r) (a :: (fl' ++ fr)) ∧
      Upd H H2 (a :: (fl ++ fr)) (a :: (fl' ++ fr)) := by
  have hal : a < H.next := by
    rcases Nat.lt_or_ge a H.next with h | h
    · exact h
    · rw [hw a h] at hc; simp at hc
  have hc1 : H1.cell a = some ⟨h, lp, v, rp⟩ := by rw [u.frame a na hal, hc]
  have na' : a ∉ fl' := by
    intro h
    rcases u.foot a h with h | h
    · exact na h
    · omega
  have hfr := tr.lt hw
  have nd' : ∀ b ∈ fl', b ∉ fr := by
    intro b hb hr
    rcases u.foot b hb with h | h
    · exact nd b h hr
    · have := hfr b hr; omega
  refine ⟨H1.set a ⟨h, some n, v, rp⟩, by simp [Mem.setLeft, hc1], ?_, ?_⟩
  · refine .node (by simp [set_cell]) (t'.frame fun b hb => ?_) (tr.frame fun b hb => ?_) na' nb nd'
    · rw [set_cell, if_neg]; rintro rfl; exact na' hb
    · rw [set_cell, if_neg]
      · exact u.frame b (fun h => nd b h hb) (hfr b hb)
      · rintro rfl; exact nb hb
  · refine ⟨u.next, set_wf u.wf hc1 _, ?_, ?_⟩
    · intro b hb hl
      simp only [List.mem_cons, List.mem_append, not_or] at hb
      rw [set_cell, if_neg hb.1]
      exact u.frame b hb.2.1 hl
    · intro b hb
      simp only [List.mem_cons, List.mem_append] at hb ⊢
      rcases hb with h | h | h
      · simp [h]
      · rcases u.foot b h with h | h <;> simp [h]
      · simp [h]

theorem graftRight {H H1 : Mem α} (hw : H.WF) {a h : Nat} {lp rp : Option Nat} {n : Nat} {v : α}
    {l r' : Node α} {fl fr fr' : List Nat} (hc : H.cell a = some ⟨h, lp, v, rp⟩) (tl : Tree H lp l fl)
    (na : a ∉ fl) (nb : a ∉ fr) (nd : ∀ b ∈ fl, b ∉ fr) (t' : Tree H1 (some n) r' fr')
    (u : Upd H H1 fr fr') :
    ∃ H2, H1.setRight a n = some H2 ∧ Tree H2 (some a) (.node h l v r') (a :: (fl ++ fr')) ∧
      Upd H H2 (a :: (fl ++ fr)) (a :: (fl ++ fr')) := by
  have hal : a < H.next := by
    rcases Nat.lt_or_ge a H.next with h | h
    · exact h
    · rw [hw a h] at hc; simp at hc
  have hc1 : H1.cell a = some ⟨h, lp, v, rp⟩ := by rw [u.frame a nb hal, hc]
  have nb' : a ∉ fr' := by
    intro h
    rcases u.foot a h with h | h
    · exact nb h
    · omega
  have hfl := tl.lt hw
  have nd' : ∀ b ∈ fl, b ∉ fr' := by
    intro b hb hr
    rcases u.foot b hr with h | h
    · exact nd b hb h
    · have := hfl b hb; omega
  refine ⟨H1.set a ⟨h, lp, v, some n⟩, by simp [Mem.setRight, hc1], ?_, ?_⟩
  · refine .node (by simp [set_cell]) (tl.frame fun b hb => ?_) (t'.frame fun b hb => ?_) na nb' nd'
    · rw [set_cell, if_neg]
      · exact u.frame b (fun h => nd b hb h) (hfl b hb)
      · rintro rfl; exact na hb
    · rw [set_cell, if_neg]; rintro rfl; exact nb' hb
  · refine ⟨u.next, set_wf u.wf hc1 _, ?_, ?_⟩
    · intro b hb hl
      simp only [List.mem_cons, List.mem_append, not_or] at hb
      rw [set_cell, if_neg hb.1]
      exact u.frame b hb.2.2 hl
    · intro b hb
      simp only [List.mem_cons, List.mem_append] at hb ⊢
      rcases hb with h | h | h
      · simp [h]
      · simp [h]
      · rcases u.foot b h with h | h <;> simp [h]

theorem rebalance_spec {H : Mem α} (hw : H.WF) {a : Nat} {t t' : Node α} {fp : List Nat}
    (ht : Tree H (some a) t fp) (e : t.rebalance = some t') :
    ∃ H' n fp', H.rebalance a = some (H', n) ∧ Tree H' (some n) t' fp' ∧ Upd H H' fp fp' := by
  have hb := ht.balance
  have ht0 := ht
  cases ht with
  | @node _ h lp v rp l r fl fr hc tl tr na nb nd =>
    simp only [Node.rebalance] at e
    simp only [Mem.rebalance, hb, hc, Option.bind_some]
    split at e
    · rename_i h1
      rw [if_pos h1]
      simp only [tl.balance, Option.bind_some]
      split at e
      · rename_i h2
        rw [if_pos h2]
        cases l with
        | nil => simp [Node.balance] at h2
        | node hl ll lv lr =>
          obtain ⟨H', n, fp', e1, e2, e3⟩ := rotateLeft_spec hw ht0
          cases e
          exact ⟨H', n, fp', e1, e2, e3⟩
      · rename_i h2
        rw [if_neg h2]
        cases l with
        | nil => simp [Node.rotateRight] at e
        | node hl ll lv lr =>
          cases lr with
          | nil => simp [Node.rotateRight] at e
          | node hlr lrl lrv lrr =>
            cases lp with
            | none => cases tl
            | some lp =>
              obtain ⟨H1, n, fl', e1, e2, u1⟩ := rotateRight_spec hw tl
              obtain ⟨H2, e3, t2, u2⟩ := graftLeft hw hc tr na nb nd e2 u1
              simp only [Option.bind_some, e1, e3]
              obtain ⟨H3, m, fp', e4, t3, u3⟩ := rotateLeft_spec u2.wf (show Tree H2 (some a)
                (.node h (Node.node _ (Node.mk ll lv lrl) lrv lrr) v r) _ from t2)
              simp only [Node.rotateRight, Option.bind_some] at e
              cases e
              exact ⟨H3, m, fp', e4, t3, u2.trans u3⟩
    · rename_i h1
      rw [if_neg h1]
      split at e
      · rename_i h1'
        rw [if_pos h1']
        simp only [tr.balance, Option.bind_some]
        split at e
        · rename_i h2
          rw [if_pos h2]
          cases r with
          | nil => simp [Node.balance] at h2
          | node hl ll lv lr =>
            obtain ⟨H', n, fp', e1, e2, e3⟩ := rotateRight_spec hw ht0
            cases e
            exact ⟨H', n, fp', e1, e2, e3⟩
        · rename_i h2
          rw [if_neg h2]
          cases r with
          | nil => simp [Node.rotateLeft] at e
          | node hr rl rv rr =>
            cases rl with
            | nil => simp [Node.rotateLeft] at e
            | node hrl rll rlv rlr =>
              cases rp with
              | none => cases tr
              | some rp =>
                obtain ⟨H1, n, fr', e1, e2, u1⟩ := rotateLeft_spec hw tr
                obtain ⟨H2, e3, t2, u2⟩ := graftRight hw hc tl na nb nd e2 u1
                simp only [Option.bind_some, e1, e3]
                obtain ⟨H3, m, fp', e4, t3, u3⟩ := rotateRight_spec u2.wf (show Tree H2 (some a)
                  (.node h l v (Node.node _ rll rlv (Node.mk rlr rv rr))) _ from t2)
                simp only [Node.rotateLeft, Option.bind_some] at e
                cases e
                exact ⟨H3, m, fp', e4, t3, u2.trans u3⟩
      · rename_i h1'
        rw [if_neg h1']
        cases e
        exact ⟨H, a, _, rfl, ht0, ⟨Nat.le_refl _, hw, fun _ _ _ => rfl, fun b hb => .inl hb⟩⟩

variable [GoOrdered α]

/-- `Add` in memory: if the nodes of a set form a tree, the set returned by the insertion is the tree
of the model `Verif.Lib.SetsModel`; only nodes of the set are changed. -/
theorem insert_spec {H : Mem α} (hw : H.WF) {p : Option Nat} {t t' : Node α} {fp : List Nat} {x : α}
    (ht : Tree H p t fp) (e : t.insert x = some t') (n : Nat) (hn : t.depth < n) :
    ∃ H' q fp', H.insert n p x = some (H', q) ∧ Tree H' (some q) t' fp' ∧ Upd H H' fp fp' := by
  induction n generalizing H p t t' fp with
  | zero => omega
  | succ n ih =>
    cases ht with
    | nil =>
      simp only [Node.insert] at e
      cases e
      refine ⟨(H.alloc x).1, H.next, [H.next], rfl, ?_, ?_⟩
      · exact .node (a := H.next) (h := 1) (v := x) (l := none) (r := none) (fl := []) (fr := [])
          (by simp [Mem.alloc]) .nil .nil (by simp) (by simp) (by simp)
      · refine ⟨by simp [Mem.alloc], ?_, ?_, by simp⟩
        · intro b hb
          simp only [Mem.alloc] at hb ⊢
          rw [if_neg (by omega)]
          exact hw b (by omega)
        · intro b _ hb
          simp only [Mem.alloc]
          rw [if_neg (by omega)]
    | @node a h lp v rp l r fl fr hc tl tr na nb nd =>
      simp only [Node.depth] at hn
      simp only [Node.insert] at e
      simp only [Mem.insert, hc, Option.bind_some]
      split at e
      · rename_i h1
        rw [if_pos h1]
        cases e
        exact ⟨H, a, _, rfl, .node hc tl tr na nb nd, ⟨Nat.le_refl _, hw, fun _ _ _ => rfl, fun b hb => .inl hb⟩⟩
      · rename_i h1
        rw [if_neg h1]
        split at e
        · rename_i h2
          rw [if_pos h2]
          obtain ⟨l', e1, e2⟩ := Option.bind_eq_some_iff.1 e
          obtain ⟨H1, q, fl', f1, t1, u1⟩ := ih hw tl e1 (by omega)
          obtain ⟨H2, f2, t2, u2⟩ := graftLeft hw hc tr na nb nd t1 u1
          obtain ⟨H3, f3, t3, u3⟩ := newHeight_spec u2.wf t2
          obtain ⟨H4, m, fp', f4, t4, u4⟩ := rebalance_spec u3.wf t3 e2
          exact ⟨H4, m, fp', by simp [f1, f2, f3, f4], t4, (u2.trans u3).trans u4⟩
        · rename_i h2
          rw [if_neg h2]
          obtain ⟨r', e1, e2⟩ := Option.bind_eq_some_iff.1 e
          obtain ⟨H1, q, fr', f1, t1, u1⟩ := ih hw tr e1 (by omega)
          obtain ⟨H2, f2, t2, u2⟩ := graftRight hw hc tl na nb nd t1 u1
          obtain ⟨H3, f3, t3, u3⟩ := newHeight_spec u2.wf t2
          obtain ⟨H4, m, fp', f4, t4, u4⟩ := rebalance_spec u3.wf t3 e2
          exact ⟨H4, m, fp', by simp [f1, f2, f3, f4], t4, (u2.trans u3).trans u4⟩

/-- `Contains` in memory. -/
theorem find_spec {H : Mem α} {p : Option Nat} {t : Node α} {fp : List Nat} (x : α) (ht : Tree H p t fp)
    (n : Nat) (hn : t.depth < n) : H.find n p x = some (t.find x) := by
  induction n generalizing p t fp with
  | zero => omega
  | succ n ih =>
    cases ht with
    | nil => rfl
    | node hc tl tr _ _ _ =>
      simp only [Node.depth] at hn
      simp only [Mem.find, hc, Option.bind_some, Node.find]
      split
      · rfl
      · split
        · exact ih tl (by omega)
        · exact ih tr (by omega)

/-! ### Programs over sets -/

/-- `Set.Add` (src/Lib/sets.go:258-263) of one value. The fuel exceeds the length of every path without
repetition. -/
def Mem.add (H : Mem α) (p : Option Nat) (x : α) : Option (Mem α × Nat) := H.insert (H.next + 1) p x

/-- `Set.Contains` (src/Lib/sets.go:277-279). -/
def Mem.contains (H : Mem α) (p : Option Nat) (x : α) : Option Bool := H.find (H.next + 1) p x

omit [GoOrdered α] in
theorem length_le_of_lt : ∀ (n : Nat) (l : List Nat), l.Nodup → (∀ b ∈ l, b < n) → l.length ≤ n := by
  intro n
  induction n with
  | zero =>
    intro l _ h
    cases l with
    | nil => simp
    | cons b l => exact absurd (h b (by simp)) (by omega)
  | succ n ih =>
    intro l hn h
    have := ih (l.erase n) (hn.erase n) (by
      intro b hb
      rw [hn.mem_erase_iff] at hb
      have := h b hb.2
      omega)
    by_cases hm : n ∈ l
    · rw [List.length_erase_of_mem hm] at this; omega
    · rw [List.erase_of_not_mem hm] at this; omega

omit [GoOrdered α] in
theorem Tree.nodup {H : Mem α} {p : Option Nat} {t : Node α} {fp : List Nat} (h : Tree H p t fp) :
    fp.Nodup ∧ t.depth ≤ fp.length := by
  induction h with
  | nil => simp [Node.depth]
  | node hc _ _ h1 h2 h3 ihl ihr =>
    refine ⟨?_, ?_⟩
    · rw [List.nodup_cons, List.nodup_append]
      refine ⟨by simp [h1, h2], ihl.1, ihr.1, ?_⟩
      rintro a ha b hb rfl
      exact h3 a ha hb
    · simp only [Node.depth, List.length_cons, List.length_append]
      omega

omit [GoOrdered α] in
theorem Tree.depth_le {H : Mem α} (hw : H.WF) {p : Option Nat} {t : Node α} {fp : List Nat}
    (h : Tree H p t fp) : t.depth < H.next + 1 := by
  have h1 := h.nodup
  have h2 := length_le_of_lt H.next fp h1.1 (h.lt hw)
  omega

/-- A program that keeps all set values it ever obtained: each step adds an element to one of them and
keeps the result as a new value. Value 0 is the empty set. -/
structure Store (α : Type) where
  mem : Mem α
  vals : List (Option Nat)

/-- The start: the empty set. -/
def Store.start : Store α := ⟨Mem.empty, [none]⟩

/-- `v := vals[i].Add(x)`. -/
def Store.step (s : Store α) (i : Nat) (x : α) : Option (Store α) :=
  (s.vals[i]?).bind fun p => (s.mem.add p x).map fun q => ⟨q.1, s.vals ++ [some q.2]⟩

/-- A sequence of such steps. -/
def Store.run : Store α → List (Nat × α) → Option (Store α)
  | s, [] => some s
  | s, (i, x) :: l => (s.step i x).bind fun s' => s'.run l

/-- C60, the full claim: adding an element to a set leaves every set obtained before as it was. -/
def C60_statement (α : Type) [GoOrdered α] : Prop :=
  ∀ (prog : List (Nat × α)) (s s' : Store α) (i : Nat) (x : α), Store.start.run prog = some s →
    s.step i x = some s' → ∀ (j : Nat) (p : Option Nat), s.vals[j]? = some p → ∀ y,
      s'.mem.contains p y = s.mem.contains p y

/-- C60 fails, an element is gained: after `s1 = {1}` and `s2 = s1.Add(2)`, the set `s1` contains 2. -/
theorem C60_violated_gain : ∃ s s' : Store Nat, Store.start.run [(0, 1)] = some s ∧
    s.step 1 2 = some s' ∧ ∃ p, s.vals[1]? = some p ∧
      s.mem.contains p 2 = some false ∧ s'.mem.contains p 2 = some true := by
  refine ⟨(Store.start.run [(0, 1)]).get (by decide +kernel),
    (((Store.start.run [(0, 1)]).get (by decide +kernel)).step 1 2).get (by decide +kernel), ?_, ?_,
    some 0, ?_, ?_, ?_⟩
  · simp
  · simp
  · decide +kernel
  · decide +kernel
  · decide +kernel

/-- C60 fails, an element is lost: after `s1 = {1, 2}` and `s2 = s1.Add(3)`, the set `s1` no longer
contains 2: the rotation made its root an inner node. -/
theorem C60_violated_loss : ∃ s s' : Store Nat, Store.start.run [(0, 1), (1, 2)] = some s ∧
    s.step 2 3 = some s' ∧ ∃ p, s.vals[2]? = some p ∧
      s.mem.contains p 2 = some true ∧ s'.mem.contains p 2 = some false := by
  refine ⟨(Store.start.run [(0, 1), (1, 2)]).get (by decide +kernel),
    (((Store.start.run [(0, 1), (1, 2)]).get (by decide +kernel)).step 2 3).get (by decide +kernel), ?_, ?_,
    some 0, ?_, ?_, ?_⟩
  · simp
  · simp
  · decide +kernel
  · decide +kernel
  · decide +kernel

/-- The full claim of C60 is false. -/
theorem C60_statement_false : ¬ C60_statement Nat := by
  intro h
  obtain ⟨s, s', h1, h2, p, h3, h4, h5⟩ := C60_violated_loss
  have := h _ s s' 2 3 h1 h2 2 p h3 2
  rw [h4, h5] at this
  simp at this

/-- A program with variables that hold sets, in which the result of each `Add` replaces the set it was
made from (`v = v.Add(x)`). -/
structure Vars (α : Type) where
  mem : Mem α
  var : Nat → Option Nat

/-- All variables empty. -/
def Vars.start : Vars α := ⟨Mem.empty, fun _ => none⟩

/-- `v_k = v_k.Add(x)`. -/
def Vars.step (s : Vars α) (k : Nat) (x : α) : Option (Vars α) :=
  (s.mem.add (s.var k) x).map fun q => ⟨q.1, fun j => if j = k then some q.2 else s.var j⟩

/-- A sequence of such steps. -/
def Vars.run : Vars α → List (Nat × α) → Option (Vars α)
  | s, [] => some s
  | s, (k, x) :: l => (s.step k x).bind fun s' => s'.run l

variable [LawfulGoOrdered α]

/-- C60, what holds: if the result of each `Add` replaces the set it was made from, every variable
always holds exactly the elements added to it, whatever is done to the others; no step crashes. What is
missing: programs that keep the set an element was added to (`C60_violated_gain`,
`C60_violated_loss`). -/
theorem C60_replaced_partial (prog : List (Nat × α)) : ∃ s : Vars α, Vars.start.run prog = some s ∧
    ∀ k y, ∃ b, s.mem.contains (s.var k) y = some b ∧
      (b = true ↔ ∃ x, (k, x) ∈ prog ∧ eqb y x = true) := by
  have key : ∀ (prog : List (Nat × α)) (s : Vars α) (T : Nat → Node α) (F : Nat → List Nat), s.mem.WF →
      (∀ k, Tree s.mem (s.var k) (T k) (F k)) → (∀ k, GoSet.Inv ⟨T k⟩) →
      (∀ j k, j ≠ k → ∀ b ∈ F j, b ∉ F k) →
      ∃ s', s.run prog = some s' ∧ ∀ k y, ∃ b, s'.mem.contains (s'.var k) y = some b ∧
        (b = true ↔ (T k).find y = true ∨ ∃ x, (k, x) ∈ prog ∧ eqb y x = true) := by
    intro prog
    induction prog with
    | nil =>
      intro s T F hw ht _ _
      refine ⟨s, rfl, fun k y => ⟨(T k).find y, ?_, by simp⟩⟩
      exact find_spec y (ht k) _ ((ht k).depth_le hw)
    | cons op prog ih =>
      obtain ⟨k, x⟩ := op
      intro s T F hw ht hi hd
      obtain ⟨s1, e1, i1, m1⟩ := add_inv (hi k) x
      simp only [GoSet.add, GoSet.addAll] at e1
      obtain ⟨t1, e0, e2⟩ := Option.bind_eq_some_iff.1 e1
      cases e2
      obtain ⟨H', q, fp', e3, t3, u3⟩ := insert_spec hw (ht k) e0 _ ((ht k).depth_le hw)
      obtain ⟨s', r1, r2⟩ := ih ⟨H', fun j => if j = k then some q else s.var j⟩
        (fun j => if j = k then t1 else T j) (fun j => if j = k then fp' else F j) u3.wf
        (by
          intro j
          by_cases e : j = k
          · subst e; simpa using t3
          · simp only [e, if_false]
            refine (ht j).frame fun b hb => ?_
            exact u3.frame b (hd j k e b hb) ((ht j).lt hw b hb))
        (by
          intro j
          by_cases e : j = k
          · subst e; simpa using i1
          · simpa [e] using hi j)
        (by
          intro i j hij b hb
          have hfk : ∀ j, j ≠ k → ∀ b ∈ fp', b ∉ F j := by
            intro j hj b hb hbj
            rcases u3.foot b hb with h | h
            · exact hd k j (Ne.symm hj) b h hbj
            · have := (ht j).lt hw b hbj; omega
          by_cases e1 : i = k
          · have e2 : j ≠ k := fun e => hij (e1.trans e.symm)
            simp only [e1, if_true] at hb
            simp only [e2, if_false]
            exact hfk j e2 b hb
          · simp only [e1, if_false] at hb
            by_cases e2 : j = k
            · simp only [e2, if_true]
              intro hb'
              exact hfk i e1 b hb' hb
            · simp only [e2, if_false]
              exact hd i j hij b hb)
      refine ⟨s', ?_, fun j y => ?_⟩
      · simp [Vars.run, Vars.step, Mem.add, e3, r1]
      · obtain ⟨b, h1, h2⟩ := r2 j y
        refine ⟨b, h1, h2.trans ?_⟩
        by_cases e : j = k
        · subst e
          have := m1 y
          simp only [GoSet.contains] at this
          simp only [if_true, this, List.mem_cons, Prod.mk.injEq, true_and]
          constructor
          · rintro ((h | h) | ⟨z, hz, h⟩)
            · exact .inr ⟨x, .inl rfl, h⟩
            · exact .inl h
            · exact .inr ⟨z, .inr hz, h⟩
          · rintro (h | ⟨z, rfl | hz, h⟩)
            · exact .inl (.inr h)
            · exact .inl (.inl h)
            · exact .inr ⟨z, hz, h⟩
        · simp [e]
  obtain ⟨s, h1, h2⟩ := key prog Vars.start (fun _ => .nil) (fun _ => []) (fun _ _ => rfl)
    (fun _ => .nil) (fun _ => inv_empty) (by simp)
  refine ⟨s, h1, fun k y => ?_⟩
  obtain ⟨b, h3, h4⟩ := h2 k y
  exact ⟨b, h3, by simpa [Node.find] using h4⟩

/-- A program for `C60_replaced_partial` with two variables and a rotation. -/
example : ((Vars.start.run [(0, 1), (1, 7), (0, 2), (0, 3), (1, 5)] : Option (Vars Nat)).bind fun s =>
    (s.mem.contains (s.var 0) 2).bind fun a => (s.mem.contains (s.var 1) 2).map fun b => (a, b))
    = some (true, false) := by decide +kernel

end Verif.Lib.Alias
