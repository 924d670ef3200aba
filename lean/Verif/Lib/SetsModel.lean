/-!
# Model of `src/Lib/sets.go` (AVL sets)

Go mutates nodes in place and returns the new root; the model returns the new tree.
A nil-pointer dereference (possible in the rotations) is modelled by `none`, so that
"the operation does not crash" is part of the theorems.
Sharing of nodes between two `Set` values is modelled separately in
`Verif.Lib.SetsAlias`.
-/

namespace Verif.Lib

/-- `Lib.Ordered` (src/Lib/sig.go): the two comparison methods of the element type. -/
class GoOrdered (α : Type) where
  eqb : α → α → Bool
  less : α → α → Bool

/-- The contract of the interface `Lib.Ordered` (src/Lib/sig.go) that every theorem
about sets assumes: `Less` is a strict weak order and `Equals` is incomparability.
(In Go, `Less` and `Equals` on ids, variables and metas compare the indices.) -/
class LawfulGoOrdered (α : Type) [GoOrdered α] : Prop where
  irrefl : ∀ x : α, GoOrdered.less x x = false
  trans : ∀ x y z : α, GoOrdered.less x y = true → GoOrdered.less y z = true →
    GoOrdered.less x z = true
  negtrans : ∀ x y z : α, GoOrdered.less x y = true →
    GoOrdered.less x z = true ∨ GoOrdered.less z y = true
  eqb_iff : ∀ x y : α, GoOrdered.eqb x y = true ↔
    (GoOrdered.less x y = false ∧ GoOrdered.less y x = false)

/-- src/Lib/int.go:42-56, `Lib.Int`. -/
instance : GoOrdered Nat where
  eqb x y := decide (x = y)
  less x y := decide (x < y)

instance : LawfulGoOrdered Nat where
  irrefl := by simp [GoOrdered.less]
  trans := by simp only [GoOrdered.less, decide_eq_true_eq]; intros; omega
  negtrans := by simp only [GoOrdered.less, decide_eq_true_eq]; intros; omega
  eqb_iff := by
    simp only [GoOrdered.less, GoOrdered.eqb, decide_eq_true_eq, decide_eq_false_iff_not]
    intros; omega

open GoOrdered

/-- src/Lib/sets.go:56-61, `Node`; `nil` is Go's nil pointer. -/
inductive Node (α : Type) where
  | nil : Node α
  | node (h : Nat) (l : Node α) (v : α) (r : Node α) : Node α
deriving Repr, DecidableEq

namespace Node
variable {α : Type}

/-- src/Lib/sets.go:63-68. -/
def height : Node α → Nat
  | nil => 0
  | node h _ _ _ => h

/-- src/Lib/sets.go:70-78. -/
def mkNode (x : α) : Node α := node 1 nil x nil

/-- src/Lib/sets.go:80-85. -/
def balance : Node α → Int
  | nil => 0
  | node _ l _ r => (height l : Int) - (height r : Int)

/-- A node whose height has just been set with `newHeight` (src/Lib/sets.go:87-89). -/
def mk (l : Node α) (v : α) (r : Node α) : Node α :=
  node (1 + max (height l) (height r)) l v r

/-- src/Lib/sets.go:91-98; `none` is the nil dereference of `w.left`. -/
def rotateLeft : Node α → Option (Node α)
  | node _ (node _ ll lv lr) v r => some (mk ll lv (mk lr v r))
  | _ => none

/-- src/Lib/sets.go:100-107; `none` is the nil dereference of `w.right`. -/
def rotateRight : Node α → Option (Node α)
  | node _ l v (node _ rl rv rr) => some (mk (mk l v rl) rv rr)
  | _ => none

/-- src/Lib/sets.go:109-134. -/
def rebalance : Node α → Option (Node α)
  | nil => some nil
  | node h l v r =>
    if balance (node h l v r) > 1 then
      if balance l > 0 then rotateLeft (node h l v r)
      else (rotateRight l).bind fun l' => rotateLeft (node h l' v r)
    else if balance (node h l v r) < -1 then
      if balance r < 0 then rotateRight (node h l v r)
      else (rotateLeft r).bind fun r' => rotateRight (node h l v r')
    else some (node h l v r)

variable [GoOrdered α]

/-- src/Lib/sets.go:136-152. -/
def insert : Node α → α → Option (Node α)
  | nil, x => some (mkNode x)
  | node h l v r, x =>
    if eqb v x then some (node h l v r)
    else if less x v then (insert l x).bind fun l' => rebalance (mk l' v r)
    else (insert r x).bind fun r' => rebalance (mk l v r')

/-- src/Lib/sets.go:154-159 on the non-nil node `(l, v, _)`. -/
def minValue : Node α → α → α
  | nil, v => v
  | node _ l' v' _, _ => minValue l' v'

/-- src/Lib/sets.go:161-194. -/
def remove : Node α → α → Option (Node α)
  | nil, _ => some nil
  | node _ l v r, x =>
    if less x v then (remove l x).bind fun l' => rebalance (mk l' v r)
    else if less v x then (remove r x).bind fun r' => rebalance (mk l v r')
    else
      match l, r with
      | nil, nil => some nil
      | nil, node _ rl rv rr => rebalance (mk rl rv rr)
      | node _ ll lv lr, nil => rebalance (mk ll lv lr)
      | l@(node _ _ _ _), node rh rl rv rr =>
        let newVal := minValue rl rv
        (remove (node rh rl rv rr) newVal).bind fun r' => rebalance (mk l newVal r')

/-- src/Lib/sets.go:196-206: left elements, right elements, then the value. -/
def elements : Node α → List α
  | nil => []
  | node _ l v r => elements l ++ (elements r ++ [v])

/-- src/Lib/sets.go:208-221. -/
def find : Node α → α → Bool
  | nil, _ => false
  | node _ l v r, x =>
    if eqb x v then true
    else if less x v then find l x
    else find r x

/-- src/Lib/sets.go:223-229. -/
def cardinal : Node α → Nat
  | nil => 0
  | node _ l _ r => 1 + cardinal l + cardinal r

/-- src/Lib/sets.go:231-241; note that the copy keeps height 1 in every node. -/
def nodeCpy : Node α → Node α
  | nil => nil
  | node _ l v r => node 1 (nodeCpy l) v (nodeCpy r)

end Node

/-- src/Lib/sets.go:246-248. -/
structure GoSet (α : Type) where
  root : Node α
deriving Repr, DecidableEq

namespace GoSet
variable {α : Type} [GoOrdered α]

/-- src/Lib/sets.go:254-256. -/
def empty : GoSet α := ⟨.nil⟩

/-- src/Lib/sets.go:258-263 (variadic). -/
def addAll : GoSet α → List α → Option (GoSet α)
  | s, [] => some s
  | s, x :: xs => (s.root.insert x).bind fun t => addAll ⟨t⟩ xs

/-- src/Lib/sets.go:258-263 with one argument. -/
def add (s : GoSet α) (x : α) : Option (GoSet α) := s.addAll [x]

/-- src/Lib/sets.go:265-267. -/
def singleton (x : α) : Option (GoSet α) := (Node.nil.insert x).map GoSet.mk

/-- src/Lib/sets.go:269-271. -/
def remove (s : GoSet α) (x : α) : Option (GoSet α) := (s.root.remove x).map GoSet.mk

/-- src/Lib/sets.go:273-275. -/
def elements (s : GoSet α) : List α := s.root.elements

/-- src/Lib/sets.go:277-279. -/
def contains (s : GoSet α) (x : α) : Bool := s.root.find x

/-- src/Lib/sets.go:281-286. -/
def union (s0 s1 : GoSet α) : Option (GoSet α) :=
  s1.elements.foldlM (fun s x => s.add x) s0

/-- src/Lib/sets.go:288-296. -/
def inter (s0 s1 : GoSet α) : Option (GoSet α) :=
  s1.elements.foldlM (fun s2 x => if s0.contains x then s2.add x else some s2) empty

/-- src/Lib/sets.go:298-303. -/
def diff (s0 s1 : GoSet α) : Option (GoSet α) :=
  s1.elements.foldlM (fun s x => s.remove x) s0

/-- src/Lib/sets.go:305-307. -/
def disjoint (s0 s1 : GoSet α) : Bool := !(s1.elements.any s0.contains)

/-- src/Lib/sets.go:309-311. -/
def cardinal (s : GoSet α) : Nat := s.root.cardinal

/-- src/Lib/sets.go:313-315. -/
def isEmpty (s : GoSet α) : Bool := match s.root with | .nil => true | .node .. => false

/-- src/Lib/sets.go:317-319. -/
def copy (s : GoSet α) : GoSet α := ⟨s.root.nodeCpy⟩

/-- src/Lib/sets.go:321-329. `res.Add(x)` discards its result: `res` is a local struct
whose `root` stays nil, so each `Add` inserts in the empty tree and the node is lost. -/
def filter (s : GoSet α) (pred : α → Bool) : Option (GoSet α) :=
  s.elements.foldlM (fun res x => if pred x then (res.add x).map (fun _ => res) else some res)
    (empty : GoSet α)

end GoSet
end Verif.Lib
