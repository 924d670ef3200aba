import Verif.Lib.SetsLemmas
/-!
# Specification vocabulary for C01–C06 (ordered sets of `src/Lib/sets.go`)

Specification vocabulary (independent of the tree code): histories of API calls, and
"some `Add` of `x` is not followed by a `Remove` of `x`".
-/

namespace Verif.Lib
open GoOrdered

section
variable {α : Type} [GoOrdered α]

/-- One call of the mutating API on a set variable (`s = s.Add(x)`, `s = s.Remove(x)`,
`s = s.Copy()`). -/
inductive SetOp (α : Type) where
  | add (x : α)
  | remove (x : α)
  | copy

/-- Runs a history; `none` is a crash. -/
def runOps : GoSet α → List (SetOp α) → Option (GoSet α)
  | s, [] => some s
  | s, .add x :: ops => (s.add x).bind fun s => runOps s ops
  | s, .remove x :: ops => (s.remove x).bind fun s => runOps s ops
  | s, .copy :: ops => runOps s.copy ops

/-- Specification: in the history some `Add` of `x` is not followed by a `Remove` of `x`. -/
def LastWasAdd (ops : List (SetOp α)) (x : α) : Prop :=
  ∃ pre y post, ops = pre ++ SetOp.add y :: post ∧ eqb x y = true ∧
    ∀ z, SetOp.remove z ∈ post → eqb x z = false

/-- The sets a client can obtain through the API. -/
inductive Reachable : GoSet α → Prop where
  | empty : Reachable GoSet.empty
  | singleton (x : α) {s} : GoSet.singleton x = some s → Reachable s
  | add {s s'} (xs : List α) : Reachable s → s.addAll xs = some s' → Reachable s'
  | remove {s s'} (x : α) : Reachable s → s.remove x = some s' → Reachable s'
  | copy {s} : Reachable s → Reachable s.copy
  | union {s0 s1 s} : Reachable s0 → Reachable s1 → s0.union s1 = some s → Reachable s
  | inter {s0 s1 s} : Reachable s0 → Reachable s1 → s0.inter s1 = some s → Reachable s
  | diff {s0 s1 s} : Reachable s0 → Reachable s1 → s0.diff s1 = some s → Reachable s
  | filter {s s'} (p : α → Bool) : Reachable s → s.filter p = some s' → Reachable s'

/-- Specification of "height balanced", on the real depths of the sub-trees. -/
def Balanced : Node α → Prop
  | .nil => True
  | .node _ l _ r => l.depth ≤ r.depth + 1 ∧ r.depth ≤ l.depth + 1 ∧ Balanced l ∧ Balanced r

instance decBalanced : (t : Node α) → Decidable (Balanced t)
  | .nil => .isTrue trivial
  | .node _ l _ r => by
    unfold Balanced
    have := decBalanced l
    have := decBalanced r
    infer_instance

end
end Verif.Lib
