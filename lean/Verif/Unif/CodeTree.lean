/-!
# The term index (`src/Unif/code-trees.go`)

The index is a tree of blocks of instructions. It is modelled for any type `I` of instructions and `F` of
formulas with equality: instructions are compared by `IsEquivalent` (src/Unif/instruction.go:101-127), which is
equality of kind and contents, formulas by `Equals`. Nodes are values here; the code updates the
nodes below the root in place, and always goes on with the returned root (src/Search/state.go:118-127).
-/

namespace Verif.Unif

/-- `Node` (src/Unif/code-trees.go:58-62). -/
inductive Node (I F : Type) where
  | mk (value : List I) (children : List (Node I F)) (formulas : List F)

namespace Node

variable {I F : Type}

def value : Node I F → List I
  | mk v _ _ => v

def children : Node I F → List (Node I F)
  | mk _ c _ => c

def formulas : Node I F → List F
  | mk _ _ f => f

theorem ind {P : Node I F → Prop} (h : ∀ v ch fs, (∀ c ∈ ch, P c) → P (.mk v ch fs)) : ∀ n, P n := by
  intro n
  refine Node.rec (motive_1 := P) (motive_2 := fun l => ∀ c ∈ l, P c) (fun v ch fs hc => h v ch fs hc) ?_ ?_ n
  · simp
  · intro c l h1 h2 d hd
    rcases List.mem_cons.1 hd with rfl | hd
    · exact h1
    · exact h2 d hd

/-- The empty index (`makeNode(nil)`, src/Unif/code-trees.go:151-157). -/
def empty : Node I F := mk [] [] []

section
variable [DecidableEq I] [DecidableEq F]

/-- The loop over the children (src/Unif/code-trees.go:249-256): the last child whose first
instruction is `i`; `none` if a child has an empty block (`child.value[0]` panics). `k` is the index of the first
child of the list, `found` the result so far. -/
def findChild (i : I) : List (Node I F) → Nat → Option Nat → Option (Option Nat)
  | [], _, found => some found
  | c :: rest, k, found =>
    match c.value with
    | [] => none
    | w :: _ => findChild i rest (k + 1) (if i = w then some k else found)

/-- `followInstructions` (src/Unif/code-trees.go:224-289) from the node `current` and counter `oui`;
`none` is a panic. The loop variable `current` moves down the tree; the node returned is the node it
started from, updated. -/
def follow (form : F) : List I → Node I F → Nat → Option (Node I F)
  | [], mk v ch fs, oui =>
    -- after the loop (282-288): the formulas of the node are not passed on to the new child
    if oui < v.length - 1 then some (mk (v.take oui) [mk (v.drop oui) ch []] [form])
    else some (mk v ch fs)
  | instr :: rest, mk v ch fs, oui =>
    match v[oui]? with
    | none => none
    | some w =>
      if instr = w then
        if rest = [] ∧ oui + 1 = v.length ∧ form ∉ fs then some (mk v ch (fs ++ [form]))
        else match rest with
          | [] => follow form [] (mk v ch fs) (oui + 1)
          | next :: rest' =>
            if oui + 1 = v.length then
              match findChild next ch 0 none with
              | none => none
              | some none => some (mk v (ch ++ [mk (next :: rest') [] [form]]) fs)
              | some (some k) =>
                match ch[k]? with
                | none => none
                | some c => (follow form (next :: rest') c 0).map fun c' => mk v (ch.set k c') fs
            else follow form (next :: rest') (mk v ch fs) (oui + 1)
      else some (mk (v.take oui) [mk (v.drop oui) ch fs, mk (instr :: rest) [] [form]] [])

/-- `insert` (src/Unif/code-trees.go:214-221). -/
def insert (n : Node I F) (seq : List I) (form : F) : Option (Node I F) :=
  match n with
  | mk [] ch _ => some (mk seq ch [form])
  | mk (i :: v) ch fs => follow form seq (mk (i :: v) ch fs) 0

/-- A sequence of insertions (`makeCodeTree`, `InsertFormulaListToDataStructure`,
src/Unif/code-trees.go:129-139, 160-175). -/
def insertAll (n : Node I F) : List (List I × F) → Option (Node I F)
  | [] => some n
  | (s, f) :: rest => (n.insert s f).bind fun n => n.insertAll rest

end

mutual
/-- Specification: what is stored, the formulas with the instructions on the way to them. -/
def paths : Node I F → List (List I × F)
  | mk v ch fs => fs.map (fun f => (v, f)) ++ pathsL v ch
def pathsL (v : List I) : List (Node I F) → List (List I × F)
  | [] => []
  | c :: rest => (paths c).map (fun p => (v ++ p.1, p.2)) ++ pathsL v rest
end

theorem mem_pathsL {v : List I} {ch : List (Node I F)} {s : List I} {f : F} :
    (s, f) ∈ pathsL v ch ↔ ∃ c ∈ ch, ∃ s', (s', f) ∈ c.paths ∧ s = v ++ s' := by
  induction ch with
  | nil => simp [pathsL]
  | cons c rest ih =>
    simp only [pathsL, List.mem_append, List.mem_map, Prod.mk.injEq, ih, List.mem_cons, exists_eq_or_imp]
    refine or_congr ⟨?_, ?_⟩ Iff.rfl
    · rintro ⟨⟨s', f'⟩, h, rfl, rfl⟩; exact ⟨s', h, rfl⟩
    · rintro ⟨s', h, rfl⟩; exact ⟨(s', f), h, rfl, rfl⟩

theorem mem_paths {v : List I} {ch : List (Node I F)} {fs : List F} {s : List I} {f : F} :
    (s, f) ∈ (mk v ch fs).paths ↔ (s = v ∧ f ∈ fs) ∨ ∃ c ∈ ch, ∃ s', (s', f) ∈ c.paths ∧ s = v ++ s' := by
  simp only [paths, List.mem_append, mem_pathsL, List.mem_map, Prod.mk.injEq]
  refine or_congr ⟨?_, ?_⟩ Iff.rfl
  · rintro ⟨f', h, rfl, rfl⟩; exact ⟨rfl, h⟩
  · rintro ⟨rfl, h⟩; exact ⟨f, h, rfl, rfl⟩

/-! ### Invariant -/

mutual
/-- Blocks are not empty, children start with different instructions, and a node either has children or
formulas. -/
def WF : Node I F → Prop
  | mk v ch fs => v ≠ [] ∧ WFL ch ∧ (ch.map fun c => c.value.head?).Nodup ∧
      ((ch = [] ∧ fs ≠ [] ∧ fs.Nodup) ∨ (ch ≠ [] ∧ fs = []))
def WFL : List (Node I F) → Prop
  | [] => True
  | c :: rest => WF c ∧ WFL rest
end

theorem WFL_iff {ch : List (Node I F)} : WFL ch ↔ ∀ c ∈ ch, c.WF := by
  induction ch with
  | nil => simp [WFL]
  | cons c rest ih => simp [WFL, ih]

theorem WF_iff {v : List I} {ch : List (Node I F)} {fs : List F} : (mk v ch fs).WF ↔
    v ≠ [] ∧ (∀ c ∈ ch, c.WF) ∧ (ch.map fun c => c.value.head?).Nodup ∧
      ((ch = [] ∧ fs ≠ [] ∧ fs.Nodup) ∨ (ch ≠ [] ∧ fs = [])) := by
  rw [WF, WFL_iff]

theorem WF.value_ne {n : Node I F} (h : n.WF) : n.value ≠ [] := by
  obtain ⟨v, ch, fs⟩ := n
  exact (WF_iff.1 h).1

/-- There is something below every node. -/
theorem WF.exists_path {n : Node I F} (h : n.WF) : ∃ s f, (s, f) ∈ n.paths ∧ n.value <+: s := by
  induction n using ind with
  | h v ch fs ih =>
    obtain ⟨_, h2, _, h4⟩ := WF_iff.1 h
    rcases h4 with ⟨_, h4, _⟩ | ⟨h4, _⟩
    · obtain ⟨f, hf⟩ := List.exists_mem_of_ne_nil _ h4
      exact ⟨v, f, mem_paths.2 (Or.inl ⟨rfl, hf⟩), List.prefix_rfl⟩
    · obtain ⟨c, hc⟩ := List.exists_mem_of_ne_nil _ h4
      obtain ⟨s, f, hs, _⟩ := ih c hc (h2 c hc)
      exact ⟨v ++ s, f, mem_paths.2 (Or.inr ⟨c, hc, s, hs, rfl⟩), List.prefix_append _ _⟩

/-- Every stored sequence starts with the block of its node. -/
theorem path_prefix {n : Node I F} {s : List I} {f : F} (h : (s, f) ∈ n.paths) : n.value <+: s := by
  obtain ⟨v, ch, fs⟩ := n
  rcases mem_paths.1 h with ⟨rfl, _⟩ | ⟨c, _, s', _, rfl⟩
  · exact List.prefix_rfl
  · exact List.prefix_append _ _

end Node

end Verif.Unif
