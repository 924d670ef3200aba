/-!
# C08: list utilities (`src/Lib/list.go`)

The loops are modelled as recursions over the slice; `cmp` is the comparison function given by the caller. (Sharing of
the underlying arrays is the subject of `Verif.Lib.Slice`.)
-/

namespace Verif.Lib.L

variable {T : Type u}

/-- `List.Contains` (src/Lib/list.go:183-190). -/
def contains (cmp : T → T → Bool) (x : T) : List T → Bool
  | [] => false
  | y :: ys => if cmp x y then true else contains cmp x ys

/-- `List.Add`, `ListAdd` (src/Lib/list.go:197-209). -/
def add (cmp : T → T → Bool) : List T → List T → List T
  | l, [] => l
  | l, y :: ys => add cmp (if !contains cmp y l then l ++ [y] else l) ys

/-- `List.Equals` (src/Lib/list.go:95-107): the lengths, then the positions from `i` on; `none` would be an index out
of range. -/
def equalsFrom (cmp : T → T → Bool) (l0 l1 : List T) : Nat → Nat → Option Bool
  | 0, _ => some true
  | n + 1, i => match l0[i]?, l1[i]? with
    | some a, some b => if !cmp a b then some false else equalsFrom cmp l0 l1 n (i + 1)
    | _, _ => none

def equals (cmp : T → T → Bool) (l0 l1 : List T) : Option Bool :=
  if l0.length ≠ l1.length then some false else equalsFrom cmp l0 l1 l0.length 0

/-- `List.IndexOf` (src/Lib/list.go:228-235): `i` is the position of the head. -/
def indexOfFrom (cmp : T → T → Bool) (x : T) : Nat → List T → Option Nat
  | _, [] => none
  | i, y :: ys => if cmp x y then some i else indexOfFrom cmp x (i + 1) ys

def indexOf (cmp : T → T → Bool) (x : T) (l : List T) : Option Nat := indexOfFrom cmp x 0 l

/-- `List.RemoveAt` (src/Lib/list.go:242-250); the index may be any integer. -/
def removeAtFrom (index : Int) : Nat → List T → List T
  | _, [] => []
  | i, y :: ys => if (i : Int) ≠ index then y :: removeAtFrom index (i + 1) ys else removeAtFrom index (i + 1) ys

def removeAt (l : List T) (index : Int) : List T := removeAtFrom index 0 l

/-- `List.Filter` (src/Lib/list.go:261-269). -/
def filter (pred : T → Bool) : List T → List T
  | [] => []
  | y :: ys => if pred y then y :: filter pred ys else filter pred ys

/-- `List.Any` (src/Lib/list.go:252-259). -/
def any (pred : T → Bool) : List T → Bool
  | [] => false
  | y :: ys => if pred y then true else any pred ys

/-- `List.Find` (src/Lib/list.go:215-222). -/
def find (pred : T → Bool) (dflt : T) : List T → T × Bool
  | [] => (dflt, false)
  | y :: ys => if pred y then (y, true) else find pred dflt ys

/-! ### Contains, Any, Find, Filter -/

/-- **C08.** `Contains`: some element is equal. -/
theorem C08_contains (cmp : T → T → Bool) (x : T) (l : List T) :
    contains cmp x l = true ↔ ∃ y ∈ l, cmp x y = true := by
  induction l with
  | nil => simp [contains]
  | cons y ys ih => by_cases h : cmp x y = true <;> simp [contains, h, ih]

/-- **C08.** `Any`. -/
theorem C08_any (pred : T → Bool) (l : List T) : any pred l = true ↔ ∃ y ∈ l, pred y = true := by
  induction l with
  | nil => simp [any]
  | cons y ys ih => by_cases h : pred y = true <;> simp [any, h, ih]

/-- **C08.** `Filter` keeps the elements that satisfy the predicate, in order. -/
theorem C08_filter (pred : T → Bool) (l : List T) : filter pred l = l.filter pred := by
  induction l with
  | nil => rfl
  | cons y ys ih => by_cases h : pred y = true <;> simp [filter, h, ih]

/-- **C08.** `Find`: the first element that satisfies the predicate, or the default. -/
theorem C08_find (pred : T → Bool) (dflt : T) (l : List T) :
    (∃ pre y post, l = pre ++ y :: post ∧ (∀ z ∈ pre, pred z = false) ∧ pred y = true ∧ find pred dflt l = (y, true)) ∨
    ((∀ z ∈ l, pred z = false) ∧ find pred dflt l = (dflt, false)) := by
  induction l with
  | nil => right; simp [find]
  | cons y ys ih =>
    by_cases h : pred y = true
    · left; exact ⟨[], y, ys, rfl, by simp, h, by simp [find, h]⟩
    · have h' : pred y = false := by simpa using h
      rcases ih with ⟨pre, z, post, rfl, h1, h2, h3⟩ | ⟨h1, h2⟩
      · left
        refine ⟨y :: pre, z, post, rfl, ?_, h2, by simp [find, h', h3]⟩
        intro w hw
        rcases List.mem_cons.1 hw with rfl | hw
        · exact h'
        · exact h1 w hw
      · right
        refine ⟨?_, by simp [find, h', h2]⟩
        intro w hw
        rcases List.mem_cons.1 hw with rfl | hw
        · exact h'
        · exact h1 w hw

/-! ### Add -/

/-- No two positions hold equal elements. -/
def NoDup (cmp : T → T → Bool) (l : List T) : Prop := l.Pairwise fun a b => cmp a b = false ∧ cmp b a = false

theorem contains_false (cmp : T → T → Bool) (x : T) (l : List T) :
    contains cmp x l = false ↔ ∀ y ∈ l, cmp x y = false := by
  induction l with
  | nil => simp [contains]
  | cons y ys ih => by_cases h : cmp x y = true <;> simp [contains, h, ih]

/-- **C08.** `Add` keeps the old list in front. -/
theorem C08_add_prefix (cmp : T → T → Bool) (l xs : List T) : ∃ more, add cmp l xs = l ++ more ∧ ∀ y ∈ more, y ∈ xs := by
  induction xs generalizing l with
  | nil => exact ⟨[], by simp [add]⟩
  | cons y ys ih =>
    simp only [add]
    split
    · obtain ⟨more, h1, h2⟩ := ih (l ++ [y])
      refine ⟨y :: more, by simp [h1], ?_⟩
      intro z hz
      rcases List.mem_cons.1 hz with rfl | hz
      · simp
      · exact List.mem_cons_of_mem _ (h2 z hz)
    · obtain ⟨more, h1, h2⟩ := ih l
      exact ⟨more, h1, fun z hz => List.mem_cons_of_mem _ (h2 z hz)⟩

/-- **C08.** `Add` keeps a list without duplicates free of duplicates. -/
theorem C08_add_nodup (cmp : T → T → Bool) (hs : ∀ a b, cmp a b = cmp b a) (l xs : List T) (h : NoDup cmp l) :
    NoDup cmp (add cmp l xs) := by
  induction xs generalizing l with
  | nil => exact h
  | cons y ys ih =>
    simp only [add]
    split
    · rename_i hc
      apply ih
      have hc' : contains cmp y l = false := by simpa using hc
      rw [contains_false] at hc'
      refine List.pairwise_append.2 ⟨h, by simp, ?_⟩
      intro a ha b hb
      rw [List.mem_singleton] at hb
      subst hb
      exact ⟨by rw [hs]; exact hc' a ha, hc' a ha⟩
    · exact ih l h

/-- **C08.** The members of the result are, up to equality, those of the list and those added. -/
theorem C08_add_members (cmp : T → T → Bool) (hr : ∀ a, cmp a a = true)
    (l xs : List T) (htr : ∀ a b c, cmp a b = true → cmp b c = true → cmp a c = true) (x : T) :
    contains cmp x (add cmp l xs) = true ↔ contains cmp x l = true ∨ contains cmp x xs = true := by
  induction xs generalizing l with
  | nil => simp [add, contains]
  | cons y ys ih =>
    simp only [add]
    have hcons : contains cmp x (y :: ys) = true ↔ cmp x y = true ∨ contains cmp x ys = true := by
      by_cases h : cmp x y = true <;> simp [contains, h]
    rw [hcons, ih]
    split
    · have happ : contains cmp x (l ++ [y]) = true ↔ contains cmp x l = true ∨ cmp x y = true := by
        simp only [C08_contains, List.mem_append, List.mem_singleton]
        constructor
        · rintro ⟨z, h1 | rfl, h2⟩
          · exact Or.inl ⟨z, h1, h2⟩
          · exact Or.inr h2
        · rintro (⟨z, h1, h2⟩ | h)
          · exact ⟨z, Or.inl h1, h2⟩
          · exact ⟨y, Or.inr rfl, h⟩
      rw [happ, or_assoc]
    · rename_i hc
      have hc' : contains cmp y l = true := by simpa using hc
      constructor
      · rintro (h | h)
        · exact Or.inl h
        · exact Or.inr (Or.inr h)
      · rintro (h | h | h)
        · exact Or.inl h
        · left
          rw [C08_contains] at hc' ⊢
          obtain ⟨z, h1, h2⟩ := hc'
          exact ⟨z, h1, htr _ _ _ h h2⟩
        · exact Or.inr h

example : add (fun a b : Nat => a == b) [1, 2] [2, 3, 3, 1] = [1, 2, 3] := by decide

/-! ### RemoveAt -/

theorem removeAtFrom_append (index : Int) (i : Nat) (l m : List T) :
    removeAtFrom index i (l ++ m) = removeAtFrom index i l ++ removeAtFrom index (i + l.length) m := by
  induction l generalizing i with
  | nil => simp [removeAtFrom]
  | cons y ys ih =>
    have e : i + (y :: ys).length = i + 1 + ys.length := by simp; omega
    simp only [List.cons_append, removeAtFrom, ih, e]
    split <;> simp

theorem removeAtFrom_id (index : Int) (i : Nat) (l : List T) (h : ∀ k : Nat, k < l.length → ((i + k : Nat) : Int) ≠ index) :
    removeAtFrom index i l = l := by
  induction l generalizing i with
  | nil => rfl
  | cons y ys ih =>
    simp only [removeAtFrom]
    rw [if_pos (by simpa using h 0 (by simp)), ih]
    intro k hk
    have := h (k + 1) (by simpa using hk)
    rwa [show i + (k + 1) = i + 1 + k by omega] at this

/-- **C08.** `RemoveAt` deletes exactly the given position. -/
theorem C08_removeAt (pre post : List T) (x : T) : removeAt (pre ++ x :: post) pre.length = pre ++ post := by
  simp only [removeAt, removeAtFrom_append, removeAtFrom, Nat.zero_add]
  rw [removeAtFrom_id, if_neg (by simp), removeAtFrom_id]
  · intro k hk; omega
  · intro k hk; omega

/-- **C08.** Outside the list nothing is deleted. -/
theorem C08_removeAt_out (l : List T) (index : Int) (h : index < 0 ∨ (l.length : Int) ≤ index) : removeAt l index = l := by
  apply removeAtFrom_id
  intro k hk
  omega

example : removeAt [10, 11, 12, 13] 2 = [10, 11, 13] := by decide

/-! ### Equals, IndexOf -/

theorem equalsFrom_spec (cmp : T → T → Bool) (l0 l1 : List T) (hl : l0.length = l1.length) (n i : Nat)
    (hn : i + n = l0.length) :
    ∃ b, equalsFrom cmp l0 l1 n i = some b ∧
      (b = true ↔ ∀ k, (h0 : k < l0.length) → i ≤ k → cmp l0[k] (l1[k]'(by omega)) = true) := by
  induction n generalizing i with
  | zero => exact ⟨true, rfl, by simp; intro k h1 h2; omega⟩
  | succ n ih =>
    have h0 : i < l0.length := by omega
    have h1 : i < l1.length := by omega
    simp only [equalsFrom, List.getElem?_eq_getElem h0, List.getElem?_eq_getElem h1]
    by_cases hc : cmp l0[i] l1[i] = true
    · obtain ⟨b, hb, hb'⟩ := ih (i + 1) (by omega)
      refine ⟨b, by simp [hc, hb], hb'.trans ⟨fun h k hk hik => ?_, fun h k hk hik => h k hk (by omega)⟩⟩
      by_cases hki : k = i
      · subst hki; exact hc
      · exact h k hk (by omega)
    · refine ⟨false, by simp [hc], ?_⟩
      simp only [Bool.false_eq_true, false_iff]
      exact fun h => hc (h i h0 (Nat.le_refl i))

/-- **C08.** `Equals` never goes out of range and is equality position by position. -/
theorem C08_equals (cmp : T → T → Bool) (l0 l1 : List T) :
    ∃ b, equals cmp l0 l1 = some b ∧
      (b = true ↔ ∃ hl : l0.length = l1.length, ∀ k, (h0 : k < l0.length) → cmp l0[k] (l1[k]'(by omega)) = true) := by
  unfold equals
  by_cases hl : l0.length = l1.length
  · rw [if_neg (by simpa using hl)]
    obtain ⟨b, h1, h2⟩ := equalsFrom_spec cmp l0 l1 hl l0.length 0 (by omega)
    refine ⟨b, h1, h2.trans ⟨fun h => ⟨hl, fun k hk => h k hk (by omega)⟩, fun ⟨_, h⟩ k hk _ => h k hk⟩⟩
  · rw [if_pos hl]
    exact ⟨false, rfl, by simp [hl]⟩

theorem indexOfFrom_spec (cmp : T → T → Bool) (x : T) (i : Nat) (l : List T) :
    (∃ pre y post, l = pre ++ y :: post ∧ (∀ z ∈ pre, cmp x z = false) ∧ cmp x y = true ∧
      indexOfFrom cmp x i l = some (i + pre.length)) ∨
    ((∀ z ∈ l, cmp x z = false) ∧ indexOfFrom cmp x i l = none) := by
  induction l generalizing i with
  | nil => right; simp [indexOfFrom]
  | cons y ys ih =>
    by_cases h : cmp x y = true
    · left; exact ⟨[], y, ys, rfl, by simp, h, by simp [indexOfFrom, h]⟩
    · have h' : cmp x y = false := by simpa using h
      rcases ih (i + 1) with ⟨pre, z, post, rfl, h1, h2, h3⟩ | ⟨h1, h2⟩
      · left
        refine ⟨y :: pre, z, post, rfl, ?_, h2, by simp [indexOfFrom, h', h3]; omega⟩
        intro w hw
        rcases List.mem_cons.1 hw with rfl | hw
        · exact h'
        · exact h1 w hw
      · right
        refine ⟨?_, by simp [indexOfFrom, h', h2]⟩
        intro w hw
        rcases List.mem_cons.1 hw with rfl | hw
        · exact h'
        · exact h1 w hw

/-- **C08.** `IndexOf` is the first position of an equal element, and none if there is no such element. -/
theorem C08_indexOf (cmp : T → T → Bool) (x : T) (l : List T) :
    (∃ pre y post, l = pre ++ y :: post ∧ (∀ z ∈ pre, cmp x z = false) ∧ cmp x y = true ∧
      indexOf cmp x l = some pre.length) ∨
    ((∀ z ∈ l, cmp x z = false) ∧ indexOf cmp x l = none) := by
  simpa [indexOf] using indexOfFrom_spec cmp x 0 l

example : indexOf (fun a b : Nat => a == b) 7 [3, 7, 5, 7] = some 1 := by decide
example : equals (fun a b : Nat => a == b) [3, 7] [3, 8] = some false := by decide

end Verif.Lib.L
