/-!
# C09: `Glob.List` (`src/Glob/list.go`)

`RemoveAll` deletes in place while a `range` loop runs over the old slice header, so the underlying array is part of
the model.
-/

namespace Verif.Glob

variable {T : Type u} {U : Type v}

/-- A slice: its array and its length. -/
structure Sl (T : Type u) where
  arr : List T
  len : Nat

/-- The elements visible to the user. -/
def Sl.vals (s : Sl T) : List T := s.arr.take s.len

def Sl.of (l : List T) : Sl T := ⟨l, l.length⟩

/-- `List.remove` (src/Glob/list.go:123-125): `append(values[:i], values[i+1:]...)` moves the later elements one place
to the left in the same array; the last place keeps its value. `none`: slice bounds out of range. -/
def Sl.remove (s : Sl T) (i : Nat) : Option (Sl T) :=
  if i + 1 ≤ s.len then
    some ⟨s.arr.take i ++ (s.arr.take s.len).drop (i + 1) ++ s.arr.drop (s.len - 1), s.len - 1⟩
  else none

/-- The loop of `List.RemoveAll` (src/Glob/list.go:130-140). The range is over the slice as it was at the beginning: the
number of iterations is fixed, the values are read from the array as it is now. `i--` changes only the loop's own copy
of the index. `p` is `Equals(toRemove)`. -/
def removeAllLoop (p : T → Bool) : Nat → Nat → Sl T → Option (Sl T)
  | 0, _, s => some s
  | n + 1, i, s =>
    match s.arr[i]? with
    | none => none
    | some v => if p v then (s.remove i).bind (removeAllLoop p n (i + 1)) else removeAllLoop p n (i + 1) s

/-- `List.RemoveAll`. -/
def removeAll (p : T → Bool) (s : Sl T) : Option (Sl T) := removeAllLoop p s.len 0 s

/-! ### C09 -/

/-- **C09**, the full claim: no crash, the elements that are not equal remain in order. -/
def C09_statement (T : Type u) : Prop :=
  ∀ (p : T → Bool) (l : List T), ∃ s, removeAll p (Sl.of l) = some s ∧ s.vals = l.filter (fun x => !p x)

/-- Two equal elements next to each other: one stays. -/
theorem C09_violated_adjacent :
    (removeAll (· == 1) (Sl.of [1, 1, 2])).map Sl.vals = some [1, 2] := by decide

/-- An equal element that is not the only one at the end: crash. -/
theorem C09_violated_crash :
    (removeAll (· == 1) (Sl.of [1, 2, 1])).isNone = true ∧ (removeAll (· == 1) (Sl.of [1, 1])).isNone = true := by decide

theorem C09_statement_false : ¬ C09_statement Nat := by
  intro h
  obtain ⟨s, h1, h2⟩ := h (· == 1) [1, 1, 2]
  have := C09_violated_adjacent
  rw [h1] at this
  simp only [Option.map_some, Option.some.injEq] at this
  rw [this] at h2
  simp at h2

theorem loop_tail (p : T → Bool) (tail pre : List T) (m : Nat) (ht : ∀ t ∈ tail, p t = false) :
    removeAllLoop p tail.length pre.length ⟨pre ++ tail, m⟩ = some ⟨pre ++ tail, m⟩ := by
  induction tail generalizing pre with
  | nil => rfl
  | cons t tail ih =>
    have := ih (pre ++ [t]) (fun t' h => ht t' (List.mem_cons_of_mem _ h))
    simp only [List.length_cons, removeAllLoop, List.getElem?_append_right (Nat.le_refl _), Nat.sub_self,
      List.getElem?_cons_zero, ht t (by simp), Bool.false_eq_true, if_false]
    simpa using this

theorem getLast_not {p : T → Bool} {a : T} {l : List T} (hl : l ≠ []) (ha : p a = true)
    (h : ∀ x ∈ (a :: l).getLast?, p x = true → (a :: l).countP p ≤ 1) : p (l.getLast hl) = false := by
  cases hx : p (l.getLast hl) with
  | false => rfl
  | true =>
    have := h (l.getLast hl) (by rw [List.getLast?_cons, List.getLast?_eq_some_getLast hl]; simp) hx
    rw [List.countP_cons_of_pos ha] at this
    have : 0 < l.countP p := List.countP_pos_iff.2 ⟨_, List.getLast_mem hl, hx⟩
    omega

theorem loop_spec (p : T → Bool) (n : Nat) (rest pre tail : List T) (hn : rest.length ≤ n)
    (hadj : ∀ a b, [a, b] <:+: rest → p a = true → p b = false)
    (hlast : ∀ x ∈ rest.getLast?, p x = true → rest.countP p ≤ 1 ∧ tail = []) (ht : ∀ t ∈ tail, p t = false) :
    ∃ s, removeAllLoop p (rest ++ tail).length pre.length ⟨pre ++ rest ++ tail, pre.length + rest.length⟩ = some s ∧
      s.vals = pre ++ rest.filter (fun x => !p x) := by
  induction n generalizing rest pre tail with
  | zero =>
    have : rest = [] := List.eq_nil_of_length_eq_zero (by omega)
    subst this
    refine ⟨_, by simpa using loop_tail p tail pre pre.length ht, by simp [Sl.vals]⟩
  | succ n ih =>
    cases rest with
    | nil => exact ⟨_, by simpa using loop_tail p tail pre pre.length ht, by simp [Sl.vals]⟩
    | cons a rest =>
      have hget : (pre ++ (a :: rest) ++ tail)[pre.length]? = some a := by simp
      simp only [List.cons_append, List.length_cons, removeAllLoop]
      rw [show pre ++ a :: rest ++ tail = pre ++ (a :: rest) ++ tail by simp, hget]
      by_cases ha : p a = true
      · -- `a` is removed
        simp only [ha, if_true, Sl.remove, Nat.add_le_add_iff_left, Nat.le_add_left]
        cases rest with
        | nil =>
          obtain ⟨_, rfl⟩ := hlast a (by simp) ha
          refine ⟨_, by simp [removeAllLoop]; rfl, ?_⟩
          simp [Sl.vals, ha, List.take_append]
        | cons b rest =>
          have hb : p b = false := hadj a b ⟨[], rest, by simp⟩ ha
          have hl : p ((b :: rest).getLast (by simp)) = false :=
            getLast_not (by simp) ha (fun x hx hp => (hlast x hx hp).1)
          have harr : (pre ++ a :: b :: rest ++ tail).take pre.length ++
              ((pre ++ a :: b :: rest ++ tail).take (pre.length + (rest.length + 1 + 1))).drop (pre.length + 1) ++
              (pre ++ a :: b :: rest ++ tail).drop (pre.length + (rest.length + 1 + 1) - 1) =
              (pre ++ [b]) ++ rest ++ ((b :: rest).getLast (by simp) :: tail) := by
            have e1 : (pre ++ a :: b :: rest ++ tail).take pre.length = pre := by
              simp [List.take_append]
            have e2 : (pre ++ a :: b :: rest ++ tail).take (pre.length + (rest.length + 1 + 1)) = pre ++ a :: b :: rest := by
              apply List.take_left' ; simp
            have e3 : (pre ++ a :: b :: rest).drop (pre.length + 1) = b :: rest := by
              rw [← List.drop_drop, List.drop_left' rfl]; rfl
            have e4 : (pre ++ a :: b :: rest ++ tail).drop (pre.length + (rest.length + 1 + 1) - 1) =
                (b :: rest).getLast (by simp) :: tail := by
              have : pre ++ a :: b :: rest ++ tail = (pre ++ a :: (b :: rest).dropLast) ++ ((b :: rest).getLast (by simp) :: tail) := by
                conv => lhs; rw [← List.dropLast_concat_getLast (l := b :: rest) (by simp)]
                simp
              rw [this]
              apply List.drop_left'
              simp
            rw [e1, e2, e3, e4]
            simp
          have hlen : pre.length + (rest.length + 1 + 1) - 1 = (pre ++ [b]).length + rest.length := by simp; omega
          obtain ⟨s, h1, h2⟩ := ih rest (pre ++ [b]) ((b :: rest).getLast (by simp) :: tail)
            (by simp only [List.length_cons] at hn; omega)
            (fun x y hxy => hadj x y (hxy.trans ⟨[a, b], [], by simp⟩))
            (fun x hx hp => by
              have hne : rest ≠ [] := by rintro rfl; simp at hx
              have : x = (b :: rest).getLast (by simp) := by
                rw [List.getLast_cons hne]
                rw [List.getLast?_eq_some_getLast hne] at hx
                simpa using hx.symm
              rw [this, hl] at hp
              cases hp)
            (fun t h => by
              rcases List.mem_cons.1 h with rfl | h
              · exact hl
              · exact ht t h)
          refine ⟨s, ?_, by rw [h2]; simp [ha, hb]⟩
          rw [List.length_cons, harr, hlen]
          simp only [Option.bind_some]
          rw [← h1]
          congr 1
          · simp; omega
          · simp
      · -- `a` stays
        have ha' : p a = false := by simpa using ha
        simp only [ha', Bool.false_eq_true, if_false]
        obtain ⟨s, h1, h2⟩ := ih rest (pre ++ [a]) tail (by simp only [List.length_cons] at hn; omega)
          (fun x y hxy => hadj x y (hxy.trans ⟨[a], [], by simp⟩))
          (fun x hx hp => by
            have hne : rest ≠ [] := by rintro rfl; simp at hx
            have := hlast x (by rw [List.getLast?_cons]; cases hr : rest.getLast? <;> simp_all) hp
            rw [List.countP_cons_of_neg ha] at this
            exact this) ht
        refine ⟨s, ?_, by rw [h2]; simp [ha']⟩
        rw [← h1]
        congr 1
        · simp
        · simp; omega

/-- **C09, what holds.** `RemoveAll` is correct when no two neighbours are equal to the element and the last
element is equal to it only if it is the only one. (The two violations show that both conditions are needed.) -/
theorem C09_removeAll_partial (p : T → Bool) (l : List T) (hadj : ∀ a b, [a, b] <:+: l → p a = true → p b = false)
    (hlast : ∀ x ∈ l.getLast?, p x = true → l.countP p ≤ 1) :
    ∃ s, removeAll p (Sl.of l) = some s ∧ s.vals = l.filter (fun x => !p x) := by
  simpa [removeAll, Sl.of] using loop_spec p l.length l [] [] (Nat.le_refl _) hadj
    (fun x hx hp => ⟨hlast x hx hp, rfl⟩) (by simp)

example : (removeAll (· == 1) (Sl.of [1, 2, 1, 3])).map Sl.vals = some [2, 3] := by decide

/-- In particular when the element occurs at most once. -/
theorem C09_removeAll_once_partial (p : T → Bool) (l : List T) (h : l.countP p ≤ 1) :
    ∃ s, removeAll p (Sl.of l) = some s ∧ s.vals = l.filter (fun x => !p x) := by
  refine C09_removeAll_partial p l (fun a b hab ha => ?_) (fun _ _ _ => h)
  obtain ⟨s, t, rfl⟩ := hab
  cases hb : p b with
  | false => rfl
  | true =>
    simp only [List.countP_append, List.countP_cons, List.countP_nil, ha, hb, if_true] at h
    omega

/-- `Remove` at a valid position deletes exactly that position (src/Glob/list.go:116-121). -/
theorem C09_remove (pre post : List T) (x : T) :
    ((Sl.of (pre ++ x :: post)).remove pre.length).map Sl.vals = some (pre ++ post) := by
  have h : pre.length + 1 ≤ (pre ++ x :: post).length := by simp
  simp only [Sl.remove, Sl.of, h, if_true, Option.map_some, Option.some.injEq, Sl.vals, List.take_length]
  have e1 : (pre ++ x :: post).take pre.length = pre := List.take_left' rfl
  have e3 : (pre ++ x :: post).drop (pre.length + 1) = post := by
    rw [← List.drop_drop, List.drop_left' rfl]; rfl
  rw [e1, e3]
  apply List.take_left'
  simp

end Verif.Glob
