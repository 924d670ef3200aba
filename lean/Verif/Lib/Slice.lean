import Verif.Lib.ListModel
/-!
# C52: lists that share an array (`src/Lib/list.go`)

A `Lib.List` is a Go slice: an array, an offset, a length. Copying the structure copies these three, not the array, and
`append` writes into the array when there is room. Here the arrays are kept in a heap.
-/

namespace Verif.Lib.Slice

variable {T : Type u}

/-- The arrays; the length of an array is its full size. -/
abbrev Heap (T : Type u) := List (List T)

/-- `List` (src/Lib/list.go:41-43), the Go slice header; the capacity is the size of the array minus `off`. -/
structure S where
  arr : Nat
  off : Nat
  len : Nat
deriving DecidableEq, Repr

def Heap.array (h : Heap T) (a : Nat) : List T := (h[a]?).getD []

/-- What the user reads (`At`, `GetSlice`, src/Lib/list.go:79-89). -/
def S.read (h : Heap T) (s : S) : List T := ((h.array s.arr).drop s.off).take s.len

/-- The slice lies inside its array. -/
def S.Ok (h : Heap T) (s : S) : Prop := s.arr < h.length ∧ s.off + s.len ≤ (h.array s.arr).length

/-- There is no room behind the slice. -/
def S.Full (h : Heap T) (s : S) : Prop := s.off + s.len = (h.array s.arr).length

/-- Write `xs` into an array at position `i`. -/
def writeAt (l : List T) (i : Nat) (xs : List T) : List T := l.take i ++ xs ++ l.drop (i + xs.length)

/-- A new array: `make` (src/Lib/list.go:58-61), a literal (63-65). -/
def alloc (h : Heap T) (xs : List T) : Heap T × S := (h ++ [xs], ⟨h.length, 0, xs.length⟩)

/-- `List.Append` (src/Lib/list.go:71-73): in place when there is room, otherwise into a new array with some room
`spare` that the run time system chooses. -/
def append (spare : List T) (h : Heap T) (s : S) (xs : List T) : Heap T × S :=
  if s.off + s.len + xs.length ≤ (h.array s.arr).length then
    (h.set s.arr (writeAt (h.array s.arr) (s.off + s.len) xs), { s with len := s.len + xs.length })
  else
    (h ++ [s.read h ++ xs ++ spare], ⟨h.length, 0, s.len + xs.length⟩)

/-- `List.Slice`, `List.Get` (src/Lib/list.go:91-93, 211-213). -/
def S.sub (s : S) (st ed : Nat) : S := ⟨s.arr, s.off + st, ed - st⟩

/-- `List.Copy`, `ListCpy`, `ListMap` (src/Lib/list.go:50-56, 168-181): a new array without room. -/
def copy (f : T → T) (h : Heap T) (s : S) : Heap T × S := alloc h ((s.read h).map f)

/-- `List.Add`, `ListAdd` (src/Lib/list.go:197-209). `spare n` is the room chosen at the `n`-th call of `append`. -/
def add (cmp : T → T → Bool) (spare : Nat → List T) : Heap T → S → List T → Heap T × S
  | h, s, [] => (h, s)
  | h, s, y :: ys =>
    if !L.contains cmp y (s.read h) then
      let r := append (spare ys.length) h s [y]
      add cmp spare r.1 r.2 ys
    else add cmp spare h s ys

/-! ### Lemmas -/

theorem array_set (h : Heap T) (a b : Nat) (l : List T) (ha : a < h.length) :
    Heap.array (h.set a l) b = if b = a then l else h.array b := by
  unfold Heap.array
  rw [List.getElem?_set]
  by_cases hb : a = b
  · subst hb; simp [ha]
  · rw [if_neg hb, if_neg (Ne.symm hb)]

theorem array_append (h : Heap T) (b : Nat) (l : List T) :
    Heap.array (h ++ [l]) b = if b = h.length then l else h.array b := by
  unfold Heap.array
  by_cases hb : b = h.length
  · subst hb; simp
  · rw [if_neg hb]
    by_cases hlt : b < h.length
    · rw [List.getElem?_append_left hlt]
    · have h1 : h.length < b := by omega
      rw [List.getElem?_eq_none (by simp; omega), List.getElem?_eq_none (by omega)]

theorem writeAt_length (l : List T) (i : Nat) (xs : List T) (h : i + xs.length ≤ l.length) :
    (writeAt l i xs).length = l.length := by
  simp [writeAt]; omega

theorem read_length {h : Heap T} {s : S} (hs : s.Ok h) : (s.read h).length = s.len := by
  have := hs.2
  simp [S.read]; omega

theorem getElem?_writeAt (l : List T) (i : Nat) (xs : List T) (h : i + xs.length ≤ l.length) (k : Nat)
    (hk : k < i ∨ i + xs.length ≤ k) : (writeAt l i xs)[k]? = l[k]? := by
  have hi : (l.take i).length = i := by simp; omega
  unfold writeAt
  rcases hk with hk | hk
  · rw [List.append_assoc, List.getElem?_append_left (by omega), List.getElem?_take, if_pos hk]
  · rw [List.getElem?_append_right (by simp; omega), List.getElem?_drop]
    congr 1
    simp
    omega

/-- Two arrays that agree on the places of the slice. -/
theorem read_congr {l l' : List T} {off len : Nat} (h : ∀ k, off ≤ k → k < off + len → l'[k]? = l[k]?) :
    (l'.drop off).take len = (l.drop off).take len := by
  apply List.ext_getElem?
  intro k
  simp only [List.getElem?_take, List.getElem?_drop]
  split
  · exact h _ (by omega) (by omega)
  · rfl

/-- Growing keeps all slices in their arrays. -/
theorem append_ok (spare : List T) (h : Heap T) (s : S) (xs : List T) (hs : s.Ok h) :
    (append spare h s xs).2.Ok (append spare h s xs).1 ∧
      ∀ s' : S, s'.Ok h → s'.Ok (append spare h s xs).1 := by
  unfold append
  split
  · rename_i hr
    have hl := writeAt_length (h.array s.arr) (s.off + s.len) xs hr
    refine ⟨⟨by simpa using hs.1, ?_⟩, fun s' h' => ⟨by simpa using h'.1, ?_⟩⟩
    · rw [array_set _ _ _ _ hs.1, if_pos rfl, hl]; simp only; omega
    · rw [array_set _ _ _ _ hs.1]
      split
      · rename_i he; rw [hl, ← he]; exact h'.2
      · exact h'.2
  · refine ⟨⟨by simp, ?_⟩, fun s' h' => ⟨?_, ?_⟩⟩
    · rw [array_append, if_pos rfl]; simp [read_length hs]
    · have := h'.1; simp; omega
    · rw [array_append, if_neg (by have := h'.1; omega)]; exact h'.2

/-- The part of the array that an append in place writes. -/
def S.Disjoint (s : S) (n : Nat) (s' : S) : Prop :=
  s'.arr = s.arr → s'.off + s'.len ≤ s.off + s.len ∨ s.off + s.len + n ≤ s'.off

/-- **C52 (the result).** Appending gives the old elements followed by the new ones. -/
theorem C52_append_value (spare : List T) (h : Heap T) (s : S) (xs : List T) (hs : s.Ok h) :
    (append spare h s xs).2.read (append spare h s xs).1 = s.read h ++ xs := by
  unfold append
  split
  · rename_i hr
    simp only [S.read, array_set _ _ _ _ hs.1, if_pos]
    apply List.ext_getElem?
    intro k
    have hi : ((h.array s.arr).take (s.off + s.len)).length = s.off + s.len := by simp; omega
    have hl : (((h.array s.arr).drop s.off).take s.len).length = s.len := read_length hs
    simp only [List.getElem?_take, List.getElem?_drop]
    by_cases h1 : k < s.len
    · rw [if_pos (by omega), getElem?_writeAt _ _ _ hr _ (Or.inl (by omega)), List.getElem?_append_left (by omega),
        List.getElem?_take, if_pos h1, List.getElem?_drop]
    · rw [List.getElem?_append_right (by omega), hl]
      by_cases h2 : k < s.len + xs.length
      · rw [if_pos h2, writeAt, List.append_assoc, List.getElem?_append_right (by omega), hi,
          List.getElem?_append_left (by omega)]
        congr 1; omega
      · rw [if_neg h2, List.getElem?_eq_none (by omega)]
  · simp only [S.read, array_append, if_pos, List.drop_zero]
    have hl : (((h.array s.arr).drop s.off).take s.len).length = s.len := read_length hs
    rw [List.take_append_of_le_length (by simp [-List.length_take, -List.length_drop, hl])]
    rw [List.take_of_length_le (by simp [-List.length_take, -List.length_drop, hl])]

/-- **C52 (frame).** Appending changes no list that does not read the places right behind the extended one. -/
theorem C52_append_frame (spare : List T) (h : Heap T) (s s' : S) (xs : List T) (hs : s.Ok h) (hs' : s'.Ok h)
    (hd : s.Disjoint xs.length s') : s'.read (append spare h s xs).1 = s'.read h := by
  unfold append
  split
  · rename_i hr
    unfold S.read
    rw [array_set _ _ _ _ hs.1]
    split
    · rename_i he
      rw [he]
      apply read_congr
      intro k h1 h2
      rcases hd he with hd | hd
      · exact getElem?_writeAt _ _ _ hr _ (Or.inl (by omega))
      · exact getElem?_writeAt _ _ _ hr _ (Or.inr (by omega))
    · rfl
  · unfold S.read
    rw [array_append, if_neg (by have := hs'.1; omega)]

/-- **C52 (the argument).** The list that is extended keeps its elements (it is passed by value). -/
theorem C52_append_argument (spare : List T) (h : Heap T) (s : S) (xs : List T) (hs : s.Ok h) :
    s.read (append spare h s xs).1 = s.read h :=
  C52_append_frame spare h s s xs hs hs (fun _ => Or.inl (Nat.le_refl _))

/-- **C52 (no room).** A list without room behind it can be extended without changing any other list. -/
theorem C52_append_full_partial (spare : List T) (h : Heap T) (s s' : S) (xs : List T) (hs : s.Ok h) (hs' : s'.Ok h)
    (hf : s.Full h) : s'.read (append spare h s xs).1 = s'.read h := by
  apply C52_append_frame spare h s s' xs hs hs'
  intro he
  left
  have := hs'.2
  rw [he, ← hf] at this
  exact this

theorem alloc_ok (h : Heap T) (xs : List T) :
    (alloc h xs).2.Ok (alloc h xs).1 ∧ (alloc h xs).2.Full (alloc h xs).1 ∧ (alloc h xs).2.read (alloc h xs).1 = xs ∧
      ∀ s' : S, s'.Ok h → s'.Ok (alloc h xs).1 ∧ s'.read (alloc h xs).1 = s'.read h := by
  refine ⟨⟨by simp [alloc], ?_⟩, ?_, ?_, fun s' h' => ⟨⟨?_, ?_⟩, ?_⟩⟩
  · simp only [alloc]; rw [array_append, if_pos rfl]; omega
  · simp only [alloc, S.Full]; rw [array_append, if_pos rfl]; omega
  · simp only [alloc, S.read]; rw [array_append, if_pos rfl]; simp
  · have := h'.1; simp [alloc]; omega
  · simp only [alloc]; rw [array_append, if_neg (by have := h'.1; omega)]; exact h'.2
  · simp only [alloc, S.read]; rw [array_append, if_neg (by have := h'.1; omega)]

/-- **C52 (copies).** A copy has the elements of the original and no room, and making it changes no list. -/
theorem C52_copy (h : Heap T) (s : S) :
    (copy id h s).2.read (copy id h s).1 = s.read h ∧ (copy id h s).2.Full (copy id h s).1 ∧
      (copy id h s).2.Ok (copy id h s).1 ∧ ∀ s' : S, s'.Ok h → s'.read (copy id h s).1 = s'.read h := by
  obtain ⟨h1, h2, h3, h4⟩ := alloc_ok h ((s.read h).map id)
  exact ⟨by unfold copy; rw [h3]; simp, h2, h1, fun s' h' => (h4 s' h').2⟩

/-- **C52 (`ListAdd`).** The result is that of the list function of C08, whatever room the run time system leaves. -/
theorem C52_add_value (cmp : T → T → Bool) (spare : Nat → List T) (xs : List T) (h : Heap T) (s : S) (hs : s.Ok h) :
    (add cmp spare h s xs).2.read (add cmp spare h s xs).1 = L.add cmp (s.read h) xs := by
  induction xs generalizing h s with
  | nil => rfl
  | cons y ys ih =>
    unfold add L.add
    by_cases hc : (!L.contains cmp y (s.read h)) = true
    · rw [if_pos hc, if_pos hc]
      rw [ih _ _ (append_ok _ _ _ _ hs).1, C52_append_value _ _ _ _ hs]
    · rw [if_neg hc, if_neg hc]
      exact ih h s hs

/-! ### The full claim, which fails -/

/-- **C52**, the full claim: lists behave as values. After extending a list twice, each of the two results still has
its own elements. -/
def C52_statement (T : Type u) : Prop :=
  ∀ (spare : List T) (h : Heap T) (s : S) (xs ys : List T), s.Ok h →
    let a := append spare h s xs
    let b := append spare a.1 s ys
    a.2.read b.1 = s.read h ++ xs ∧ b.2.read b.1 = s.read h ++ ys

/-- A list of three built by appending one by one has room for one more (Go doubles the array): extending it by 10 and
then by 20 leaves both results with 20. -/
theorem C52_violated :
    let h0 : Heap Nat := []
    let e := alloc h0 []
    let l1 := append [] e.1 e.2 [1]
    let l2 := append [] l1.1 l1.2 [2]
    let l3 := append [0] l2.1 l2.2 [3]
    let a := append [] l3.1 l3.2 [10]
    let b := append [] a.1 l3.2 [20]
    a.2.read a.1 = [1, 2, 3, 10] ∧ a.2.read b.1 = [1, 2, 3, 20] ∧ b.2.read b.1 = [1, 2, 3, 20] := by decide

theorem C52_statement_false : ¬ C52_statement Nat := by
  intro h
  have := (h [] [[1, 0]] ⟨0, 0, 1⟩ [10] [20] ⟨by decide, by decide⟩).1
  revert this
  decide

/-- Same for a part of a list: extending the first half overwrites the second half. -/
theorem C52_violated_sub :
    let l := alloc [] [1, 2, 3]
    let p := l.2.sub 0 1
    let a := append [] l.1 p [9]
    l.2.read a.1 = [1, 9, 3] := by decide

/-! ### A use under which lists are values -/

/-- A live list: where it is, what it should contain, whether it may still be extended. -/
structure Cell (T : Type u) where
  s : S
  val : List T
  ext : Bool

/-- The operations of a program; lists are numbered in order of creation. -/
inductive Op (T : Type u) where
  /-- `MkListV`, `MkList`, `ListMap` -/
  | mk (xs : List T)
  /-- `Append` on list `i`, giving a new list; `i` must not have been extended before. -/
  | app (i : Nat) (xs spare : List T)
  /-- `ListCpy` -/
  | cpy (i : Nat)
  /-- `Slice`, `Get`: only for reading -/
  | sub (i st ed : Nat)

/-- One operation; `none` when the discipline forbids it or an index is out of range. -/
def Op.run : Op T → Heap T × List (Cell T) → Option (Heap T × List (Cell T))
  | .mk xs, (h, cs) => some ((alloc h xs).1, cs ++ [⟨(alloc h xs).2, xs, true⟩])
  | .app i xs spare, (h, cs) =>
    match cs[i]? with
    | some c => if c.ext then
        let r := append spare h c.s xs
        some (r.1, (cs.set i { c with ext := false }) ++ [⟨r.2, c.val ++ xs, true⟩])
      else none
    | none => none
  | .cpy i, (h, cs) =>
    match cs[i]? with
    | some c => some ((copy id h c.s).1, cs ++ [⟨(copy id h c.s).2, c.val, true⟩])
    | none => none
  | .sub i st ed, (h, cs) =>
    match cs[i]? with
    | some c => if st ≤ ed ∧ ed ≤ c.s.len then some (h, cs ++ [⟨c.s.sub st ed, (c.val.drop st).take (ed - st), false⟩])
      else none
    | none => none

def runAll : List (Op T) → Heap T × List (Cell T) → Option (Heap T × List (Cell T))
  | [], st => some st
  | o :: os, st => (o.run st).bind (runAll os)

/-- Every live list reads as its value, and nothing lies behind a list that may be extended. -/
structure Inv (h : Heap T) (cs : List (Cell T)) : Prop where
  ok : ∀ c ∈ cs, c.s.Ok h ∧ c.s.read h = c.val
  last : ∀ (i j : Nat) (c c' : Cell T), cs[i]? = some c → cs[j]? = some c' → c.ext = true → c'.s.arr = c.s.arr →
    c'.s.off + c'.s.len ≤ c.s.off + c.s.len
  one : ∀ (i j : Nat) (c c' : Cell T), cs[i]? = some c → cs[j]? = some c' → c.ext = true → c'.ext = true →
    c'.s.arr = c.s.arr → i = j

theorem getElem?_snoc {α : Type u} {cs : List α} {d c : α} {i : Nat} (h : (cs ++ [d])[i]? = some c) :
    (i < cs.length ∧ cs[i]? = some c) ∨ (i = cs.length ∧ c = d) := by
  by_cases hi : i < cs.length
  · left; rw [List.getElem?_append_left hi] at h; exact ⟨hi, h⟩
  · right
    by_cases he : i = cs.length
    · subst he; simp at h; exact ⟨rfl, h.symm⟩
    · rw [List.getElem?_eq_none (by simp; omega)] at h; simp at h

theorem inv_alloc {h : Heap T} {cs : List (Cell T)} (hi : Inv h cs) (xs : List T) :
    Inv (alloc h xs).1 (cs ++ [⟨(alloc h xs).2, xs, true⟩]) := by
  obtain ⟨h1, _, h3, h4⟩ := alloc_ok h xs
  have old : ∀ {i : Nat} {c : Cell T}, cs[i]? = some c → c.s.arr < h.length :=
    fun hc => (hi.ok _ (List.mem_of_getElem? hc)).1.1
  refine ⟨?_, ?_, ?_⟩
  · intro c hc
    simp only [List.mem_append, List.mem_singleton] at hc
    rcases hc with hc | rfl
    · have := h4 c.s (hi.ok c hc).1
      exact ⟨this.1, this.2.trans (hi.ok c hc).2⟩
    · exact ⟨h1, h3⟩
  · intro i j c c' hci hcj he ha
    rcases getElem?_snoc hci with ⟨_, hci⟩ | ⟨_, rfl⟩ <;> rcases getElem?_snoc hcj with ⟨_, hcj⟩ | ⟨_, rfl⟩
    · exact hi.last i j c c' hci hcj he ha
    · have := old hci; simp [alloc] at ha; omega
    · have := old hcj; simp [alloc] at ha; omega
    · exact Nat.le_refl _
  · intro i j c c' hci hcj he he' ha
    rcases getElem?_snoc hci with ⟨_, hci⟩ | ⟨e1, rfl⟩ <;> rcases getElem?_snoc hcj with ⟨_, hcj⟩ | ⟨e2, rfl⟩
    · exact hi.one i j c c' hci hcj he he' ha
    · have := old hci; simp [alloc] at ha; omega
    · have := old hcj; simp [alloc] at ha; omega
    · omega

/-- A cell after the flag of one cell has been cleared. -/
theorem getElem?_clear {cs : List (Cell T)} {i k : Nat} {c d : Cell T} (hc : cs[i]? = some c)
    (hd : (cs.set i { c with ext := false })[k]? = some d) :
    ∃ d', cs[k]? = some d' ∧ d'.s = d.s ∧ d'.val = d.val ∧ (d.ext = true → d'.ext = true ∧ k ≠ i) := by
  rw [List.getElem?_set] at hd
  by_cases hk : i = k
  · subst hk
    have hl : i < cs.length := by
      rcases Nat.lt_or_ge i cs.length with h | h
      · exact h
      · rw [List.getElem?_eq_none h] at hc; simp at hc
    simp [hl] at hd
    subst hd
    exact ⟨c, hc, rfl, rfl, by simp⟩
  · rw [if_neg hk] at hd
    exact ⟨d, hd, rfl, rfl, fun h => ⟨h, Ne.symm hk⟩⟩

theorem inv_step {h h' : Heap T} {cs cs' : List (Cell T)} (hi : Inv h cs) (o : Op T)
    (hr : o.run (h, cs) = some (h', cs')) : Inv h' cs' := by
  cases o with
  | mk xs =>
    simp only [Op.run, Option.some.injEq, Prod.mk.injEq] at hr
    rw [← hr.1, ← hr.2]
    exact inv_alloc hi xs
  | cpy i =>
    simp only [Op.run] at hr
    split at hr
    · rename_i c hc
      simp only [Option.some.injEq, Prod.mk.injEq] at hr
      rw [← hr.1, ← hr.2]
      have hv : (c.s.read h).map id = c.val := by rw [(hi.ok c (List.mem_of_getElem? hc)).2]; simp
      unfold copy
      rw [hv]
      exact inv_alloc hi c.val
    · simp at hr
  | sub i st ed =>
    simp only [Op.run] at hr
    split at hr
    · rename_i c hc
      split at hr
      · rename_i hb
        simp only [Option.some.injEq, Prod.mk.injEq] at hr
        rw [← hr.1, ← hr.2]
        have hok := hi.ok c (List.mem_of_getElem? hc)
        refine ⟨?_, ?_, ?_⟩
        · intro d hd
          simp only [List.mem_append, List.mem_singleton] at hd
          rcases hd with hd | rfl
          · exact hi.ok d hd
          · refine ⟨⟨hok.1.1, ?_⟩, ?_⟩
            · have := hok.1.2; simp only [S.sub]; omega
            · rw [← hok.2]
              simp only [S.sub, S.read]
              apply List.ext_getElem?
              intro k
              simp only [List.getElem?_take, List.getElem?_drop]
              split
              · rw [if_pos (by omega)]; congr 1; omega
              · rfl
        · intro k j d d' hd hd' he ha
          rcases getElem?_snoc hd with ⟨_, hd⟩ | ⟨_, rfl⟩
          · rcases getElem?_snoc hd' with ⟨_, hd'⟩ | ⟨_, rfl⟩
            · exact hi.last k j d d' hd hd' he ha
            · have := hi.last k i d c hd hc he ha
              simp only [S.sub]; omega
          · simp at he
        · intro k j d d' hd hd' he he' ha
          rcases getElem?_snoc hd with ⟨_, hd⟩ | ⟨_, rfl⟩
          · rcases getElem?_snoc hd' with ⟨_, hd'⟩ | ⟨_, rfl⟩
            · exact hi.one k j d d' hd hd' he he' ha
            · simp at he'
          · simp at he
      · simp at hr
    · simp at hr
  | app i xs spare =>
    simp only [Op.run] at hr
    split at hr
    · rename_i c hc
      split at hr
      · rename_i hext
        simp only [Option.some.injEq, Prod.mk.injEq] at hr
        rw [← hr.1, ← hr.2]
        have hok := hi.ok c (List.mem_of_getElem? hc)
        obtain ⟨hnew, hold⟩ := append_ok spare h c.s xs hok.1
        have harr : (append spare h c.s xs).2.arr = c.s.arr ∧
              (append spare h c.s xs).2.off + (append spare h c.s xs).2.len = c.s.off + c.s.len + xs.length ∨
            (append spare h c.s xs).2.arr = h.length := by
          unfold append
          split
          · left; exact ⟨rfl, by simp only; omega⟩
          · right; rfl
        refine ⟨?_, ?_, ?_⟩
        · intro d hd
          simp only [List.mem_append, List.mem_singleton] at hd
          rcases hd with hd | rfl
          · obtain ⟨k, hk⟩ := List.getElem?_of_mem hd
            obtain ⟨d', hd', e1, e2, _⟩ := getElem?_clear hc hk
            have hok' := hi.ok d' (List.mem_of_getElem? hd')
            rw [← e1, ← e2]
            refine ⟨hold _ hok'.1, ?_⟩
            rw [C52_append_frame spare h c.s d'.s xs hok.1 hok'.1 ?_]
            · exact hok'.2
            · exact fun ha => Or.inl (hi.last i k c d' hc hd' hext ha)
          · exact ⟨hnew, by rw [C52_append_value spare h c.s xs hok.1, hok.2]⟩
        · intro k j d d' hd hd' he ha
          rcases getElem?_snoc hd with ⟨_, hd⟩ | ⟨_, rfl⟩
          · obtain ⟨e, hek, e1, _, e3⟩ := getElem?_clear hc hd
            obtain ⟨he1, hne⟩ := e3 he
            rcases getElem?_snoc hd' with ⟨_, hd'⟩ | ⟨_, rfl⟩
            · obtain ⟨e', hek', e1', _, _⟩ := getElem?_clear hc hd'
              rw [← e1, ← e1']
              exact hi.last k j e e' hek hek' he1 (by rw [e1, e1']; exact ha)
            · simp only at ha
              rcases harr with ⟨h1, _⟩ | h1
              · exact absurd (hi.one k i e c hek hc he1 hext (by rw [e1, ← ha, h1])) hne
              · have := (hi.ok e (List.mem_of_getElem? hek)).1.1
                rw [e1, ← ha, h1] at this; omega
          · rcases getElem?_snoc hd' with ⟨_, hd'⟩ | ⟨_, rfl⟩
            · obtain ⟨e', hek', e1', _, _⟩ := getElem?_clear hc hd'
              simp only at ha ⊢
              rw [← e1'] at ha ⊢
              rcases harr with ⟨h1, h2⟩ | h1
              · have := hi.last i j c e' hc hek' hext (by rw [ha, h1])
                omega
              · have := (hi.ok e' (List.mem_of_getElem? hek')).1.1
                rw [ha, h1] at this; omega
            · exact Nat.le_refl _
        · intro k j d d' hd hd' he he' ha
          rcases getElem?_snoc hd with ⟨_, hd⟩ | ⟨e1, rfl⟩
          · obtain ⟨e, hek, e1, _, e3⟩ := getElem?_clear hc hd
            obtain ⟨he1, hne⟩ := e3 he
            rcases getElem?_snoc hd' with ⟨_, hd'⟩ | ⟨_, rfl⟩
            · obtain ⟨e', hek', e1', _, e3'⟩ := getElem?_clear hc hd'
              exact hi.one k j e e' hek hek' he1 (e3' he').1 (by rw [e1, e1']; exact ha)
            · simp only at ha
              rcases harr with ⟨h1, _⟩ | h1
              · exact absurd (hi.one k i e c hek hc he1 hext (by rw [e1, ← ha, h1])) hne
              · have := (hi.ok e (List.mem_of_getElem? hek)).1.1
                rw [e1, ← ha, h1] at this; omega
          · rcases getElem?_snoc hd' with ⟨_, hd'⟩ | ⟨e2, rfl⟩
            · obtain ⟨e', hek', e1', _, e3'⟩ := getElem?_clear hc hd'
              obtain ⟨he1', hne'⟩ := e3' he'
              simp only at ha
              rcases harr with ⟨h1, _⟩ | h1
              · exact absurd (hi.one i j c e' hc hek' hext he1' (by rw [e1', ha, h1])).symm hne'
              · have := (hi.ok e' (List.mem_of_getElem? hek')).1.1
                rw [e1', ha, h1] at this; omega
            · omega
      · simp at hr
    · simp at hr

/-- **C52 (single use).** In every program that extends each list value at most once (as `l.Append(x)` in a loop does,
and as `ListAdd` does on a fresh copy), every list ever made keeps its elements. -/
theorem C52_single_use_partial (os : List (Op T)) (h : Heap T) (cs : List (Cell T))
    (hr : runAll os ([], []) = some (h, cs)) : ∀ c ∈ cs, c.s.read h = c.val := by
  have gen : ∀ (os : List (Op T)) (st : Heap T × List (Cell T)), Inv st.1 st.2 → runAll os st = some (h, cs) → Inv h cs := by
    intro os
    induction os with
    | nil =>
      intro st hi hr
      simp only [runAll, Option.some.injEq] at hr
      rw [hr] at hi
      exact hi
    | cons o os ih =>
      intro st hi hr
      simp only [runAll] at hr
      cases ho : o.run st with
      | none => rw [ho] at hr; simp at hr
      | some st' =>
        rw [ho] at hr
        exact ih st' (inv_step (h := st.1) (cs := st.2) hi o ho) hr
  have := gen os ([], []) ⟨by simp, by simp, by simp⟩ hr
  exact fun c hc => (this.ok c hc).2

/-- Three appends, a copy of the second list, an extension of the copy: all five lists read as they should. -/
example : (runAll [.mk [1], .app 0 [2] [0, 0], .app 1 [3] [], .cpy 1, .app 3 [9] [0]] ([], [])).map
    (fun r => r.2.map fun c => c.s.read r.1) = some [[1], [1, 2], [1, 2, 3], [1, 2], [1, 2, 9]] := by decide

/-- Extending list 1 a second time is what the discipline excludes. -/
example : (runAll [.mk [1], .app 0 [2] [0, 0], .app 1 [3] [], .app 1 [9] []] (([], []) : Heap Nat × _)).isNone = true := by
  decide

end Verif.Lib.Slice
