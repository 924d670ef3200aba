/-!
# C53: `Glob.Map` (`src/Glob/map.go`)

Keys and values are two parallel lists. `eqK` is `Equals` on keys, `eqV` on values.
-/

namespace Verif.Glob.Map

variable {K : Type u} {V : Type v}

/-- `Map` (src/Glob/map.go:37-42). -/
structure Map (K : Type u) (V : Type v) where
  keys : List K := []
  values : List V := []

/-- `getIndexOf` (src/Glob/list.go:243-251) and the search loops of `getExists` and `set` (src/Glob/map.go:65-73,
122-135): the receiver of `Equals` is the stored element. -/
def indexOf (eq : K → K → Bool) (k : K) : List K → Option Nat
  | [] => none
  | x :: xs => if eq x k then some 0 else (indexOf eq k xs).map (· + 1)

/-- `GetExists` (src/Glob/map.go:58-73): `none` when the key is absent. The outer option is a crash: no value at the
position of the key. -/
def getExists (eq : K → K → Bool) (m : Map K V) (k : K) : Option (Option V) :=
  match indexOf eq k m.keys with
  | none => some none
  | some i => match m.values[i]? with
    | some v => some (some v)
    | none => none

/-- `GetKey` (src/Glob/map.go:102-111). -/
def getKey (eqV : V → V → Bool) (m : Map K V) (v : V) : Option (Option K) :=
  match indexOf eqV v m.values with
  | none => some none
  | some i => match m.keys[i]? with
    | some k => some (some k)
    | none => none

/-- `Set` (src/Glob/map.go:115-135): the new map and the value that was replaced. -/
def set (eq : K → K → Bool) (m : Map K V) (k : K) (v : V) : Option (Map K V × Option V) :=
  match indexOf eq k m.keys with
  | none => some (⟨m.keys ++ [k], m.values ++ [v]⟩, none)
  | some i => match m.values[i]? with
    | some old => some (⟨m.keys, m.values.set i v⟩, some old)
    | none => none

/-- `Unset` (src/Glob/map.go:138-148). -/
def unset (eq : K → K → Bool) (m : Map K V) (k : K) : Option (Map K V) :=
  match indexOf eq k m.keys with
  | none => some m
  | some i => if i < m.keys.length ∧ i < m.values.length then some ⟨m.keys.eraseIdx i, m.values.eraseIdx i⟩ else none

/-- `Length` (src/Glob/map.go:151-156). -/
def length (m : Map K V) : Nat := m.keys.length

/-- `CopyInto` (src/Glob/map.go:179-186), the pairs of the first map from position `i` on. -/
def copyIntoLoop (eq : K → K → Bool) (m : Map K V) : Nat → Nat → Map K V → Option (Map K V)
  | 0, _, o => some o
  | n + 1, i, o => match m.keys[i]?, m.values[i]? with
    | some k, some v => (set eq o k v).bind fun r => copyIntoLoop eq m n (i + 1) r.1
    | _, _ => none

def copyInto (eq : K → K → Bool) (m o : Map K V) : Option (Map K V) := copyIntoLoop eq m m.keys.length 0 o

/-! ### The specification: a function from keys to values, respecting equality -/

inductive Op (K : Type u) (V : Type v) where
  | set (k : K) (v : V)
  | unset (k : K)
  | clear
  | insertAll (kvs : List (K × V))

/-- What the map should answer after the operations. -/
def spec (eq : K → K → Bool) : List (Op K V) → (K → Option V) → K → Option V
  | [], f => f
  | .set k v :: os, f => spec eq os fun k' => if eq k k' then some v else f k'
  | .unset k :: os, f => spec eq os fun k' => if eq k k' then none else f k'
  | .clear :: os, _ => spec eq os fun _ => none
  | .insertAll kvs :: os, f => spec eq os fun k' => match kvs.reverse.find? (fun p => eq p.1 k') with
    | some p => some p.2
    | none => f k'

/-- The map built from pairs by `Set`, in order. -/
def setAll (eq : K → K → Bool) : List (K × V) → Map K V → Option (Map K V)
  | [], m => some m
  | (k, v) :: kvs, m => (set eq m k v).bind fun r => setAll eq kvs r.1

/-- The operations of the code; `insertAll` builds a map and copies it into this one. -/
def run (eq : K → K → Bool) : List (Op K V) → Map K V → Option (Map K V)
  | [], m => some m
  | .set k v :: os, m => (set eq m k v).bind fun r => run eq os r.1
  | .unset k :: os, m => (unset eq m k).bind (run eq os)
  | .clear :: os, _ => run eq os ⟨[], []⟩
  | .insertAll kvs :: os, m => (setAll eq kvs ⟨[], []⟩).bind fun o => (copyInto eq o m).bind (run eq os)

/-- The abstract content. -/
def look (eq : K → K → Bool) (m : Map K V) (k : K) : Option V := ((m.keys.zip m.values).find? (fun p => eq p.1 k)).map (·.2)

structure Eqv (eq : K → K → Bool) : Prop where
  refl : ∀ a, eq a a = true
  symm : ∀ a b, eq a b = true → eq b a = true
  trans : ∀ a b c, eq a b = true → eq b c = true → eq a c = true

structure Inv (eq : K → K → Bool) (m : Map K V) : Prop where
  len : m.keys.length = m.values.length
  nodup : m.keys.Pairwise fun a b => eq a b = false

variable {eq : K → K → Bool}

theorem Eqv.congr (he : Eqv eq) {a b : K} (h : eq a b = true) (c : K) : eq a c = eq b c := by
  cases h1 : eq a c <;> cases h2 : eq b c <;> try rfl
  · rw [he.trans a b c h h2] at h1; cases h1
  · rw [he.trans b a c (he.symm a b h) h1] at h2; cases h2

theorem Eqv.comm (he : Eqv eq) (a b : K) : eq a b = eq b a := by
  cases h1 : eq a b <;> cases h2 : eq b a <;> try rfl
  · rw [he.symm b a h2] at h1; cases h1
  · rw [he.symm a b h1] at h2; cases h2

theorem getExists_look (m : Map K V) (hl : m.keys.length = m.values.length) (k : K) :
    getExists eq m k = some (look eq m k) := by
  obtain ⟨ks, vs⟩ := m
  induction ks generalizing vs with
  | nil => simp [getExists, indexOf, look]
  | cons x xs ih =>
    cases vs with
    | nil => simp at hl
    | cons v vs =>
      by_cases hx : eq x k = true
      · simp [getExists, indexOf, look, hx]
      · have := ih vs (by simpa using hl)
        simp only [getExists, indexOf, look, hx, Bool.false_eq_true, if_false, List.zip_cons_cons, List.find?_cons] at this ⊢
        cases hi : indexOf eq k xs with
        | none => rw [hi] at this; simpa using this
        | some i => rw [hi] at this; simpa using this

theorem indexOf_none (k : K) (l : List K) (h : indexOf eq k l = none) : ∀ x ∈ l, eq x k = false := by
  induction l with
  | nil => simp
  | cons x xs ih =>
    unfold indexOf at h
    split at h
    · simp at h
    · rename_i hx
      simp only [Option.map_eq_none_iff] at h
      intro y hy
      simp only [List.mem_cons] at hy
      rcases hy with rfl | hy
      · simpa using hx
      · exact ih h y hy

theorem indexOf_some (k : K) (l : List K) (i : Nat) (h : indexOf eq k l = some i) :
    ∃ pre x post, l = pre ++ x :: post ∧ pre.length = i ∧ eq x k = true ∧ ∀ y ∈ pre, eq y k = false := by
  induction l generalizing i with
  | nil => simp [indexOf] at h
  | cons x xs ih =>
    unfold indexOf at h
    split at h
    · rename_i hx
      simp only [Option.some.injEq] at h
      exact ⟨[], x, xs, rfl, by simpa using h, hx, by simp⟩
    · rename_i hx
      cases hi : indexOf eq k xs with
      | none => rw [hi] at h; simp at h
      | some j =>
        rw [hi] at h
        simp only [Option.map_some, Option.some.injEq] at h
        obtain ⟨pre, y, post, h1, h2, h3, h4⟩ := ih j hi
        refine ⟨x :: pre, y, post, by rw [h1]; rfl, by simp [h2, h], h3, ?_⟩
        intro z hz
        simp only [List.mem_cons] at hz
        rcases hz with rfl | hz
        · simpa using hx
        · exact h4 z hz

/-- The parts of a map with the key at a known place. -/
theorem split_at {m : Map K V} (hl : m.keys.length = m.values.length) {pre post : List K} {x : K}
    (h : m.keys = pre ++ x :: post) : ∃ vpre v vpost, m.values = vpre ++ v :: vpost ∧ vpre.length = pre.length ∧
      vpost.length = post.length := by
  have hlen : pre.length < m.values.length := by rw [← hl, h]; simp
  refine ⟨m.values.take pre.length, m.values[pre.length], m.values.drop (pre.length + 1), ?_, ?_, ?_⟩
  · rw [List.getElem_cons_drop]; simp
  · simp; omega
  · simp only [List.length_drop, ← hl, h, List.length_append, List.length_cons]; omega

theorem look_parts (pre post : List K) (x : K) (vpre vpost : List V) (v : V) (h1 : vpre.length = pre.length)
    (k : K) : look eq ⟨pre ++ x :: post, vpre ++ v :: vpost⟩ k =
      (look eq ⟨pre, vpre⟩ k).or (if eq x k then some v else look eq ⟨post, vpost⟩ k) := by
  simp only [look]
  rw [List.zip_append h1.symm, List.find?_append, List.zip_cons_cons, List.find?_cons]
  cases hf : List.find? (fun p => eq p.1 k) (pre.zip vpre) with
  | some p => simp
  | none =>
    simp only [Option.none_or, Option.map_none]
    cases eq x k <;> simp

theorem look_absent {ks : List K} {vs : List V} {k : K} (h : ∀ x ∈ ks, eq x k = false) : look eq ⟨ks, vs⟩ k = none := by
  simp only [look, Option.map_eq_none_iff, List.find?_eq_none]
  intro p hp
  have := h p.1 (List.of_mem_zip hp).1
  simp [this]

/-- `Set` keeps the invariant and changes exactly the answer for the given key. -/
theorem set_spec (he : Eqv eq) (m : Map K V) (hi : Inv eq m) (k : K) (v : V) :
    ∃ m', set eq m k v = some (m', look eq m k) ∧ Inv eq m' ∧
      ∀ k', look eq m' k' = if eq k k' then some v else look eq m k' := by
  unfold set
  cases h : indexOf eq k m.keys with
  | none =>
    have hn := indexOf_none k m.keys h
    refine ⟨_, by rw [look_absent hn], ⟨by simp [hi.len], ?_⟩, ?_⟩
    · rw [List.pairwise_append]
      exact ⟨hi.nodup, by simp, fun a ha b hb => by simp at hb; rw [hb]; exact hn a ha⟩
    · intro k'
      have hp := look_parts (eq := eq) m.keys [] k m.values [] v hi.len.symm k'
      rw [hp]
      by_cases hk : eq k k' = true
      · rw [if_pos hk, if_pos hk]
        rw [look_absent (fun x hx => ?_)]
        · rfl
        · rw [he.comm, ← he.congr hk, ← he.comm]; exact hn x hx
      · rw [if_neg hk, if_neg hk]
        have : look eq (⟨[], []⟩ : Map K V) k' = none := rfl
        rw [this, Option.or_none]
  | some i =>
    obtain ⟨pre, x, post, h1, h2, h3, h4⟩ := indexOf_some k m.keys i h
    obtain ⟨vpre, w, vpost, e1, e2, e3⟩ := split_at hi.len h1
    have hpw := hi.nodup
    rw [h1, List.pairwise_append] at hpw
    have hpost : ∀ y ∈ post, eq x y = false := fun y hy => (List.pairwise_cons.1 hpw.2.1).1 y hy
    have hpre : ∀ y ∈ pre, eq y x = false := fun y hy => hpw.2.2 y hy x (by simp)
    have hv : m.values[i]? = some w := by rw [e1, ← h2, ← e2]; simp
    have hset : m.values.set i v = vpre ++ v :: vpost := by
      rw [e1, ← h2, ← e2, List.set_append_right _ _ (Nat.le_refl _)]; simp
    have hm : m = ⟨pre ++ x :: post, vpre ++ w :: vpost⟩ := by
      obtain ⟨ks, vs⟩ := m; simp only at h1 e1; rw [h1, e1]
    simp only [hv]
    refine ⟨⟨m.keys, m.values.set i v⟩, ?_, ⟨by simp [hi.len], hi.nodup⟩, ?_⟩
    · rw [hm, look_parts _ _ _ _ _ _ e2, if_pos h3, look_absent (fun y hy => h4 y hy)]; rfl
    · intro k'
      rw [hset, h1, hm, look_parts _ _ _ _ _ _ e2, look_parts _ _ _ _ _ _ e2]
      have hxk : eq x k' = eq k k' := he.congr h3 k'
      rw [hxk]
      by_cases hk : eq k k' = true
      · rw [if_pos hk, if_pos hk]
        rw [look_absent (fun y hy => ?_)]
        · rfl
        · rw [he.comm, ← he.congr hk, ← he.comm]; exact h4 y hy
      · rw [if_neg hk, if_neg hk, if_neg hk]

/-- `Unset` keeps the invariant and removes exactly the given key. -/
theorem unset_spec (he : Eqv eq) (m : Map K V) (hi : Inv eq m) (k : K) :
    ∃ m', unset eq m k = some m' ∧ Inv eq m' ∧ ∀ k', look eq m' k' = if eq k k' then none else look eq m k' := by
  unfold unset
  cases h : indexOf eq k m.keys with
  | none =>
    have hn := indexOf_none k m.keys h
    refine ⟨m, rfl, hi, fun k' => ?_⟩
    by_cases hk : eq k k' = true
    · rw [if_pos hk]
      exact look_absent (fun x hx => by rw [he.comm, ← he.congr hk, ← he.comm]; exact hn x hx)
    · rw [if_neg hk]
  | some i =>
    obtain ⟨pre, x, post, h1, h2, h3, h4⟩ := indexOf_some k m.keys i h
    obtain ⟨vpre, w, vpost, e1, e2, e3⟩ := split_at hi.len h1
    have hpw := hi.nodup
    rw [h1, List.pairwise_append] at hpw
    have hm : m = ⟨pre ++ x :: post, vpre ++ w :: vpost⟩ := by
      obtain ⟨ks, vs⟩ := m; simp only at h1 e1; rw [h1, e1]
    have hk1 : m.keys.eraseIdx i = pre ++ post := by
      rw [h1, ← h2, List.eraseIdx_append_of_length_le (Nat.le_refl _)]; simp
    have hv1 : m.values.eraseIdx i = vpre ++ vpost := by
      rw [e1, ← h2, ← e2, List.eraseIdx_append_of_length_le (Nat.le_refl _)]; simp
    have hlt : i < m.keys.length ∧ i < m.values.length := by
      rw [← hi.len, h1, ← h2]; simp
    simp only [hlt, and_self, if_true, hk1, hv1]
    refine ⟨_, rfl, ⟨by simp [e2, e3], ?_⟩, fun k' => ?_⟩
    · simp only
      rw [List.pairwise_append]
      exact ⟨hpw.1, (List.pairwise_cons.1 hpw.2.1).2, fun a ha b hb => hpw.2.2 a ha b (by simp [hb])⟩
    · rw [hm, look_parts _ _ _ _ _ _ e2]
      have hap : look eq ⟨pre ++ post, vpre ++ vpost⟩ k' = (look eq ⟨pre, vpre⟩ k').or (look eq ⟨post, vpost⟩ k') := by
        simp only [look]
        rw [List.zip_append e2.symm, List.find?_append]
        cases List.find? (fun p => eq p.1 k') (pre.zip vpre) <;> simp
      rw [hap]
      have hxk : eq x k' = eq k k' := he.congr h3 k'
      rw [hxk]
      by_cases hk : eq k k' = true
      · simp only [hk, if_true]
        have a1 : look eq ⟨pre, vpre⟩ k' = none :=
          look_absent (fun y hy => by rw [he.comm, ← he.congr hk, ← he.comm]; exact h4 y hy)
        have a2 : look eq ⟨post, vpost⟩ k' = none := by
          refine look_absent (fun y hy => ?_)
          have := (List.pairwise_cons.1 hpw.2.1).1 y hy
          rw [he.comm, ← he.congr (hxk.trans hk)]; exact this
        rw [a1, a2]; rfl
      · simp only [hk, Bool.false_eq_true, if_false]

theorem setAll_spec (he : Eqv eq) (kvs : List (K × V)) (m : Map K V) (hi : Inv eq m) :
    ∃ m', setAll eq kvs m = some m' ∧ Inv eq m' ∧ ∀ k', look eq m' k' =
      (match kvs.reverse.find? (fun p => eq p.1 k') with | some p => some p.2 | none => look eq m k') := by
  induction kvs generalizing m with
  | nil => exact ⟨m, rfl, hi, fun _ => rfl⟩
  | cons kv kvs ih =>
    obtain ⟨k, v⟩ := kv
    obtain ⟨m1, e1, i1, l1⟩ := set_spec he m hi k v
    obtain ⟨m2, e2, i2, l2⟩ := ih m1 i1
    refine ⟨m2, by simp only [setAll, e1, Option.bind_some]; exact e2, i2, fun k' => ?_⟩
    rw [l2, List.reverse_cons, List.find?_append, l1]
    cases kvs.reverse.find? (fun p => eq p.1 k') with
    | some p => rfl
    | none =>
      simp only [Option.none_or, List.find?_cons, List.find?_nil]
      cases eq k k' <;> rfl

/-- Copying a map is setting its pairs one by one. -/
theorem copyIntoLoop_eq (m o : Map K V) (n i : Nat) (hl : m.keys.length = m.values.length) (hn : i + n = m.keys.length) :
    copyIntoLoop eq m n i o = setAll eq ((m.keys.zip m.values).drop i) o := by
  induction n generalizing i o with
  | zero =>
    rw [List.drop_eq_nil_of_le (by simp; omega)]
    rfl
  | succ n ih =>
    have h1 : i < m.keys.length := by omega
    have h2 : i < m.values.length := by omega
    simp only [copyIntoLoop, List.getElem?_eq_getElem h1, List.getElem?_eq_getElem h2]
    rw [List.drop_eq_getElem_cons (by simp; omega)]
    simp only [List.getElem_zip, setAll]
    congr 1
    funext r
    exact ih r.1 (i + 1) (by omega)

theorem copyInto_spec (he : Eqv eq) (m o : Map K V) (hm : Inv eq m) (ho : Inv eq o) :
    ∃ o', copyInto eq m o = some o' ∧ Inv eq o' ∧ ∀ k', look eq o' k' = (look eq m k').or (look eq o k') := by
  unfold copyInto
  rw [copyIntoLoop_eq m o _ 0 hm.len (by omega), List.drop_zero]
  obtain ⟨o', e, i, l⟩ := setAll_spec he (m.keys.zip m.values) o ho
  refine ⟨o', e, i, fun k' => ?_⟩
  rw [l]
  -- at most one key matches, so the last match is the first
  have huniq : (m.keys.zip m.values).reverse.find? (fun p => eq p.1 k') = (m.keys.zip m.values).find? (fun p => eq p.1 k') := by
    obtain ⟨ks, vs⟩ := m
    have hnd := hm.nodup
    have hl := hm.len
    simp only at hnd hl ⊢
    clear hm e l
    induction ks generalizing vs with
    | nil => rfl
    | cons x xs ih =>
      cases vs with
      | nil => rfl
      | cons v vs =>
        have hc := List.pairwise_cons.1 hnd
        rw [List.zip_cons_cons, List.reverse_cons, List.find?_append, ih vs hc.2 (by simpa using hl), List.find?_cons]
        by_cases hx : eq x k' = true
        · have : List.find? (fun p => eq p.1 k') (xs.zip vs) = none := by
            rw [List.find?_eq_none]
            intro p hp
            have := hc.1 p.1 (List.of_mem_zip hp).1
            rw [he.congr hx] at this
            rw [he.comm]; simp [this]
          rw [this]; simp [hx]
        · simp only [List.find?_cons, hx, List.find?_nil, Option.or_none]
  rw [huniq]
  simp only [look]
  cases (m.keys.zip m.values).find? (fun p => eq p.1 k') <;> rfl

/-- **C53.** After any sequence of operations, starting with an empty map, no operation has crashed, `GetExists`
answers as the finite function that the operations define, and no two keys are equal. -/
theorem C53_map (he : Eqv eq) (os : List (Op K V)) :
    ∃ m, run eq os ⟨[], []⟩ = some m ∧ (∀ k, getExists eq m k = some (spec eq os (fun _ => none) k)) ∧
      m.keys.Pairwise (fun a b => eq a b = false) := by
  have gen : ∀ (os : List (Op K V)) (m : Map K V), Inv eq m → ∃ m', run eq os m = some m' ∧ Inv eq m' ∧
      look eq m' = spec eq os (look eq m) := by
    intro os
    induction os with
    | nil => exact fun m hi => ⟨m, rfl, hi, rfl⟩
    | cons o os ih =>
      intro m hi
      cases o with
      | set k v =>
        obtain ⟨m1, e1, i1, l1⟩ := set_spec he m hi k v
        obtain ⟨m2, e2, i2, l2⟩ := ih m1 i1
        refine ⟨m2, by simp only [run, e1, Option.bind_some]; exact e2, i2, ?_⟩
        rw [l2]; simp only [spec]; congr 1; funext k'; exact l1 k'
      | unset k =>
        obtain ⟨m1, e1, i1, l1⟩ := unset_spec he m hi k
        obtain ⟨m2, e2, i2, l2⟩ := ih m1 i1
        refine ⟨m2, by simp only [run, e1, Option.bind_some]; exact e2, i2, ?_⟩
        rw [l2]; simp only [spec]; congr 1; funext k'; exact l1 k'
      | clear =>
        obtain ⟨m2, e2, i2, l2⟩ := ih ⟨[], []⟩ ⟨rfl, List.Pairwise.nil⟩
        exact ⟨m2, e2, i2, l2⟩
      | insertAll kvs =>
        obtain ⟨m0, e0, i0, l0⟩ := setAll_spec he kvs ⟨[], []⟩ ⟨rfl, List.Pairwise.nil⟩
        obtain ⟨m1, e1, i1, l1⟩ := copyInto_spec he m0 m i0 hi
        obtain ⟨m2, e2, i2, l2⟩ := ih m1 i1
        refine ⟨m2, by simp only [run, e0, Option.bind_some, e1]; exact e2, i2, ?_⟩
        rw [l2]; simp only [spec]; congr 1; funext k'
        rw [l1, l0]
        cases kvs.reverse.find? (fun p => eq p.1 k') <;> rfl
  obtain ⟨m, e, i, l⟩ := gen os ⟨[], []⟩ ⟨rfl, List.Pairwise.nil⟩
  exact ⟨m, e, fun k => by rw [getExists_look m i.len, l]; rfl, i.nodup⟩

/-- **C53 (length).** The length is the number of keys that have a value: the keys have values, are pairwise different,
and every key with a value is equal to one of them. -/
theorem C53_length (he : Eqv eq) (os : List (Op K V)) (m : Map K V) (h : run eq os ⟨[], []⟩ = some m) :
    length m = m.keys.length ∧ (∀ k ∈ m.keys, (spec eq os (fun _ => none) k).isSome) ∧
      ∀ k, (spec eq os (fun _ => none) k).isSome → ∃ k' ∈ m.keys, eq k' k = true := by
  obtain ⟨m', e, hg, hp⟩ := C53_map he os
  rw [h] at e
  cases e
  refine ⟨rfl, fun k hk => ?_, fun k hs => ?_⟩
  · have hgk := hg k
    unfold getExists at hgk
    cases hi : indexOf eq k m.keys with
    | none => have := indexOf_none k m.keys hi k hk; rw [he.refl] at this; cases this
    | some i =>
      rw [hi] at hgk
      simp only at hgk
      split at hgk
      · simp only [Option.some.injEq] at hgk; rw [← hgk]; rfl
      · simp at hgk
  · have hgk := hg k
    unfold getExists at hgk
    cases hi : indexOf eq k m.keys with
    | none =>
      rw [hi] at hgk
      simp only [Option.some.injEq] at hgk
      rw [← hgk] at hs; simp at hs
    | some i =>
      obtain ⟨pre, x, post, h1, _, h3, _⟩ := indexOf_some k m.keys i hi
      exact ⟨x, by rw [h1]; simp, h3⟩

/-- **C53 (old value).** `Set` returns the value the key had. -/
theorem C53_set_old (he : Eqv eq) (os : List (Op K V)) (m : Map K V) (h : run eq os ⟨[], []⟩ = some m) (k : K) (v : V) :
    (set eq m k v).map (·.2) = some (spec eq os (fun _ => none) k) := by
  obtain ⟨m', e, hg, hp⟩ := C53_map he os
  rw [h] at e
  cases e
  unfold set
  have hgk := hg k
  unfold getExists at hgk
  cases hi : indexOf eq k m.keys with
  | none => rw [hi] at hgk; simpa using hgk
  | some i =>
    rw [hi] at hgk
    simp only at hgk ⊢
    cases hv : m.values[i]? with
    | none => rw [hv] at hgk; simp at hgk
    | some w => rw [hv] at hgk; simpa using hgk

/-- Set, overwrite, remove, insert. -/
example : (run (K := Nat) (V := Nat) (· == ·) [.set 1 10, .set 2 20, .set 1 11, .unset 2, .insertAll [(3, 30), (1, 12)]] ⟨[], []⟩).map
    (fun m => (m.keys, m.values)) = some ([1, 3], [12, 30]) := by decide

end Verif.Glob.Map
