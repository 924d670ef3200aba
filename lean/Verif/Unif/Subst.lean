import Verif.Unif.Term
/-!
# Substitutions (`src/Unif/substitutions_type.go`)

A substitution is a list of pairs. The Go value `Failure()`, a one-element list with the reserved
metavariable of index -1 (lines 215-218), is a separate result `fail` here: the reserved metavariable occurs
nowhere else, and every place that goes on after a failure ends with a failure (`MergeSubstitutions`
adds further pairs after the failure pair, and `Eliminate` finds the pair invalid).

`out` marks a loop or recursion that has not finished within the given number of rounds; all theorems
about results hold for every bound. `panic` is a Go runtime panic.
-/

namespace Verif.Unif

/-- Results of the procedures. -/
inductive Res (α : Type u) where
  | ok (a : α)
  | fail
  | panic
  | out
deriving DecidableEq

def Res.bind {α : Type u} {β : Type v} : Res α → (α → Res β) → Res β
  | .ok a, f => f a
  | .fail, _ => .fail
  | .panic, _ => .panic
  | .out, _ => .out

theorem Res.bind_ok {α : Type u} {β : Type v} {x : Res α} {f : α → Res β} {b : β} :
    x.bind f = .ok b ↔ ∃ a, x = .ok a ∧ f a = .ok b := by
  cases x <;> simp [Res.bind]

/-- `Substitutions` (line 48). -/
abbrev Subst := List (Nat × UT)

/-- `Get` (136-145). -/
def Subst.get (s : Subst) (k : Nat) : Option UT := (s.find? (fun p => decide (p.1 = k))).map (·.2)

/-- `HasSubst` (222-229). -/
def Subst.has (s : Subst) (k : Nat) : Bool := s.any (fun p => decide (p.1 = k))

/-- `Set` (123-134). The loop assigns to a copy of the pair, so a pair with the same key is left as it
is. -/
def Subst.set (s : Subst) (k : Nat) (v : UT) : Subst := if s.has k then s else s ++ [(k, v)]

/-- `Remove` (147-150) of the first pair with the key: the last pair takes its place. -/
def Subst.removeKey (s : Subst) (k : Nat) : Subst :=
  match s.findIdx? (fun p => decide (p.1 = k)) with
  | none => s
  | some i => match s.getLast? with
    | none => s
    | some l => (List.set s i l).dropLast

/-- `OccurCheckValid` with `isRecursive` and `areFuncArgsRecursive` (233-264). -/
def occurValid (k : Nat) (v : UT) : Bool := !(v.occ.contains k)

/-- One pass of the loop of `eliminateInside` (295-334) with `eliminateList` (338-378) as replacement
of all occurrences (see `Verif.Unif.ElimList`). The second component says if something changed. -/
def elimPass (key : Nat) (value : UT) : Subst → Subst × Bool → Res (Subst × Bool)
  | [], acc => .ok acc
  | (k2, v2) :: rest, (tmp, ch) =>
    match v2 with
    | .mv i => if key = i then elimPass key value rest (tmp.set k2 value, true)
        else elimPass key value rest (tmp.set k2 v2, ch)
    | .fn _ _ =>
      let nv := v2.sub key value
      if occurValid k2 nv then elimPass key value rest (tmp.set k2 nv, ch || v2.occ.contains key) else .fail

/-- `eliminateInside` (293-335); the second component is the flag `has_changed_top`. -/
def elimInside (key : Nat) (value : UT) : Nat → Subst → Bool → Res (Subst × Bool)
  | 0, _, _ => .out
  | n + 1, s, top => (elimPass key value s ([], false)).bind fun r =>
      if r.2 then elimInside key value n r.1 true else .ok (r.1, top)

/-- One round of `Eliminate` (278-288): the pairs are those at the start of the round. -/
def elimRound (fuel : Nat) : Subst → Subst × Bool → Res (Subst × Bool)
  | [], acc => .ok acc
  | (k, v) :: rest, acc =>
    if occurValid k v then (elimInside k v fuel acc.1 acc.2).bind fun r => elimRound fuel rest r else .fail

/-- `Eliminate` (268-290). -/
def eliminate : Nat → Subst → Res Subst
  | 0, _ => .out
  | n + 1, s => (elimRound (n + 2) s (s, false)).bind fun r => if r.2 then eliminate n r.1 else .ok r.1

/-- `EliminateMeta` (381-397). -/
def elimMetaLoop (s : Subst) : Subst → Subst → Subst
  | [], acc => acc
  | (k, v) :: rest, acc =>
    match v with
    | .mv i => if s.has i && acc.has i && decide (s.get i = some (.mv k)) then elimMetaLoop s rest acc
        else elimMetaLoop s rest (acc.set k v)
    | .fn _ _ => elimMetaLoop s rest (acc.set k v)

def elimMeta (s : Subst) : Subst := elimMetaLoop s s []

/-! ### Specification -/

def Subst.keys (s : Subst) : List Nat := s.map (·.1)

/-- The assignment satisfies all bindings. -/
def Subst.Sol {D : Type u} (A : Alg D) (σ : Nat → D) (s : Subst) : Prop := ∀ p ∈ s, σ p.1 = p.2.eval A σ

/-- Solved form: no metavariable bound by the substitution occurs in one of its terms, and no
metavariable is bound twice. -/
def Subst.Solved (s : Subst) : Prop := s.keys.Nodup ∧ ∀ p ∈ s, ∀ k ∈ s.keys, k ∉ p.2.occ

def Subst.Ar (ar : Nat → Nat) (s : Subst) : Prop := ∀ p ∈ s, p.2.Ar ar

/-- The substitution as a function. -/
def Subst.fn (s : Subst) (i : Nat) : UT := (s.get i).getD (.mv i)

/-! ### Lookup -/

theorem Subst.has_iff {s : Subst} {k : Nat} : s.has k = true ↔ k ∈ s.keys := by
  simp [Subst.has, Subst.keys]

theorem Subst.get_mem {s : Subst} {k : Nat} {v : UT} (h : s.get k = some v) : (k, v) ∈ s := by
  simp only [Subst.get, Option.map_eq_some_iff] at h
  obtain ⟨p, hp, rfl⟩ := h
  have h1 := List.mem_of_find?_eq_some hp
  have h2 : p.1 = k := by simpa using List.find?_some hp
  rw [← h2]; exact h1

theorem Subst.get_isSome {s : Subst} {k : Nat} (h : k ∈ s.keys) : ∃ v, s.get k = some v := by
  simp only [Subst.keys, List.mem_map] at h
  obtain ⟨p, hp, rfl⟩ := h
  have : (s.find? (fun q => decide (q.1 = p.1))).isSome := by
    rw [List.find?_isSome]; exact ⟨p, hp, by simp⟩
  obtain ⟨q, hq⟩ := Option.isSome_iff_exists.1 this
  exact ⟨q.2, by simp [Subst.get, hq]⟩

theorem Subst.get_eq_none {s : Subst} {k : Nat} (h : k ∉ s.keys) : s.get k = none := by
  cases h' : s.get k with
  | none => rfl
  | some v => exact absurd (List.mem_map.2 ⟨_, Subst.get_mem h', rfl⟩) h

theorem Subst.mem_unique {s : Subst} (h : s.keys.Nodup) {k : Nat} {v w : UT} (h1 : (k, v) ∈ s)
    (h2 : (k, w) ∈ s) : v = w := by
  induction s with
  | nil => cases h1
  | cons p s ih =>
    simp only [Subst.keys, List.map_cons, List.nodup_cons] at h
    rcases List.mem_cons.1 h1 with e1 | h1 <;> rcases List.mem_cons.1 h2 with e2 | h2
    · rw [← e1] at e2; exact (Prod.mk.inj e2).2.symm
    · exact absurd (List.mem_map.2 ⟨_, h2, by rw [← e1]⟩) h.1
    · exact absurd (List.mem_map.2 ⟨_, h1, by rw [← e2]⟩) h.1
    · exact ih h.2 h1 h2

theorem Subst.get_of_mem {s : Subst} (h : s.keys.Nodup) {k : Nat} {v : UT} (h1 : (k, v) ∈ s) :
    s.get k = some v := by
  obtain ⟨w, hw⟩ := Subst.get_isSome (List.mem_map.2 ⟨_, h1, rfl⟩)
  rw [hw, Subst.mem_unique h h1 (Subst.get_mem hw)]

theorem Subst.set_has {s : Subst} {k : Nat} (v : UT) (h : k ∈ s.keys) : s.set k v = s := by
  simp [Subst.set, Subst.has_iff.2 h]

theorem Subst.set_new {s : Subst} {k : Nat} (v : UT) (h : k ∉ s.keys) : s.set k v = s ++ [(k, v)] := by
  have : s.has k = false := by
    cases h' : s.has k with
    | false => rfl
    | true => exact absurd (Subst.has_iff.1 h') h
  simp [Subst.set, this]

theorem Subst.keys_append (s t : Subst) : Subst.keys (s ++ t) = s.keys ++ t.keys := by simp [Subst.keys]

theorem Subst.nodup_set {s : Subst} (h : s.keys.Nodup) (k : Nat) (v : UT) : (s.set k v).keys.Nodup := by
  by_cases hk : k ∈ s.keys
  · rw [Subst.set_has v hk]; exact h
  · rw [Subst.set_new v hk, Subst.keys_append, List.nodup_append]
    refine ⟨h, by simp [Subst.keys], ?_⟩
    intro a ha b hb
    simp only [Subst.keys, List.map_cons, List.map_nil, List.mem_singleton] at hb
    subst hb; rintro rfl; exact hk ha

theorem Subst.mem_set {s : Subst} {k : Nat} {v : UT} {p : Nat × UT} (h : p ∈ s.set k v) :
    p ∈ s ∨ p = (k, v) := by
  by_cases hk : k ∈ s.keys
  · rw [Subst.set_has v hk] at h; exact Or.inl h
  · rw [Subst.set_new v hk] at h; simpa using h

theorem Subst.mem_set_left {s : Subst} {k : Nat} {v : UT} {p : Nat × UT} (h : p ∈ s) : p ∈ s.set k v := by
  by_cases hk : k ∈ s.keys
  · rw [Subst.set_has v hk]; exact h
  · rw [Subst.set_new v hk]; simp [h]

theorem Subst.key_set {s : Subst} {k i : Nat} {v : UT} : i ∈ (s.set k v).keys ↔ i ∈ s.keys ∨ i = k := by
  by_cases hk : k ∈ s.keys
  · rw [Subst.set_has v hk]
    exact ⟨Or.inl, fun h => h.elim id (fun e => e ▸ hk)⟩
  · rw [Subst.set_new v hk, Subst.keys_append]; simp [Subst.keys]

theorem Subst.Ar_set {ar : Nat → Nat} {s : Subst} (h : s.Ar ar) {k : Nat} {v : UT} (hv : v.Ar ar) :
    (s.set k v).Ar ar := by
  intro p hp
  rcases Subst.mem_set hp with hp | rfl
  · exact h p hp
  · exact hv

theorem occurValid_iff {k : Nat} {v : UT} : occurValid k v = true ↔ k ∉ v.occ := by
  simp [occurValid]

/-! ### `Eliminate` -/

/-- Replacement in all terms of a substitution. -/
def Subst.subAll (k : Nat) (v : UT) (s : Subst) : Subst := s.map fun p => (p.1, p.2.sub k v)

theorem Subst.keys_subAll (k : Nat) (v : UT) (s : Subst) : (s.subAll k v).keys = s.keys := by
  simp [Subst.keys, Subst.subAll]

theorem elimPass_spec {key : Nat} {value : UT} (s tmp : Subst) (ch : Bool) (r : Subst × Bool)
    (hnd : (tmp ++ s).keys.Nodup) (h : elimPass key value s (tmp, ch) = .ok r) :
    r = (tmp ++ s.subAll key value, ch || s.any (fun p => p.2.occ.contains key)) := by
  induction s generalizing tmp ch with
  | nil => simp only [elimPass, Res.ok.injEq] at h; simp [← h, Subst.subAll]
  | cons p s ih =>
    obtain ⟨k2, v2⟩ := p
    have hk : k2 ∉ tmp.keys := by
      rw [Subst.keys_append, List.nodup_append] at hnd
      intro hh
      exact hnd.2.2 k2 hh k2 (by simp [Subst.keys]) rfl
    have hnd' : ∀ w, ((tmp.set k2 w) ++ s).keys.Nodup := by
      intro w
      rw [Subst.set_new w hk]
      simpa [Subst.keys] using hnd
    cases v2 with
    | mv i =>
      by_cases hi : key = i
      · subst hi
        simp only [elimPass, if_true] at h
        rw [ih _ _ (hnd' _) h, Subst.set_new value hk]
        simp [Subst.subAll, UT.sub, UT.occ]
      · simp only [elimPass, hi, if_false] at h
        rw [ih _ _ (hnd' _) h, Subst.set_new _ hk]
        have hi' : ¬ i = key := fun e => hi e.symm
        simp [Subst.subAll, UT.sub, UT.occ, hi', hi]
    | fn p args =>
      simp only [elimPass] at h
      by_cases ho : occurValid k2 ((UT.fn p args).sub key value) = true
      · rw [if_pos ho] at h
        rw [ih _ _ (hnd' _) h, Subst.set_new _ hk]
        simp [Subst.subAll, Bool.or_assoc]
      · rw [if_neg ho] at h; cases h

theorem elimInside_spec {key : Nat} {value : UT} (hv : key ∉ value.occ) (n : Nat) (s : Subst) (top : Bool)
    (r : Subst × Bool) (hnd : s.keys.Nodup) (h : elimInside key value n s top = .ok r) :
    r = (s.subAll key value, top || s.any (fun p => p.2.occ.contains key)) := by
  induction n generalizing s top with
  | zero => simp [elimInside] at h
  | succ n ih =>
    simp only [elimInside, Res.bind_ok] at h
    obtain ⟨a, ha, h⟩ := h
    have := elimPass_spec s [] false a (by simpa using hnd) ha
    subst this
    simp only [List.nil_append, Bool.false_or] at h
    have hno : (s.subAll key value).any (fun p => p.2.occ.contains key) = false := by
      simp only [Subst.subAll, List.any_map, List.any_eq_false, Function.comp_apply, List.contains_eq_mem,
        decide_eq_true_eq]
      intro p _ hp
      rcases UT.occ_sub _ hp with ⟨_, h2⟩ | ⟨_, h2⟩
      · exact h2 rfl
      · exact hv h2
    have hid : (s.subAll key value).subAll key value = s.subAll key value := by
      simp only [Subst.subAll, List.map_map]
      refine List.map_congr_left fun p hp => ?_
      simp only [Function.comp_apply, Prod.mk.injEq, true_and]
      refine UT.sub_of_not_mem _ fun hk => ?_
      rcases UT.occ_sub _ hk with ⟨_, h2⟩ | ⟨_, h2⟩
      · exact h2 rfl
      · exact hv h2
    by_cases hc : s.any (fun p => p.2.occ.contains key) = true
    · rw [if_pos hc] at h
      have := ih _ _ (by rw [Subst.keys_subAll]; exact hnd) h
      rw [hid, hno] at this
      rw [this, hc]; simp
    · rw [if_neg hc] at h
      simp only [Res.ok.injEq] at h
      rw [← h]
      have : s.any (fun p => p.2.occ.contains key) = false := by simpa using hc
      rw [this]; simp

theorem Subst.Sol_subAll {D : Type u} {A : Alg D} {σ : Nat → D} {k : Nat} {v : UT} (h : σ k = v.eval A σ)
    (s : Subst) : Subst.Sol A σ (s.subAll k v) ↔ Subst.Sol A σ s := by
  simp only [Subst.Sol, Subst.subAll, List.mem_map]
  constructor
  · intro hs p hp
    have := hs _ ⟨p, hp, rfl⟩
    simpa [UT.eval_sub h] using this
  · rintro hs _ ⟨p, hp, rfl⟩
    simpa [UT.eval_sub h] using hs p hp

theorem Subst.Ar_subAll {ar : Nat → Nat} {s : Subst} (h : s.Ar ar) {k : Nat} {v : UT} (hv : v.Ar ar) :
    (s.subAll k v).Ar ar := by
  intro p hp
  simp only [Subst.subAll, List.mem_map] at hp
  obtain ⟨q, hq, rfl⟩ := hp
  exact UT.Ar_sub hv _ (h q hq)

/-- What a round does: keys stay, assignments satisfying all pairs of the round and the substitution
satisfy the result. -/
theorem elimRound_spec (fuel : Nat) (ts s : Subst) (ch : Bool) (r : Subst × Bool) (hnd : s.keys.Nodup)
    (h : elimRound fuel ts (s, ch) = .ok r) :
    r.1.keys = s.keys ∧
    (∀ {D : Type u} (A : Alg D) (σ : Nat → D), Subst.Sol A σ ts → (Subst.Sol A σ s → Subst.Sol A σ r.1)) ∧
    (∀ ar, Subst.Ar ar ts → Subst.Ar ar s → Subst.Ar ar r.1) ∧
    (r.2 = false → ch = false ∧ r.1 = s ∧ ∀ t ∈ ts, ∀ p ∈ s, t.1 ∉ p.2.occ) := by
  induction ts generalizing s ch with
  | nil =>
    simp only [elimRound, Res.ok.injEq] at h
    subst h
    exact ⟨rfl, fun _ _ _ h => h, fun _ _ h => h, fun h => ⟨h, rfl, by simp⟩⟩
  | cons t ts ih =>
    obtain ⟨k, v⟩ := t
    simp only [elimRound] at h
    by_cases ho : occurValid k v = true
    · rw [if_pos ho, Res.bind_ok] at h
      obtain ⟨a, ha, h⟩ := h
      have ha' := elimInside_spec (occurValid_iff.1 ho) fuel s ch a hnd ha
      subst ha'
      obtain ⟨h1, h2, h3, h4⟩ := ih _ _ (by rw [Subst.keys_subAll]; exact hnd) h
      refine ⟨by rw [h1, Subst.keys_subAll], ?_, ?_, ?_⟩
      · intro D A σ hts hs
        exact h2 A σ (fun p hp => hts p (List.mem_cons_of_mem _ hp))
          ((Subst.Sol_subAll (hts _ (List.mem_cons_self ..)) s).2 hs)
      · intro ar hts hs
        exact h3 ar (fun p hp => hts p (List.mem_cons_of_mem _ hp))
          (Subst.Ar_subAll hs (hts _ (List.mem_cons_self ..)))
      · intro hr
        obtain ⟨e1, e2, e3⟩ := h4 hr
        simp only [Bool.or_eq_false_iff, List.any_eq_false, List.contains_eq_mem, decide_eq_true_eq] at e1
        have hid : s.subAll k v = s := by
          simp only [Subst.subAll]
          have := List.map_congr_left (l := s) (f := fun p => (p.1, p.2.sub k v)) (g := id)
            fun p hp => by
              simp only [id]
              rw [UT.sub_of_not_mem _ (e1.2 p hp)]
          simpa using this
        rw [hid] at e2 e3
        refine ⟨e1.1, e2, ?_⟩
        intro t ht
        rcases List.mem_cons.1 ht with rfl | ht
        · exact e1.2
        · exact e3 t ht
    · rw [if_neg ho] at h; cases h

/-- `Eliminate`: the result is in solved form with the same keys, and every assignment satisfying the
input satisfies it. -/
theorem eliminate_spec (n : Nat) (s r : Subst) (hnd : s.keys.Nodup) (h : eliminate n s = .ok r) :
    r.keys = s.keys ∧ r.Solved ∧
    (∀ {D : Type u} (A : Alg D) (σ : Nat → D), Subst.Sol A σ s → Subst.Sol A σ r) ∧
    (∀ ar, Subst.Ar ar s → Subst.Ar ar r) := by
  induction n generalizing s with
  | zero => simp [eliminate] at h
  | succ n ih =>
    simp only [eliminate, Res.bind_ok] at h
    obtain ⟨a, ha, h⟩ := h
    obtain ⟨h1, h2, h3, h4⟩ := elimRound_spec _ s s false a hnd ha
    by_cases hc : a.2 = true
    · rw [if_pos hc] at h
      obtain ⟨e1, e2, e3, e4⟩ := ih a.1 (by rw [h1]; exact hnd) h
      exact ⟨by rw [e1, h1], e2, fun A σ hs => e3 A σ (h2 A σ hs hs), fun ar hs => e4 ar (h3 ar hs hs)⟩
    · rw [if_neg hc] at h
      simp only [Res.ok.injEq] at h
      subst h
      obtain ⟨_, e2, e3⟩ := h4 (by simpa using hc)
      refine ⟨h1, ⟨by rw [h1]; exact hnd, ?_⟩, fun A σ hs => h2 A σ hs hs, fun ar hs => h3 ar hs hs⟩
      rw [e2]
      intro p hp k hk
      simp only [Subst.keys, List.mem_map] at hk
      obtain ⟨t, ht, rfl⟩ := hk
      exact e3 t ht p hp

/-! A solved form with the same keys that follows from a substitution in every algebra is equivalent to
it: in the algebra of truth values with disjunction, "from here one can go on forever" is an assignment
satisfying the substitution; so the solved form shows that one cannot, and the values of the keys
can be computed. -/

/-- Disjunction. -/
def infAlg : Alg Prop := fun _ l => ∃ x ∈ l, x

theorem eval_infAlg (σ : Nat → Prop) (t : UT) : t.eval infAlg σ ↔ ∃ i ∈ t.occ, σ i := by
  induction t using UT.ind with
  | mv i => simp [UT.eval, UT.occ]
  | fn p args ih =>
    simp only [UT.eval, infAlg, UT.evalL_eq, List.mem_map, UT.occ, UT.mem_occL]
    constructor
    · rintro ⟨_, ⟨a, ha, rfl⟩, h⟩
      obtain ⟨i, hi, h⟩ := (ih a ha).1 h
      exact ⟨i, ⟨a, ha, hi⟩, h⟩
    · rintro ⟨i, ⟨a, ha, hi⟩, h⟩
      exact ⟨_, ⟨a, ha, rfl⟩, (ih a ha).2 ⟨i, hi, h⟩⟩

/-- `z` occurs in the term bound to `k`. -/
def Subst.Dep (s : Subst) (z k : Nat) : Prop := ∃ v, (k, v) ∈ s ∧ z ∈ v.occ

theorem wf_of_solved {s r : Subst} (hk : r.keys = s.keys) (hr : r.Solved)
    (h : ∀ (A : Alg Prop) (σ : Nat → Prop), Subst.Sol A σ s → Subst.Sol A σ r) (hnd : s.keys.Nodup) :
    WellFounded s.Dep := by
  have hsol : Subst.Sol infAlg (fun k => ¬ Acc s.Dep k) s := by
    intro p hp
    refine propext ?_
    rw [eval_infAlg]
    constructor
    · intro hna
      refine Classical.byContradiction fun hne => hna (Acc.intro _ ?_)
      rintro z ⟨v, hv, hz⟩
      have := Subst.mem_unique hnd hp hv
      subst this
      exact Classical.byContradiction fun hz' => hne ⟨z, hz, hz'⟩
    · rintro ⟨i, hi, hna⟩ hacc
      exact hna (hacc.inv ⟨p.2, hp, hi⟩)
  have hsol' := h _ _ hsol
  have nonkey : ∀ i, i ∉ s.keys → Acc s.Dep i := by
    intro i hi
    refine Acc.intro _ ?_
    rintro z ⟨v, hv, _⟩
    exact absurd (List.mem_map.2 ⟨_, hv, rfl⟩) hi
  refine ⟨fun k => ?_⟩
  by_cases hks : k ∈ s.keys
  · rw [← hk] at hks
    obtain ⟨v, hv⟩ := Subst.get_isSome hks
    have hv := Subst.get_mem hv
    have := hsol' _ hv
    refine Classical.byContradiction fun hna => ?_
    have h2 : v.eval infAlg (fun k => ¬ Acc s.Dep k) := by rw [← this]; exact hna
    rw [eval_infAlg] at h2
    obtain ⟨i, hi, hna'⟩ := h2
    refine hna' (nonkey i fun hik => ?_)
    rw [← hk] at hik
    exact hr.2 _ hv i hik hi
  · exact nonkey k hks

open Classical in
/-- The assignment with given values outside the keys that satisfies an acyclic substitution. -/
noncomputable def solve {D : Type u} (A : Alg D) (σ : Nat → D) (s : Subst) (wf : WellFounded s.Dep) : Nat → D :=
  wf.fix fun k rec => match s.get k with
    | none => σ k
    | some v => v.eval A (fun z => if h : s.Dep z k then rec z h else σ z)

theorem solve_sol {D : Type u} {A : Alg D} {σ : Nat → D} {s : Subst} (hnd : s.keys.Nodup)
    (wf : WellFounded s.Dep) : Subst.Sol A (solve A σ s wf) s := by
  intro p hp
  have hg := Subst.get_of_mem hnd hp
  unfold solve
  rw [WellFounded.fix_eq]
  simp only [hg]
  refine UT.eval_congr _ fun i hi => ?_
  have : s.Dep i p.1 := ⟨p.2, hp, hi⟩
  simp [this]

theorem solve_nonkey {D : Type u} {A : Alg D} {σ : Nat → D} {s : Subst} (wf : WellFounded s.Dep) {k : Nat}
    (h : k ∉ s.keys) : solve A σ s wf k = σ k := by
  unfold solve
  rw [WellFounded.fix_eq]
  simp [Subst.get_eq_none h]

theorem sol_of_solved {s r : Subst} (hk : r.keys = s.keys) (hr : r.Solved) (hnd : s.keys.Nodup)
    (h0 : ∀ (A : Alg Prop) (σ : Nat → Prop), Subst.Sol A σ s → Subst.Sol A σ r)
    {D : Type u} (A : Alg D) (h : ∀ (σ : Nat → D), Subst.Sol A σ s → Subst.Sol A σ r)
    (σ : Nat → D) (hσ : Subst.Sol A σ r) : Subst.Sol A σ s := by
  have wf := wf_of_solved hk hr h0 hnd
  have h1 : Subst.Sol A (solve A σ s wf) s := solve_sol hnd wf
  have h2 := h _ h1
  have : solve A σ s wf = σ := by
    funext k
    by_cases hks : k ∈ s.keys
    · have hkr : k ∈ r.keys := by rw [hk]; exact hks
      obtain ⟨v, hv⟩ := Subst.get_isSome hkr
      have hv := Subst.get_mem hv
      have e1 := h2 _ hv
      have e2 := hσ _ hv
      simp only at e1 e2
      rw [e1, e2]
      refine UT.eval_congr _ fun i hi => solve_nonkey wf fun hik => ?_
      rw [← hk] at hik
      exact hr.2 _ hv i hik hi
    · exact solve_nonkey wf hks
  rw [← this]; exact h1

/-- `Eliminate` does not change the set of satisfying assignments, in any algebra. -/
theorem eliminate_sol {n : Nat} {s r : Subst} (hnd : s.keys.Nodup) (h : eliminate n s = .ok r)
    {D : Type u} (A : Alg D) (σ : Nat → D) : Subst.Sol A σ r ↔ Subst.Sol A σ s := by
  obtain ⟨h1, h2, h3, _⟩ := eliminate_spec n s r hnd h
  exact ⟨sol_of_solved h1 h2 hnd (fun A σ => (eliminate_spec n s r hnd h).2.2.1 A σ) A (fun σ => h3 A σ) σ, h3 A σ⟩

/-! ### `EliminateMeta` -/

theorem elimMetaLoop_spec (s : Subst) (rest acc : Subst) (hacc : acc.keys.Nodup) :
    (elimMetaLoop s rest acc).keys.Nodup ∧ (∀ p ∈ acc, p ∈ elimMetaLoop s rest acc) ∧
    (∀ p ∈ elimMetaLoop s rest acc, p ∈ acc ∨ p ∈ rest) := by
  induction rest generalizing acc with
  | nil => simp [elimMetaLoop, hacc]
  | cons p rest ih =>
    obtain ⟨k, v⟩ := p
    have go : (elimMetaLoop s rest (acc.set k v)).keys.Nodup ∧
        (∀ p ∈ acc, p ∈ elimMetaLoop s rest (acc.set k v)) ∧
        (∀ p ∈ elimMetaLoop s rest (acc.set k v), p ∈ acc ∨ p ∈ (k, v) :: rest) := by
      obtain ⟨a, b, c⟩ := ih (acc.set k v) (Subst.nodup_set hacc k v)
      refine ⟨a, fun p hp => b p (Subst.mem_set_left hp), fun p hp => ?_⟩
      rcases c p hp with hp | hp
      · rcases Subst.mem_set hp with hp | rfl
        · exact Or.inl hp
        · exact Or.inr (List.mem_cons_self ..)
      · exact Or.inr (List.mem_cons_of_mem _ hp)
    cases v with
    | mv i =>
      simp only [elimMetaLoop]
      split
      · obtain ⟨a, b, c⟩ := ih acc hacc
        exact ⟨a, b, fun p hp => (c p hp).imp id (List.mem_cons_of_mem _)⟩
      · exact go
    | fn q args => simp only [elimMetaLoop]; exact go

/-- The loop keeps every pair or has kept its converse. -/
theorem elimMetaLoop_sol {D : Type u} {A : Alg D} {σ : Nat → D} (s : Subst) (rest acc : Subst)
    (hsub : ∀ p ∈ acc, p ∈ s) (hnd : s.keys.Nodup) (hnd2 : (acc ++ rest).keys.Nodup)
    (h : Subst.Sol A σ (elimMetaLoop s rest acc)) (hrs : ∀ p ∈ rest, p ∈ s)
    (hacc : acc.keys.Nodup) : Subst.Sol A σ rest := by
  induction rest generalizing acc with
  | nil => intro p hp; cases hp
  | cons p rest ih =>
    obtain ⟨k, v⟩ := p
    have hk : k ∉ acc.keys := by
      rw [Subst.keys_append, List.nodup_append] at hnd2
      intro hh
      exact hnd2.2.2 k hh k (by simp [Subst.keys]) rfl
    have hdrop : (acc ++ rest).keys.Nodup := by
      refine List.Sublist.nodup ?_ hnd2
      simp only [Subst.keys]
      exact (List.Sublist.append_left (List.sublist_cons_self _ _) _).map _
    have go : Subst.Sol A σ (elimMetaLoop s rest (acc.set k v)) → Subst.Sol A σ ((k, v) :: rest) := by
      intro h
      have h1 := ih (acc.set k v)
        (by
          intro p hp
          rcases Subst.mem_set hp with hp | rfl
          · exact hsub p hp
          · exact hrs _ (List.mem_cons_self ..))
        (by rw [Subst.set_new v hk]; simpa [Subst.keys] using hnd2) h
        (fun p hp => hrs p (List.mem_cons_of_mem _ hp)) (Subst.nodup_set hacc k v)
      intro p hp
      rcases List.mem_cons.1 hp with rfl | hp
      · refine h _ ((elimMetaLoop_spec s rest _ (Subst.nodup_set hacc k v)).2.1 _ ?_)
        rw [Subst.set_new v hk]; simp
      · exact h1 p hp
    cases v with
    | mv i =>
      simp only [elimMetaLoop] at h
      split at h
      · rename_i hc
        simp only [Bool.and_eq_true, decide_eq_true_eq] at hc
        have h1 := ih acc hsub hdrop h (fun p hp => hrs p (List.mem_cons_of_mem _ hp)) hacc
        intro p hp
        rcases List.mem_cons.1 hp with rfl | hp
        · obtain ⟨w, hw⟩ := Subst.get_isSome (Subst.has_iff.1 hc.1.2)
          have hw := Subst.get_mem hw
          have hw' := hsub _ hw
          have := Subst.mem_unique hnd hw' (Subst.get_mem hc.2)
          subst this
          have := h _ ((elimMetaLoop_spec s rest _ hacc).2.1 _ hw)
          simp only [UT.eval] at this ⊢
          exact this.symm
        · exact h1 p hp
      · exact go h
    | fn q args => simp only [elimMetaLoop] at h; exact go h

theorem elimMeta_nodup (s : Subst) : (elimMeta s).keys.Nodup :=
  (elimMetaLoop_spec s s [] (by simp [Subst.keys])).1

theorem elimMeta_sub (s : Subst) : ∀ p ∈ elimMeta s, p ∈ s := by
  intro p hp
  simpa using (elimMetaLoop_spec s s [] (by simp [Subst.keys])).2.2 p hp

/-- `EliminateMeta` does not change the set of satisfying assignments. -/
theorem elimMeta_sol {s : Subst} (hnd : s.keys.Nodup) {D : Type u} (A : Alg D) (σ : Nat → D) :
    Subst.Sol A σ (elimMeta s) ↔ Subst.Sol A σ s :=
  ⟨fun h => elimMetaLoop_sol s s [] (by simp) hnd (by simpa using hnd) h (fun _ h => h) (by simp [Subst.keys]),
   fun h p hp => h p (elimMeta_sub s p hp)⟩

/-- Both together. -/
def elimBoth (n : Nat) (s : Subst) : Res Subst := eliminate n (elimMeta s)

theorem elimBoth_spec {n : Nat} {s r : Subst} (hnd : s.keys.Nodup) (h : elimBoth n s = .ok r) :
    r.Solved ∧ (∀ {D : Type u} (A : Alg D) (σ : Nat → D), Subst.Sol A σ r ↔ Subst.Sol A σ s) ∧
    (∀ ar, Subst.Ar ar s → Subst.Ar ar r) := by
  obtain ⟨_, h2, _, h4⟩ := eliminate_spec.{0} n _ r (elimMeta_nodup s) h
  refine ⟨h2, fun A σ => ?_, fun ar hs => h4 ar fun p hp => hs p (elimMeta_sub s p hp)⟩
  rw [eliminate_sol (elimMeta_nodup s) h A σ, elimMeta_sol hnd A σ]

/-! ### Removal of a binding -/

theorem Subst.removeKey_spec {s : Subst} (hnd : s.keys.Nodup) (k : Nat) :
    (s.removeKey k).keys.Nodup ∧ (∀ p, p ∈ s.removeKey k ↔ p ∈ s ∧ p.1 ≠ k) := by
  unfold Subst.removeKey
  cases hf : s.findIdx? (fun p => decide (p.1 = k)) with
  | none =>
    rw [List.findIdx?_eq_none_iff] at hf
    refine ⟨hnd, fun p => ⟨fun hp => ⟨hp, by simpa using hf p hp⟩, fun hp => hp.1⟩⟩
  | some i =>
    rw [List.findIdx?_eq_some_iff_getElem] at hf
    obtain ⟨hi, hk, _⟩ := hf
    simp only [decide_eq_true_eq] at hk
    rcases List.eq_nil_or_concat s with rfl | ⟨init, l, rfl⟩
    · simp at hi
    · simp only [List.concat_eq_append, List.getLast?_append, List.getLast?_singleton, Option.some_or]
      simp only [List.concat_eq_append, List.length_append, List.length_cons, List.length_nil, Nat.zero_add] at hi hk hnd
      rw [Subst.keys_append, List.nodup_append] at hnd
      obtain ⟨hn1, _, hn2⟩ := hnd
      have hl : ∀ p ∈ init, p.1 ≠ l.1 := fun p hp => hn2 p.1 (List.mem_map.2 ⟨p, hp, rfl⟩) l.1 (by simp [Subst.keys])
      by_cases hlast : i = init.length
      · subst hlast
        rw [List.set_append_right _ _ (Nat.le_refl _)]
        simp only [Nat.sub_self, List.set_cons_zero, List.dropLast_concat]
        simp only [List.getElem_concat_length] at hk
        refine ⟨hn1, fun p => ⟨fun hp => ⟨by simp [hp], by rw [← hk]; exact hl p hp⟩, ?_⟩⟩
        rintro ⟨hp, hpk⟩
        rcases List.mem_append.1 hp with hp | hp
        · exact hp
        · simp only [List.mem_singleton] at hp; subst hp; exact absurd hk hpk
      · have hi' : i < init.length := by omega
        rw [List.set_append_left _ _ hi']
        simp only [List.dropLast_concat]
        rw [List.getElem_append_left hi'] at hk
        have huniq : ∀ j (hj : j < init.length), init[j].1 = k → j = i := by
          intro j hj hjk
          have := (List.getElem_inj (xs := (Subst.keys init)) (i := j) (j := i) (h₀ := by simpa [Subst.keys] using hj)
            (h₁ := by simpa [Subst.keys] using hi') hn1).1 (by simp [Subst.keys, hjk, hk])
          exact this
        constructor
        · rw [show Subst.keys (init.set i l) = (Subst.keys init).set i l.1 by simp [Subst.keys, List.map_set]]
          rw [List.Nodup, List.pairwise_iff_getElem] at hn1 ⊢
          intro a b ha hb hab
          simp only [List.length_set] at ha hb
          rw [List.getElem_set, List.getElem_set]
          have hlk : ∀ c (hc : c < (Subst.keys init).length), l.1 ≠ (Subst.keys init)[c] := by
            intro c hc
            have hc' : c < init.length := by simpa [Subst.keys] using hc
            have := hl init[c] (List.getElem_mem hc')
            simp only [Subst.keys, List.getElem_map]
            exact this.symm
          split
          · subst_vars
            rw [if_neg (by omega)]
            exact hlk b (by simpa using hb)
          · split
            · exact (hlk a ha).symm
            · exact hn1 a b ha hb hab
        · intro p
          constructor
          · intro hp
            rw [List.mem_iff_getElem] at hp
            obtain ⟨j, hj, rfl⟩ := hp
            rw [List.getElem_set]
            rw [List.length_set] at hj
            split
            · refine ⟨by simp, ?_⟩
              rw [← hk]; exact (hl _ (List.getElem_mem hi')).symm
            · rename_i hij
              exact ⟨by simp [List.getElem_mem], fun e => hij (huniq j hj e).symm⟩
          · rintro ⟨hp, hpk⟩
            rcases List.mem_append.1 hp with hp | hp
            · rw [List.mem_iff_getElem] at hp
              obtain ⟨j, hj, rfl⟩ := hp
              have hij : ¬ i = j := by rintro rfl; exact hpk hk
              rw [List.mem_iff_getElem]
              exact ⟨j, by simpa using hj, by rw [List.getElem_set, if_neg hij]⟩
            · simp only [List.mem_singleton] at hp
              subst hp
              rw [List.mem_iff_getElem]
              exact ⟨i, by simpa using hi', by simp⟩

end Verif.Unif
