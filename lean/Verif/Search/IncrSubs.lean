import Verif.Unif.Props
import Mathlib.Logic.Basic
import Mathlib.Tactic.Tauto
import Mathlib.Data.List.Perm.Subperm
import Mathlib.Data.List.Nodup
/-!
# C50, C63: combining the closing substitutions of branches (`src/Search/incremental/substitution.go`)

A substitution of the incremental search is a list of bindings of a metavariable to a term or to `any` (`nil` in Go, here
`none`). `SubJoker` is one particular pointer to an empty substitution; a copy of it is another pointer. Bindings are
shared between substitutions by pointers, but only changed by `replaceThisByThat`, which is used once
the search is over (not modelled).
-/

namespace Verif.Search.Incr
open Verif.Unif

/-- `SingleSub` (src/Search/incremental/substitution.go:19-22). -/
abbrev Entry := Nat × Option UT

/-- `Sub` (src/Search/incremental/substitution.go:50-52); `joker`: this is the pointer `SubJoker` (48). -/
structure Sub where
  joker : Bool
  l : List Entry
deriving DecidableEq

/-- `SubJoker` (src/Search/incremental/substitution.go:48). -/
def Sub.theJoker : Sub := ⟨true, []⟩

/-- `Copy` (src/Search/incremental/substitution.go:134-136). -/
def Sub.copy (s : Sub) : Sub := ⟨false, s.l⟩

/-- `NewFromOldSub` (src/Search/incremental/substitution.go:58-68). -/
def Sub.ofSubst (s : Subst) : Sub := ⟨false, s.map fun p => (p.1, some p.2)⟩

/-- `containsMeta` (src/Search/incremental/substitution.go:74-82). -/
def find (x : Nat) : List Entry → Option Entry
  | [] => none
  | e :: l => if e.1 = x then some e else find x l

/-- `isCompatibleWith` (src/Search/incremental/substitution.go:118-132). -/
def Sub.compatible (s o : Sub) : Bool :=
  if s.joker || o.joker then true
  else s.l.all fun e => match find e.1 o.l with
    | none => true
    | some e' => e'.2.isNone || e.2.isNone || decide (e'.2 = e.2)

/-- The binding that goes into the combination (src/Search/incremental/substitution.go:97-107). -/
def pick (o : List Entry) (e : Entry) : Entry :=
  match e.2 with
  | some _ => e
  | none => (find e.1 o).getD e

/-- `buildCompatibleWith` (src/Search/incremental/substitution.go:84-116); `none`: not compatible. -/
def Sub.build (s o : Sub) : Option Sub :=
  if s.joker then some o.copy
  else if o.joker then some s.copy
  else if s.compatible o then
    some ⟨false, s.l.map (pick o.l) ++ o.l.filter fun e => (find e.1 s.l).isNone⟩
  else none

/-- `Sub.Equals` (src/Search/incremental/substitution.go:138-158, with 15-17 and 36-38). -/
def Sub.eqv (s o : Sub) : Bool := decide (s.l.length = o.l.length) && s.l.all fun e => o.l.any fun e' => decide (e = e')

/-- `SubList.Contains` (src/Search/incremental/substitutionList.go:25-33). -/
def containsSub (sl : List Sub) (s : Sub) : Bool := sl.any fun x => x.eqv s

/-- `SubList.AppendIfNotContains` (src/Search/incremental/substitutionList.go:15-23). -/
def addSub (sl : List Sub) (s : Sub) : List Sub := if containsSub sl s then sl else sl ++ [s]

/-- `getCompatibleBetween` (src/Search/incremental/substitution.go:222-234). -/
def between (first second : List Sub) : List Sub :=
  first.foldl (fun r a => second.foldl (fun r b => match a.build b with
    | some c => addSub r c
    | none => r) r) []

/-- `getCompatibleSubs` for the children of a node (src/Search/incremental/subsManager.go:80-90) without the metavariables added
by `addMissingMetas`; the node has at least one child. -/
def compatibleSubs : List (List Sub) → List Sub
  | [] => []
  | c :: cs => cs.foldl between c

/-- The metavariables of the bindings added to `metas` (src/Search/incremental/substitution.go:241-246). -/
def allMetas (compat : List Sub) (metas : List Nat) : List Nat :=
  compat.foldl (fun ms s => s.l.foldl (fun ms e => if e.1 ∈ ms then ms else ms ++ [e.1]) ms) metas

/-- `addMissingMetas` (src/Search/incremental/substitution.go:236-263). -/
def addMissing (compat : List Sub) (metas : List Nat) : List Sub :=
  if metas = [] ∨ compat = [] then compat
  else compat.foldl (fun r s => addSub r ⟨false, s.l ++
    ((allMetas compat metas).filter fun x => (find x s.l).isNone).map fun x => (x, none)⟩) []

/-! ### Specification -/

/-- What a substitution says about a metavariable: nothing, anything, or a term. -/
inductive Val where
  | free
  | any
  | term (t : UT)
deriving DecidableEq

def Sub.val (s : Sub) (x : Nat) : Val :=
  match find x s.l with
  | none => .free
  | some (_, none) => .any
  | some (_, some t) => .term t

/-! ### Lemmas -/

theorem find_key {x : Nat} {l : List Entry} {e : Entry} (h : find x l = some e) : e.1 = x := by
  induction l with
  | nil => cases h
  | cons a l ih =>
    simp only [find] at h
    split at h
    · obtain rfl := Option.some.inj h; assumption
    · exact ih h

theorem find_mem {x : Nat} {l : List Entry} {e : Entry} (h : find x l = some e) : e ∈ l := by
  induction l with
  | nil => cases h
  | cons a l ih =>
    simp only [find] at h
    split at h
    · obtain rfl := Option.some.inj h; simp
    · exact List.mem_cons_of_mem _ (ih h)

theorem find_none {x : Nat} {l : List Entry} : find x l = none ↔ ∀ e ∈ l, e.1 ≠ x := by
  induction l with
  | nil => simp [find]
  | cons a l ih =>
    simp only [find]
    split
    · simp_all
    · simp_all

theorem find_append {x : Nat} {l m : List Entry} : find x (l ++ m) = (find x l).or (find x m) := by
  induction l with
  | nil => simp [find]
  | cons a l ih =>
    simp only [List.cons_append, find]
    split <;> simp [ih]

theorem pick_key {o : List Entry} {e : Entry} : (pick o e).1 = e.1 := by
  unfold pick
  split
  · rfl
  · cases h : find e.1 o with
    | none => rfl
    | some e' => simpa using find_key h

theorem find_map_pick {x : Nat} {l o : List Entry} : find x (l.map (pick o)) = (find x l).map (pick o) := by
  induction l with
  | nil => rfl
  | cons a l ih =>
    simp only [List.map_cons, find, pick_key]
    split <;> simp [ih]

theorem find_filter {x : Nat} {l : List Entry} {p : Nat → Bool} :
    find x (l.filter fun e => p e.1) = if p x then find x l else none := by
  induction l with
  | nil => simp [find]
  | cons a l ih =>
    simp only [List.filter_cons, find]
    by_cases h : a.1 = x
    · subst h
      by_cases hp : p a.1 = true
      · simp [hp, find]
      · simp [hp, ih]
    · by_cases hp : p a.1 = true
      · simp [hp, find, h, ih]
      · simp [hp, h, ih]

theorem compatible_iff {s o : Sub} (hs : s.joker = false) (ho : o.joker = false) :
    s.compatible o = true ↔ ∀ e ∈ s.l, ∀ e', find e.1 o.l = some e' → e'.2 = none ∨ e.2 = none ∨ e'.2 = e.2 := by
  simp only [Sub.compatible, hs, ho, Bool.or_self, Bool.false_eq_true, if_false, List.all_eq_true]
  constructor
  · intro h e he e' hf
    have := h e he
    simp only [hf, Bool.or_eq_true, Option.isNone_iff_eq_none, decide_eq_true_eq] at this
    tauto
  · intro h e he
    cases hf : find e.1 o.l with
    | none => rfl
    | some e' =>
      have := h e he e' hf
      simp only [Bool.or_eq_true, Option.isNone_iff_eq_none, decide_eq_true_eq]
      tauto

/-- The value in a combination. -/
def Val.join : Val → Val → Val
  | .free, b => b
  | .any, .free => .any
  | .any, b => b
  | .term t, _ => .term t

/-- Two values do not contradict each other. -/
def Val.agrees : Val → Val → Prop
  | .term a, .term b => a = b
  | _, _ => True

theorem val_find {s : Sub} {x : Nat} : s.val x = match find x s.l with
    | none => Val.free
    | some e => match e.2 with
      | none => .any
      | some t => .term t := by
  unfold Sub.val
  cases find x s.l with
  | none => rfl
  | some e => obtain ⟨a, b⟩ := e; cases b <;> rfl

theorem build_val {s o r : Sub} (js : s.joker = true → s.l = []) (jo : o.joker = true → o.l = [])
    (h : s.build o = some r) (x : Nat) :
    r.val x = (s.val x).join (o.val x) := by
  unfold Sub.build at h
  split at h
  · rename_i hj
    obtain rfl := Option.some.inj h
    simp [val_find, Sub.copy, js hj, find, Val.join]
  · split at h
    · rename_i hj
      obtain rfl := Option.some.inj h
      simp only [val_find, Sub.copy, jo hj, find]
      cases find x s.l with
      | none => rfl
      | some e => obtain ⟨k, v⟩ := e; cases v <;> rfl
    · split at h
      · obtain rfl := Option.some.inj h
        simp only [val_find, find_append, find_map_pick]
        rw [find_filter (p := fun k => (find k s.l).isNone)]
        cases hs : find x s.l with
        | none => simp [Val.join]
        | some e =>
          have hk := find_key hs
          simp only [Option.map_some, Option.or_some]
          obtain ⟨k, v⟩ := e
          dsimp only at hk; subst hk
          cases v with
          | some t => simp [pick, Val.join]
          | none =>
            simp only [pick]
            cases ho : find k o.l with
            | none => simp [Val.join]
            | some e' => obtain ⟨k', v'⟩ := e'; cases v' <;> simp [Val.join]
      · cases h

/-- Being a well-made substitution: the joker has no bindings. -/
def Sub.Ok (s : Sub) : Prop := (s.joker = true → s.l = []) ∧ (s.l.map (·.1)).Nodup

theorem build_isSome {s o : Sub} (hs : s.Ok) (ho : o.Ok) :
    (∃ r, s.build o = some r) ↔ ∀ x, (s.val x).agrees (o.val x) := by
  unfold Sub.build
  split
  · rename_i hj
    simp [val_find, hs.1 hj, find, Val.agrees]
  · rename_i h1
    split
    · rename_i hj
      simp only [Option.some.injEq, exists_eq', true_iff]
      intro x
      simp only [val_find, ho.1 hj, find]
      cases find x s.l with
      | none => trivial
      | some e => obtain ⟨k, v⟩ := e; cases v <;> trivial
    · rename_i h2
      have h1' : s.joker = false := by simpa using h1
      have h2' : o.joker = false := by simpa using h2
      have hc := compatible_iff h1' h2'
      have hag : (∀ x, (s.val x).agrees (o.val x)) ↔
          ∀ e ∈ s.l, ∀ e', find e.1 o.l = some e' → e'.2 = none ∨ e.2 = none ∨ e'.2 = e.2 := by
        constructor
        · intro h e he e' hf
          have hfe : find e.1 s.l = some e := by
            have hnd := hs.2
            generalize s.l = l at he hnd
            induction l with
            | nil => cases he
            | cons a l ih =>
              simp only [List.map_cons, List.nodup_cons] at hnd
              simp only [find]
              rcases List.mem_cons.1 he with rfl | he
              · simp
              · have : a.1 ≠ e.1 := fun hk => hnd.1 (List.mem_map.2 ⟨e, he, hk.symm⟩)
                simp [this, ih he hnd.2]
          have := h e.1
          simp only [val_find, hfe, hf] at this
          obtain ⟨k, v⟩ := e
          obtain ⟨k', v'⟩ := e'
          cases v <;> cases v' <;> simp [Val.agrees] at this ⊢
          exact this.symm
        · intro h x
          simp only [val_find]
          cases hf1 : find x s.l with
          | none => simp [Val.agrees]
          | some e =>
            have hk := find_key hf1
            cases hf2 : find x o.l with
            | none => obtain ⟨k, v⟩ := e; cases v <;> simp [Val.agrees]
            | some e' =>
              have := h e (find_mem hf1) e' (by rw [hk]; exact hf2)
              obtain ⟨k, v⟩ := e
              obtain ⟨k', v'⟩ := e'
              cases v <;> cases v' <;> simp [Val.agrees] at this ⊢
              exact this.symm
      rw [hag, ← hc]
      split
      · rename_i h; simp [h]
      · rename_i h; simp [h]

theorem build_ok {s o r : Sub} (hs : s.Ok) (ho : o.Ok) (h : s.build o = some r) : r.Ok := by
  unfold Sub.build at h
  split at h
  · obtain rfl := Option.some.inj h; exact ⟨by simp [Sub.copy], ho.2⟩
  · split at h
    · obtain rfl := Option.some.inj h; exact ⟨by simp [Sub.copy], hs.2⟩
    · split at h
      · obtain rfl := Option.some.inj h
        refine ⟨by simp, ?_⟩
        have hm : (s.l.map (pick o.l)).map (·.1) = s.l.map (·.1) := by
          simp [Function.comp_def, pick_key]
        simp only [List.map_append, hm]
        rw [List.nodup_append]
        refine ⟨hs.2, (List.filter_sublist.map _).nodup ho.2, ?_⟩
        intro a ha b hb e
        subst e
        obtain ⟨e', he', rfl⟩ := List.mem_map.1 hb
        simp only [List.mem_filter, Option.isNone_iff_eq_none, find_none] at he'
        obtain ⟨e, he, hk⟩ := List.mem_map.1 ha
        exact he'.2 e he hk
      · cases h

/-- Well-made substitutions that `Equals` identifies say the same. -/
theorem eqv_val {s o : Sub} (hs : s.Ok) (ho : o.Ok) (h : s.eqv o = true) (x : Nat) : s.val x = o.val x := by
  simp only [Sub.eqv, Bool.and_eq_true, decide_eq_true_eq, List.all_eq_true, List.any_eq_true, exists_eq_right'] at h
  obtain ⟨hl, hsub⟩ := h
  have nds : s.l.Nodup := List.Nodup.of_map _ hs.2
  have hmem : ∀ e, e ∈ s.l ↔ e ∈ o.l := by
    have hp : s.l.Perm o.l := by
      refine List.Subperm.perm_of_length_le (List.subperm_of_subset nds hsub) (by omega)
    exact fun e => hp.mem_iff
  have huniq : ∀ {l : List Entry}, (l.map (·.1)).Nodup → ∀ e ∈ l, find e.1 l = some e := by
    intro l hnd e he
    induction l with
    | nil => cases he
    | cons a l ih =>
      simp only [List.map_cons, List.nodup_cons] at hnd
      simp only [find]
      rcases List.mem_cons.1 he with rfl | he
      · simp
      · have : a.1 ≠ e.1 := fun hk => hnd.1 (List.mem_map.2 ⟨e, he, hk.symm⟩)
        simp [this, ih hnd.2 he]
  have hf : find x s.l = find x o.l := by
    cases h1 : find x s.l with
    | some e =>
      have := huniq ho.2 e ((hmem e).1 (find_mem h1))
      rw [find_key h1] at this
      exact this.symm
    | none =>
      rw [find_none] at h1
      exact (find_none.2 fun e he => h1 e ((hmem e).2 he)).symm
  simp only [val_find, hf]

theorem mem_addSub {sl : List Sub} {s r : Sub} (h : r ∈ addSub sl s) : r ∈ sl ∨ r = s := by
  unfold addSub at h
  split at h
  · exact Or.inl h
  · simpa using h

theorem addSub_sub {sl : List Sub} {s r : Sub} (h : r ∈ sl) : r ∈ addSub sl s := by
  unfold addSub
  split
  · exact h
  · simp [h]

theorem addSub_self {sl : List Sub} {s : Sub} (hsl : ∀ x ∈ sl, x.Ok) (hs : s.Ok) :
    ∃ r ∈ addSub sl s, ∀ x, r.val x = s.val x := by
  unfold addSub
  split
  · rename_i h
    simp only [containsSub, List.any_eq_true] at h
    obtain ⟨r, hr, he⟩ := h
    exact ⟨r, hr, eqv_val (hsl r hr) hs he⟩
  · exact ⟨s, by simp, fun _ => rfl⟩

/-- The inner loop of `getCompatibleBetween`. -/
theorem inner_spec (a : Sub) (second : List Sub) (r : List Sub) (ha : a.Ok) (h2 : ∀ b ∈ second, b.Ok) (hr : ∀ x ∈ r, x.Ok) :
    let out := second.foldl (fun r b => match a.build b with
      | some c => addSub r c
      | none => r) r
    (∀ x ∈ out, x.Ok) ∧ (∀ x ∈ r, x ∈ out) ∧ (∀ x ∈ out, x ∈ r ∨ ∃ b ∈ second, a.build b = some x) ∧
      ∀ b ∈ second, ∀ c, a.build b = some c → ∃ x ∈ out, ∀ k, x.val k = c.val k := by
  induction second generalizing r with
  | nil => exact ⟨hr, fun x h => h, fun x h => Or.inl h, fun b hb => by cases hb⟩
  | cons b bs ih =>
    simp only [List.foldl_cons]
    cases hb : a.build b with
    | none =>
      obtain ⟨i1, i2, i3, i4⟩ := ih r (fun b hb => h2 b (by simp [hb])) hr
      refine ⟨i1, i2, fun x hx => ?_, fun b' hb' c hc => ?_⟩
      · rcases i3 x hx with h | ⟨b', hb', h⟩
        · exact Or.inl h
        · exact Or.inr ⟨b', by simp [hb'], h⟩
      · rcases List.mem_cons.1 hb' with rfl | hb'
        · rw [hb] at hc; cases hc
        · exact i4 b' hb' c hc
    | some c0 =>
      have hc0 := build_ok ha (h2 b (by simp)) hb
      have hr' : ∀ x ∈ addSub r c0, x.Ok := by
        intro x hx
        rcases mem_addSub hx with hx | rfl
        · exact hr x hx
        · exact hc0
      obtain ⟨i1, i2, i3, i4⟩ := ih (addSub r c0) (fun b hb => h2 b (by simp [hb])) hr'
      refine ⟨i1, fun x hx => i2 x (addSub_sub hx), fun x hx => ?_, fun b' hb' c hc => ?_⟩
      · rcases i3 x hx with h | ⟨b', hb', h⟩
        · rcases mem_addSub h with h | rfl
          · exact Or.inl h
          · exact Or.inr ⟨b, by simp, hb⟩
        · exact Or.inr ⟨b', by simp [hb'], h⟩
      · rcases List.mem_cons.1 hb' with rfl | hb'
        · rw [hb] at hc
          obtain rfl := Option.some.inj hc
          obtain ⟨x, hx, hv⟩ := addSub_self hr hc0
          exact ⟨x, i2 x hx, hv⟩
        · exact i4 b' hb' c hc

theorem outer_spec (second : List Sub) (h2 : ∀ b ∈ second, b.Ok) (first : List Sub) (r : List Sub) (h1 : ∀ a ∈ first, a.Ok)
    (hr : ∀ x ∈ r, x.Ok) :
    let out := first.foldl (fun r a => second.foldl (fun r b => match a.build b with
      | some c => addSub r c
      | none => r) r) r
    (∀ x ∈ out, x.Ok) ∧ (∀ x ∈ r, x ∈ out) ∧ (∀ x ∈ out, x ∈ r ∨ ∃ a ∈ first, ∃ b ∈ second, a.build b = some x) ∧
      ∀ a ∈ first, ∀ b ∈ second, ∀ c, a.build b = some c → ∃ x ∈ out, ∀ k, x.val k = c.val k := by
  induction first generalizing r with
  | nil => exact ⟨hr, fun x h => h, fun x h => Or.inl h, fun b hb => by cases hb⟩
  | cons a as ih =>
    simp only [List.foldl_cons]
    obtain ⟨j1, j2, j3, j4⟩ := inner_spec a second r (h1 a (by simp)) h2 hr
    obtain ⟨i1, i2, i3, i4⟩ := ih _ (fun a ha => h1 a (by simp [ha])) j1
    refine ⟨i1, fun x hx => i2 x (j2 x hx), fun x hx => ?_, fun a' ha' b hb c hc => ?_⟩
    · rcases i3 x hx with h | ⟨a', ha', b, hb, h⟩
      · rcases j3 x h with h | ⟨b, hb, h⟩
        · exact Or.inl h
        · exact Or.inr ⟨a, by simp, b, hb, h⟩
      · exact Or.inr ⟨a', by simp [ha'], b, hb, h⟩
    · rcases List.mem_cons.1 ha' with rfl | ha'
      · obtain ⟨x, hx, hv⟩ := j4 b hb c hc
        exact ⟨x, i2 x hx, hv⟩
      · exact i4 a' ha' b hb c hc

theorem between_spec {first second : List Sub} (h1 : ∀ a ∈ first, a.Ok) (h2 : ∀ b ∈ second, b.Ok) :
    (∀ x ∈ between first second, x.Ok) ∧
    (∀ x ∈ between first second, ∃ a ∈ first, ∃ b ∈ second, a.build b = some x) ∧
    ∀ a ∈ first, ∀ b ∈ second, ∀ c, a.build b = some c → ∃ x ∈ between first second, ∀ k, x.val k = c.val k := by
  obtain ⟨i1, -, i3, i4⟩ := outer_spec second h2 first [] h1 (by simp)
  exact ⟨i1, fun x hx => (i3 x hx).resolve_left (by simp), i4⟩

/-! ### C50 -/

/-- **C50 (one pair).** A combination of two substitutions binds every metavariable bound in one of them to the term it had
there; what neither binds stays unbound. (The joker, which has no bindings, combines with everything.) -/
theorem C50_pair {s o r : Sub} (js : s.joker = true → s.l = []) (jo : o.joker = true → o.l = []) (hs : (s.l.map (·.1)).Nodup)
    (h : s.build o = some r) (ho : (o.l.map (·.1)).Nodup) (x : Nat) :
    (∀ t, s.val x = .term t → r.val x = .term t) ∧ (∀ t, o.val x = .term t → r.val x = .term t) ∧
    (∀ t, r.val x = .term t → s.val x = .term t ∨ o.val x = .term t) ∧
    (r.val x = .free ↔ s.val x = .free ∧ o.val x = .free) := by
  have hv := build_val js jo h x
  have hag := (build_isSome ⟨js, hs⟩ ⟨jo, ho⟩).1 ⟨r, h⟩ x
  rw [hv]
  cases h1 : s.val x <;> cases h2 : o.val x <;> simp_all [Val.join, Val.agrees]

/-- **C50 (when they combine).** Two substitutions combine exactly when no metavariable is bound to different terms. -/
theorem C50_when {s o : Sub} (hs : s.Ok) (ho : o.Ok) :
    (∃ r, s.build o = some r) ↔ ∀ x t u, s.val x = .term t → o.val x = .term u → t = u := by
  rw [build_isSome hs ho]
  constructor
  · intro h x t u h1 h2
    have := h x
    rw [h1, h2] at this
    exact this
  · intro h x
    cases h1 : s.val x <;> cases h2 : o.val x <;> simp [Val.agrees]
    exact h x _ _ h1 h2

/-- Folding `between` over the remaining children. -/
theorem fold_spec (cs : List (List Sub)) (acc : List Sub) (ha : ∀ a ∈ acc, a.Ok) (hc : ∀ c ∈ cs, ∀ s ∈ c, s.Ok) :
    (∀ r ∈ cs.foldl between acc, r.Ok) ∧
    (∀ r ∈ cs.foldl between acc, ∃ a ∈ acc, ∃ ss : List Sub, ss.length = cs.length ∧
      (∀ i (h1 : i < ss.length) (h2 : i < cs.length), ss[i] ∈ cs[i]) ∧
      ∀ x t, (r.val x = .term t ↔ a.val x = .term t ∨ ∃ s ∈ ss, s.val x = .term t)) ∧
    (∀ a ∈ acc, ∀ ss : List Sub, ss.length = cs.length →
      (∀ i (h1 : i < ss.length) (h2 : i < cs.length), ss[i] ∈ cs[i]) →
      (∀ s ∈ a :: ss, ∀ s' ∈ a :: ss, ∀ x t u, s.val x = .term t → s'.val x = .term u → t = u) →
      ∃ r ∈ cs.foldl between acc, ∀ x t, (r.val x = .term t ↔ a.val x = .term t ∨ ∃ s ∈ ss, s.val x = .term t)) := by
  induction cs generalizing acc with
  | nil =>
    refine ⟨ha, fun r hr => ⟨r, hr, [], rfl, by simp, by simp⟩, fun a h ss hl _ _ => ⟨a, h, ?_⟩⟩
    have : ss = [] := by simpa using hl
    subst this; simp
  | cons c cs ih =>
    obtain ⟨b1, b2, b3⟩ := between_spec ha (hc c (by simp))
    obtain ⟨i1, i2, i3⟩ := ih (between acc c) b1 (fun c' h => hc c' (by simp [h]))
    simp only [List.foldl_cons]
    have hval : ∀ {a b r : Sub}, a.Ok → b.Ok → a.build b = some r → ∀ x t,
        (r.val x = .term t ↔ a.val x = .term t ∨ b.val x = .term t) := by
      intro a b r ao bo h x t
      obtain ⟨p1, p2, p3, -⟩ := C50_pair ao.1 bo.1 ao.2 h bo.2 x
      exact ⟨p3 t, fun h => h.elim (p1 t) (p2 t)⟩
    refine ⟨i1, ?_, ?_⟩
    · intro r hr
      obtain ⟨m, hm, ss, hl, hmem, hv⟩ := i2 r hr
      obtain ⟨a, haa, b, hbb, hab⟩ := b2 m hm
      refine ⟨a, haa, b :: ss, by simp [hl], ?_, ?_⟩
      · rintro ⟨⟩ h1 h2
        · exact hbb
        · exact hmem _ _ _
      · intro x t
        rw [hv x t, hval (ha a haa) (hc c (by simp) b hbb) hab x t]
        simp [or_assoc]
    · intro a haa ss hl hmem hcomp
      cases ss with
      | nil => simp at hl
      | cons b ss =>
        have hbb : b ∈ c := hmem 0 (by simp) (by simp)
        have hbo := hc c (by simp) b hbb
        obtain ⟨m, hm⟩ := (C50_when (ha a haa) hbo).2 fun x t u h1 h2 =>
          hcomp a (by simp) b (by simp) x t u h1 h2
        obtain ⟨m', hm', hvv⟩ := b3 a haa b hbb m hm
        have hmv : ∀ x t, (m'.val x = .term t ↔ a.val x = .term t ∨ b.val x = .term t) := by
          intro x t; rw [hvv]; exact hval (ha a haa) hbo hm x t
        obtain ⟨r, hr, hv⟩ := i3 m' hm' ss (by simpa using hl)
          (fun i h1 h2 => by
            have := hmem (i + 1) (by simpa using h1) (by simpa using h2)
            simpa using this)
          (by
            intro s hs s' hs' x t u h1 h2
            have key : ∀ z ∈ m' :: ss, ∀ v, z.val x = .term v → ∃ z' ∈ a :: b :: ss, z'.val x = .term v := by
              intro z hz v hzv
              rcases List.mem_cons.1 hz with rfl | hz
              · rcases (hmv x v).1 hzv with h | h
                · exact ⟨a, by simp, h⟩
                · exact ⟨b, by simp, h⟩
              · exact ⟨z, by simp [hz], hzv⟩
            obtain ⟨z, hz, hzv⟩ := key s hs t h1
            obtain ⟨z', hz', hzv'⟩ := key s' hs' u h2
            exact hcomp z hz z' hz' x t u hzv hzv')
        refine ⟨r, hr, fun x t => ?_⟩
        rw [hv x t, hmv x t]
        simp [or_assoc]

/-- **C50.** Every substitution a node obtains from the closing substitutions of its children combines one of each child and
binds exactly what these bind, each metavariable to the term it has there; and whenever one can choose a substitution of
each child so that no metavariable has two different terms, the node obtains their combination. -/
theorem C50_children (c : List Sub) (cs : List (List Sub)) (hc : ∀ c' ∈ c :: cs, ∀ s ∈ c', s.Ok) :
    (∀ r ∈ compatibleSubs (c :: cs), ∃ ss : List Sub, ss.length = (c :: cs).length ∧
      (∀ i (h1 : i < ss.length) (h2 : i < (c :: cs).length), ss[i] ∈ (c :: cs)[i]) ∧
      ∀ x t, (r.val x = .term t ↔ ∃ s ∈ ss, s.val x = .term t)) ∧
    (∀ ss : List Sub, ss.length = (c :: cs).length →
      (∀ i (h1 : i < ss.length) (h2 : i < (c :: cs).length), ss[i] ∈ (c :: cs)[i]) →
      (∀ s ∈ ss, ∀ s' ∈ ss, ∀ x t u, s.val x = .term t → s'.val x = .term u → t = u) →
      ∃ r ∈ compatibleSubs (c :: cs), ∀ x t, (r.val x = .term t ↔ ∃ s ∈ ss, s.val x = .term t)) := by
  obtain ⟨-, i2, i3⟩ := fold_spec cs c (hc c (by simp)) (fun c' h => hc c' (by simp [h]))
  constructor
  · intro r hr
    obtain ⟨a, haa, ss, hl, hmem, hv⟩ := i2 r hr
    refine ⟨a :: ss, by simp [hl], ?_, fun x t => by rw [hv x t]; simp⟩
    rintro ⟨⟩ h1 h2
    · exact haa
    · exact hmem _ _ _
  · intro ss hl hmem hcomp
    cases ss with
    | nil => simp at hl
    | cons a ss =>
      obtain ⟨r, hr, hv⟩ := i3 a (hmem 0 (by simp) (by simp)) ss (by simpa using hl)
        (fun i h1 h2 => by
          have := hmem (i + 1) (by simpa using h1) (by simpa using h2)
          simpa using this) hcomp
      exact ⟨r, hr, fun x t => by rw [hv x t]; simp⟩

/-- The closing substitutions found by unification meet the hypothesis, as C24 says that they bind nothing twice. -/
theorem ofSubst_ok {s : Subst} (h : (s.map (·.1)).Nodup) : (Sub.ofSubst s).Ok :=
  ⟨by simp [Sub.ofSubst], by simpa [Sub.ofSubst, Function.comp_def] using h⟩

theorem theJoker_ok : Sub.theJoker.Ok := by simp [Sub.Ok, Sub.theJoker]

open Verif.Unif.Sample in
/-- Three children: the first is closed by `X ↦ a` or `X ↦ b`, the second by itself, the third by `X ↦ b, Y ↦ a`. -/
example : compatibleSubs [[.ofSubst [(0, a)], .ofSubst [(0, b)]], [.theJoker], [.ofSubst [(0, b), (1, a)]]] =
    [⟨false, [(0, some b), (1, some a)]⟩] := by decide +kernel

/-- **C50 (missing metavariables).** `addMissingMetas` changes no binding to a term and adds none. -/
theorem C50_missing (compat : List Sub) (metas : List Nat) (r : Sub) (hr : r ∈ addMissing compat metas) :
    ∃ s ∈ compat, ∀ x t, (r.val x = .term t ↔ s.val x = .term t) := by
  unfold addMissing at hr
  split at hr
  · exact ⟨r, hr, fun _ _ => Iff.rfl⟩
  · generalize allMetas compat metas = ms at hr
    have key : ∀ (l acc : List Sub), r ∈ l.foldl (fun r s => addSub r ⟨false, s.l ++
        (ms.filter fun x => (find x s.l).isNone).map fun x => (x, none)⟩) acc →
        r ∈ acc ∨ ∃ s ∈ l, r = ⟨false, s.l ++ (ms.filter fun x => (find x s.l).isNone).map fun x => (x, none)⟩ := by
      intro l
      induction l with
      | nil => intro acc h; exact Or.inl h
      | cons s l ih =>
        intro acc h
        rcases ih _ h with h | ⟨s', hs', h⟩
        · rcases mem_addSub h with h | h
          · exact Or.inl h
          · exact Or.inr ⟨s, by simp, h⟩
        · exact Or.inr ⟨s', by simp [hs'], h⟩
    rcases key compat [] hr with h | ⟨s, hs, rfl⟩
    · cases h
    · refine ⟨s, hs, fun x t => ?_⟩
      simp only [val_find, find_append]
      cases hf : find x s.l with
      | some e => simp
      | none =>
        simp only [Option.none_or]
        cases hg : find x ((ms.filter fun x => (find x s.l).isNone).map fun x => ((x, none) : Entry)) with
        | none => simp
        | some e =>
          have := find_mem hg
          simp only [List.mem_map] at this
          obtain ⟨y, -, rfl⟩ := this
          simp

/-! ### C63: combinations without common instance -/

/-- An instantiation satisfies the bindings of a substitution. -/
def Sub.Respected (σ : Nat → UT) (s : Sub) : Prop := ∀ x t, s.val x = .term t → σ x = t.inst σ

/-- The claim: when the children of a node are closed by their substitutions, a combination the node obtains is satisfied by
some instantiation, which then satisfies one substitution of each child. -/
def C63_statement : Prop :=
  ∀ (c : List Sub) (cs : List (List Sub)), (∀ c' ∈ c :: cs, ∀ s ∈ c', s.Ok ∧ ∃ σ, s.Respected σ) →
    ∀ r ∈ compatibleSubs (c :: cs), ∃ σ, r.Respected σ

open Verif.Unif.Sample in
/-- **C63 is violated**: `{X ↦ g(Y)}` and `{Y ↦ g(X)}`, each of which has instances, are combined although no
instantiation satisfies both. -/
theorem C63_violated_cycle : compatibleSubs [[.ofSubst [(0, g Y)]], [.ofSubst [(1, g X)]]] =
      [⟨false, [(0, some (g Y)), (1, some (g X))]⟩] ∧
    (∃ σ, (Sub.ofSubst [(0, g Y)]).Respected σ) ∧ (∃ σ, (Sub.ofSubst [(1, g X)]).Respected σ) ∧
    ¬ ∃ σ, (⟨false, [(0, some (g Y)), (1, some (g X))]⟩ : Sub).Respected σ := by
  refine ⟨by decide +kernel, ⟨fun k => if k = 0 then g Y else .mv k, ?_⟩, ⟨fun k => if k = 1 then g X else .mv k, ?_⟩, ?_⟩
  · intro x t h
    by_cases hx : x = 0
    · subst hx
      simp only [Sub.val, Sub.ofSubst, List.map_cons, List.map_nil, find, if_true, Val.term.injEq] at h
      subst h
      simp [g, Y, UT.inst, UT.eval, UT.evalL, termAlg]
    · have : ¬ 0 = x := fun h => hx h.symm
      simp [Sub.val, Sub.ofSubst, find, this] at h
  · intro x t h
    by_cases hx : x = 1
    · subst hx
      simp only [Sub.val, Sub.ofSubst, List.map_cons, List.map_nil, find, if_true, Val.term.injEq] at h
      subst h
      simp [g, X, UT.inst, UT.eval, UT.evalL, termAlg]
    · have : ¬ 1 = x := fun h => hx h.symm
      simp [Sub.val, Sub.ofSubst, find, this] at h
  · rintro ⟨σ, h⟩
    have h0 := h 0 (g Y) rfl
    have h1 := h 1 (g X) rfl
    simp only [g, X, Y, UT.inst, UT.eval, UT.evalL, termAlg] at h0 h1
    have s0 := congrArg sizeOf h0
    have s1 := congrArg sizeOf h1
    simp only [UT.fn.sizeOf_spec, List.cons.sizeOf_spec, List.nil.sizeOf_spec] at s0 s1
    omega

theorem C63_statement_false : ¬ C63_statement := by
  intro h
  obtain ⟨h1, h2, h3, h4⟩ := C63_violated_cycle
  refine h4 (h [.ofSubst [(0, .fn 11 [.mv 1])]] [[.ofSubst [(1, .fn 11 [.mv 0])]]] ?_ _ ?_)
  · intro c' hc' s hs
    simp only [List.mem_cons, List.not_mem_nil, or_false] at hc'
    rcases hc' with rfl | rfl <;> (simp only [List.mem_cons, List.not_mem_nil, or_false] at hs; subst hs)
    · exact ⟨ofSubst_ok (by simp), h2⟩
    · exact ⟨ofSubst_ok (by simp), h3⟩
  · have := h1
    simp only [Verif.Unif.Sample.g, Verif.Unif.Sample.X, Verif.Unif.Sample.Y] at this ⊢
    rw [this]; simp

open Verif.Unif.Sample in
/-- Conversely combinations are missed: `{X ↦ Y}` and `{X ↦ a}` are both satisfied by `X ↦ a, Y ↦ a`, but not combined. -/
theorem C63_missed : compatibleSubs [[.ofSubst [(0, Y)]], [.ofSubst [(0, a)]]] = [] ∧
    ∃ σ, (Sub.ofSubst [(0, Y)]).Respected σ ∧ (Sub.ofSubst [(0, a)]).Respected σ := by
  refine ⟨by decide +kernel, fun _ => a, ?_, ?_⟩
  · intro x t h
    by_cases hx : 0 = x
    · subst hx
      simp only [Sub.val, Sub.ofSubst, List.map_cons, List.map_nil, find, if_true, Val.term.injEq] at h
      subst h; simp [Y, UT.inst, UT.eval]
    · simp [Sub.val, Sub.ofSubst, find, hx] at h
  · intro x t h
    by_cases hx : 0 = x
    · subst hx
      simp only [Sub.val, Sub.ofSubst, List.map_cons, List.map_nil, find, if_true, Val.term.injEq] at h
      subst h; simp [a, UT.inst, UT.eval, UT.evalL, termAlg]
    · simp [Sub.val, Sub.ofSubst, find, hx] at h

/-- **C63 (partial).** If no term of the combination contains a metavariable the combination binds (for instance when all terms are
without metavariables), the combination is satisfied by an instantiation, and this satisfies one substitution of each child.
Missing: combinations whose bindings refer to each other, for which the claim can fail. -/
theorem C63_solved_partial (c : List Sub) (cs : List (List Sub)) (hc : ∀ c' ∈ c :: cs, ∀ s ∈ c', s.Ok) (r : Sub)
    (hr : r ∈ compatibleSubs (c :: cs)) (hsol : ∀ x t, r.val x = .term t → ∀ y ∈ t.occ, ∀ u, r.val y ≠ .term u) :
    ∃ σ, r.Respected σ ∧ ∃ ss : List Sub, ss.length = (c :: cs).length ∧
      (∀ i (h1 : i < ss.length) (h2 : i < (c :: cs).length), ss[i] ∈ (c :: cs)[i]) ∧ ∀ s ∈ ss, s.Respected σ := by
  obtain ⟨ss, hl, hmem, hv⟩ := (C50_children c cs hc).1 r hr
  let σ : Nat → UT := fun x => match r.val x with
    | .term t => t
    | _ => .mv x
  have hres : r.Respected σ := by
    intro x t hx
    have h1 : σ x = t := by simp [σ, hx]
    rw [h1]
    have : t.inst σ = t.inst UT.mv := UT.eval_congr _ fun y hy => by
      have := hsol x t hx y hy
      cases hy' : r.val y with
      | term u => exact absurd hy' (this u)
      | free => simp [σ, hy']
      | any => simp [σ, hy']
    rw [this, UT.inst_mv]
  exact ⟨σ, hres, ss, hl, hmem, fun s hs x t hx => hres x t ((hv x t).2 ⟨s, hs, hx⟩)⟩

end Verif.Search.Incr
