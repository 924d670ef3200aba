import Verif.Unif.Matching
/-!
# C45: the global unifier (`src/Core/global_unifier.go`)

For the proof output the search records which substitutions close the branches: a list of pairs of a *cleaned*
substitution (restricted to metavariables of the father) and the *actual* substitutions that were cleaned to
it. Fathers merge the unifiers of their children.

Substitutions are those of `Verif.Unif` (terms only, no type variables), so that `MergeMixedSubstitutions` is
`MergeSubstitutions`. The functions do nothing unless a proof is asked for (`Glob.GetProof()`); the model is
the case where it is. Values only: `Merge` and `MergeUnifierList` may share arrays between unifiers, see
`Verif.Lib.Slice` for what that means.
-/

namespace Verif.Search

open Verif.Unif

/-- `Unifier` (src/Core/global_unifier.go:61-63). -/
abbrev GUnif := List (Subst × List Subst)

/-- `MergeMixedSubstitutions` (src/Unif/matching_substitutions.go:286-299): `none` is `success = false`. -/
def mixed (n : Nat) (s1 s2 : Subst) : Res (Option Subst) :=
  match merge (addUnif false n) n s1 s2 with
  | .ok r => .ok (some r)
  | .fail => .ok none
  | .panic => .panic
  | .out => .out

/-- `AddSubstitutions` (src/Core/global_unifier.go:83-97). -/
def GUnif.add (u : GUnif) (cleaned actual : Subst) : GUnif :=
  if u.any (fun p => decide (p.1 = cleaned)) then
    u.map fun p => if p.1 = cleaned then (p.1, p.2 ++ [actual]) else p
  else u ++ [(cleaned, [actual])]

/-- `PruneUncompatibleSubstitutions` (src/Core/global_unifier.go:99-111). -/
def GUnif.prune (n : Nat) (s : Subst) : GUnif → Res GUnif
  | [] => .ok []
  | p :: u => (mixed n s p.1).bind fun o => (GUnif.prune n s u).bind fun r => .ok (if o.isSome then p :: r else r)

/-- `GetUnifier` (src/Core/global_unifier.go:137-146). -/
def GUnif.get : GUnif → Subst
  | (_, s :: _) :: _ => s
  | _ => []

/-- `appendNewUnifiersIfNeeded` (src/Core/global_unifier.go:229-238). -/
def gappendNew : GUnif → Subst → List Subst → GUnif
  | [], res, new => [(res, new)]
  | p :: u, res, new => if p.1 = res then (p.1, p.2 ++ new) :: u else p :: gappendNew u res new

/-- The inner loop of `Merge` (src/Core/global_unifier.go:189-194). -/
def mergeOne (n : Nat) (s : Subst) : List Subst → Res (List Subst)
  | [] => .ok []
  | t :: ts => (mixed n s t).bind fun o => (mergeOne n s ts).bind fun r => .ok (o.toList ++ r)

/-- src/Core/global_unifier.go:188-195. -/
def mergeActual (n : Nat) : List Subst → List Subst → Res (List Subst)
  | [], _ => .ok []
  | s :: ss, ts => (mergeOne n s ts).bind fun r => (mergeActual n ss ts).bind fun r' => .ok (r ++ r')

/-- The loop over the pairs of the other unifier (src/Core/global_unifier.go:184-198). -/
def mergeRow (n : Nat) (p : Subst × List Subst) : GUnif → GUnif → Res GUnif
  | [], acc => .ok acc
  | o :: os, acc => (mixed n o.1 p.1).bind fun res =>
    match res with
    | none => mergeRow n p os acc
    | some k => (mergeActual n p.2 o.2).bind fun new => mergeRow n p os (gappendNew acc k new)

/-- The loop over the pairs of the receiver (src/Core/global_unifier.go:183-199). -/
def mergeRows (n : Nat) (other : GUnif) : GUnif → GUnif → Res GUnif
  | [], acc => .ok acc
  | p :: ps, acc => (mergeRow n p other acc).bind fun acc' => mergeRows n other ps acc'

/-- `Merge` (src/Core/global_unifier.go:165-202). -/
def GUnif.merge (n : Nat) (u other : GUnif) : Res GUnif :=
  if u.isEmpty then .ok other
  else if other.isEmpty then .ok u
  else mergeRows n other u []

/-- `MergeUnifierList` (src/Core/global_unifier.go:71-80); the index `0` of an empty list is out of range. -/
def mergeList (n : Nat) : List GUnif → Res GUnif
  | [] => .panic
  | u :: us => us.foldl (fun acc v => acc.bind fun a => a.merge n v) (.ok u)

/-! ### Recording -/

/-- The actual substitutions recorded with a cleaned one. -/
def GUnif.Has (u : GUnif) (cleaned actual : Subst) : Prop := ∃ l, (cleaned, l) ∈ u ∧ actual ∈ l

/-- **Recording** a pair keeps all pairs recorded before and adds exactly this one. -/
theorem C45_recorded (u : GUnif) (c s : Subst) (c' s' : Subst) :
    (u.add c s).Has c' s' ↔ u.Has c' s' ∨ (c' = c ∧ s' = s) := by
  unfold GUnif.add GUnif.Has
  split
  · rename_i h
    simp only [List.any_eq_true, decide_eq_true_eq] at h
    obtain ⟨⟨c0, l0⟩, h0, e0⟩ := h
    simp only at e0
    subst e0
    constructor
    · rintro ⟨l, hl, hs⟩
      simp only [List.mem_map] at hl
      obtain ⟨⟨d, k⟩, hd, e⟩ := hl
      split at e
      · rename_i hdc
        simp only at hdc
        subst hdc
        simp only [Prod.mk.injEq] at e
        obtain ⟨rfl, rfl⟩ := e
        simp only [List.mem_append, List.mem_singleton] at hs
        rcases hs with hs | rfl
        · exact Or.inl ⟨k, hd, hs⟩
        · exact Or.inr ⟨rfl, rfl⟩
      · simp only [Prod.mk.injEq] at e
        obtain ⟨rfl, rfl⟩ := e
        exact Or.inl ⟨k, hd, hs⟩
    · rintro (⟨l, hl, hs⟩ | ⟨rfl, rfl⟩)
      · by_cases hc : c' = c0
        · subst hc
          exact ⟨l ++ [s], List.mem_map.2 ⟨(c', l), hl, by simp⟩, by simp [hs]⟩
        · exact ⟨l, List.mem_map.2 ⟨(c', l), hl, by simp [hc]⟩, hs⟩
      · exact ⟨l0 ++ [s'], List.mem_map.2 ⟨(c', l0), h0, by simp⟩, by simp⟩
  · constructor
    · rintro ⟨l, hl, hs⟩
      simp only [List.mem_append, List.mem_singleton, Prod.mk.injEq] at hl
      rcases hl with hl | ⟨rfl, rfl⟩
      · exact Or.inl ⟨l, hl, hs⟩
      · simp only [List.mem_singleton] at hs
        exact Or.inr ⟨rfl, hs⟩
    · rintro (⟨l, hl, hs⟩ | ⟨rfl, rfl⟩)
      · exact ⟨l, by simp [hl], hs⟩
      · exact ⟨[s'], by simp, by simp⟩

/-! ### Pruning -/

/-- **Pruning** keeps exactly the pairs whose cleaned substitution merges with the given one, in the same order. -/
theorem C45_pruned {n : Nat} {s : Subst} {u r : GUnif} (h : u.prune n s = .ok r) :
    r = u.filter (fun p => decide (mixed n s p.1 ≠ .ok none)) ∧
    ∀ p ∈ u, p ∈ r ↔ ∃ m, Merges s p.1 (.ok m) := by
  have key : ∀ (u r : GUnif), u.prune n s = .ok r →
      r = u.filter (fun p => decide (mixed n s p.1 ≠ .ok none)) ∧ ∀ p ∈ u, ∃ o, mixed n s p.1 = .ok o := by
    intro u
    induction u with
    | nil => intro r h; simp only [GUnif.prune, Res.ok.injEq] at h; subst h; simp
    | cons p u ih =>
      intro r h
      simp only [GUnif.prune, Res.bind_ok] at h
      obtain ⟨o, ho, r', hr', h⟩ := h
      obtain ⟨e, hall⟩ := ih r' hr'
      simp only [Res.ok.injEq] at h
      refine ⟨?_, ?_⟩
      · cases o with
        | none =>
          simp only [Option.isSome_none, Bool.false_eq_true, if_false] at h
          simp [List.filter_cons, ho, ← h, e]
        | some m =>
          simp only [Option.isSome_some, if_true] at h
          simp [List.filter_cons, ho, ← h, e]
      · intro q hq
        rcases List.mem_cons.1 hq with rfl | hq
        · exact ⟨o, ho⟩
        · exact hall q hq
  obtain ⟨e, hall⟩ := key u r h
  refine ⟨e, fun p hp => ?_⟩
  obtain ⟨o, ho⟩ := hall p hp
  rw [e, List.mem_filter]
  simp only [hp, true_and, decide_eq_true_eq, ho, ne_eq, Res.ok.injEq]
  unfold mixed at ho
  cases hm : Unif.merge (addUnif false n) n s p.1 with
  | ok m =>
    simp only [hm, Res.ok.injEq] at ho
    subst ho
    simp only [reduceCtorEq, not_false_eq_true, true_iff]
    exact ⟨m, by simp, n, hm⟩
  | fail =>
    simp only [hm, Res.ok.injEq] at ho
    subst ho
    simp only [not_true, false_iff]
    rintro ⟨m, hM⟩
    have : Merges s p.1 .fail := ⟨by simp, n, hm⟩
    cases this.det hM
  | panic => simp [hm] at ho
  | out => simp [hm] at ho

/-! ### Merging -/

/-- The instantiation satisfies one of the recorded actual substitutions. -/
def GUnif.Sat (σ : Nat → UT) (u : GUnif) : Prop := ∃ p ∈ u, ∃ s ∈ p.2, Respects σ s

/-- C45, merging, in full: every substitution in the merged unifier satisfies a substitution of every branch. -/
def C45_merge_statement : Prop :=
  ∀ (n : Nat) (ls : List GUnif) (r : GUnif), (∀ u ∈ ls, ∃ p ∈ u, p.2 ≠ []) →
    (∀ u ∈ ls, ∀ p ∈ u, ∀ s ∈ p.2, s.Solved) → mergeList n ls = .ok r →
    ∀ p ∈ r, ∀ m ∈ p.2, ∀ u ∈ ls, GUnif.Sat m.fn u

open Sample

/-- **Merging is violated**: of the branches closed by `X ↦ a`, `X ↦ b` and `X ↦ g(a)` the first two are
incompatible; their merge is the empty unifier, and merging it with the third one yields the latter
(src/Core/global_unifier.go:176-181), so that the substitution reported satisfies neither of the first two. -/
theorem C45_merge_violated :
    mergeList 12 [[([(0, a)], [[(0, a)]])], [([(0, b)], [[(0, b)]])], [([(0, g a)], [[(0, g a)]])]] =
      .ok [([(0, g a)], [[(0, g a)]])] ∧
    ¬ GUnif.Sat (Subst.fn [(0, g a)]) [([(0, a)], [[(0, a)]])] := by
  refine ⟨by decide +kernel, ?_⟩
  rintro ⟨p, hp, s, hs, h⟩
  simp only [List.mem_singleton] at hp
  subst hp
  simp only [List.mem_singleton] at hs
  subst hs
  have := h (0, a) (by simp)
  revert this
  decide +kernel

theorem C45_merge_statement_false : ¬ C45_merge_statement := by
  intro h
  refine C45_merge_violated.2 (h 12 _ _ ?_ ?_ C45_merge_violated.1 _ (List.mem_singleton.2 rfl) _
    (List.mem_singleton.2 rfl) _ (by simp))
  · intro u hu
    simp only [List.mem_cons, List.not_mem_nil, or_false] at hu
    rcases hu with rfl | rfl | rfl <;> exact ⟨_, List.mem_singleton.2 rfl, by simp⟩
  · have sol : ∀ t : UT, t.occ = [] → Subst.Solved [(0, t)] := fun t ht =>
      ⟨by simp [Subst.keys], by intro p hp k _; simp only [List.mem_singleton] at hp; subst hp; simp [ht]⟩
    intro u hu p hp s hs
    simp only [List.mem_cons, List.not_mem_nil, or_false] at hu
    rcases hu with rfl | rfl | rfl
    · simp only [List.mem_singleton] at hp; subst hp; simp only [List.mem_singleton] at hs; subst hs; exact sol _ rfl
    · simp only [List.mem_singleton] at hp; subst hp; simp only [List.mem_singleton] at hs; subst hs; exact sol _ rfl
    · simp only [List.mem_singleton] at hp; subst hp; simp only [List.mem_singleton] at hs; subst hs; exact sol _ rfl

/-- Two branches are enough for the second cause, the unsound merge of two substitutions (`C28_violated`). -/
theorem C45_merge_violated_two :
    mergeList 14 [[([], [[(3, f [X, g a, b])]])], [([], [[(3, f [g Y, X, Y])]])]] =
      .ok [([], [[(3, f [g a, g a, a]), (0, g a), (1, a)]])] ∧
    ¬ GUnif.Sat (Subst.fn [(3, f [g a, g a, a]), (0, g a), (1, a)]) [([], [[(3, f [X, g a, b])]])] := by
  refine ⟨by decide +kernel, ?_⟩
  rintro ⟨p, hp, s, hs, h⟩
  simp only [List.mem_singleton] at hp
  subst hp
  simp only [List.mem_singleton] at hs
  subst hs
  exact C28_violated.2 h

/-! What holds. `P` is a class of substitutions, closed under merging, on which merging is sound. -/

/-- Merging within the class stays in it and is sound. -/
def SoundOn (P : Subst → Prop) (n : Nat) : Prop :=
  ∀ s1 s2 r, P s1 → P s2 → mixed n s1 s2 = .ok (some r) → P r ∧ ∀ σ, Respects σ r → Respects σ s1 ∧ Respects σ s2

def GUnif.In (P : Subst → Prop) (u : GUnif) : Prop := ∀ p ∈ u, ∀ s ∈ p.2, P s

variable {P : Subst → Prop} {n : Nat}

theorem mergeOne_spec (hP : SoundOn P n) {s : Subst} {ts r : List Subst} (hs : P s) (ht : ∀ t ∈ ts, P t)
    (h : mergeOne n s ts = .ok r) :
    ∀ m ∈ r, P m ∧ ∃ t ∈ ts, ∀ σ, Respects σ m → Respects σ s ∧ Respects σ t := by
  induction ts generalizing r with
  | nil => simp only [mergeOne, Res.ok.injEq] at h; subst h; intro m hm; cases hm
  | cons t ts ih =>
    simp only [mergeOne, Res.bind_ok] at h
    obtain ⟨o, ho, r', hr', h⟩ := h
    simp only [Res.ok.injEq] at h
    subst h
    intro m hm
    rcases List.mem_append.1 hm with hm | hm
    · simp only [Option.mem_toList] at hm
      cases hm
      obtain ⟨h1, h2⟩ := hP s t m hs (ht t (by simp)) ho
      exact ⟨h1, t, by simp, h2⟩
    · obtain ⟨h1, t', h2, h3⟩ := ih (fun t h => ht t (by simp [h])) hr' m hm
      exact ⟨h1, t', by simp [h2], h3⟩

theorem mergeActual_spec (hP : SoundOn P n) {ss ts r : List Subst} (hs : ∀ s ∈ ss, P s) (ht : ∀ t ∈ ts, P t)
    (h : mergeActual n ss ts = .ok r) :
    ∀ m ∈ r, P m ∧ ∃ s ∈ ss, ∃ t ∈ ts, ∀ σ, Respects σ m → Respects σ s ∧ Respects σ t := by
  induction ss generalizing r with
  | nil => simp only [mergeActual, Res.ok.injEq] at h; subst h; intro m hm; cases hm
  | cons s ss ih =>
    simp only [mergeActual, Res.bind_ok] at h
    obtain ⟨r1, h1, r2, h2, h⟩ := h
    simp only [Res.ok.injEq] at h
    subst h
    intro m hm
    rcases List.mem_append.1 hm with hm | hm
    · obtain ⟨a, t, b, c⟩ := mergeOne_spec hP (hs s (by simp)) ht h1 m hm
      exact ⟨a, s, by simp, t, b, c⟩
    · obtain ⟨a, s', b, t, c, d⟩ := ih (fun s h => hs s (by simp [h])) h2 m hm
      exact ⟨a, s', by simp [b], t, c, d⟩

/-- A stored substitution comes from one of each side. -/
def Both (P : Subst → Prop) (u v r : GUnif) : Prop :=
  ∀ p ∈ r, ∀ m ∈ p.2, P m ∧ (∃ q ∈ u, ∃ s ∈ q.2, ∀ σ, Respects σ m → Respects σ s) ∧
    ∃ q ∈ v, ∃ s ∈ q.2, ∀ σ, Respects σ m → Respects σ s

theorem gappendNew_mem {acc : GUnif} {k : Subst} {new : List Subst} {p : Subst × List Subst}
    (hp : p ∈ gappendNew acc k new) {m : Subst} (hm : m ∈ p.2) : (∃ q ∈ acc, m ∈ q.2) ∨ m ∈ new := by
  induction acc with
  | nil => simp only [gappendNew, List.mem_singleton] at hp; subst hp; exact Or.inr hm
  | cons q acc ih =>
    simp only [gappendNew] at hp
    split at hp
    · rcases List.mem_cons.1 hp with rfl | hp
      · rcases List.mem_append.1 hm with hm | hm
        · exact Or.inl ⟨q, by simp, hm⟩
        · exact Or.inr hm
      · exact Or.inl ⟨p, by simp [hp], hm⟩
    · rcases List.mem_cons.1 hp with rfl | hp
      · exact Or.inl ⟨p, by simp, hm⟩
      · rcases ih hp with ⟨q', h1, h2⟩ | h
        · exact Or.inl ⟨q', by simp [h1], h2⟩
        · exact Or.inr h

theorem mergeRow_spec (hP : SoundOn P n) {u v : GUnif} {p : Subst × List Subst} (hpu : p ∈ u) (hu : u.In P)
    (hv : v.In P) (os acc r : GUnif) (hos : ∀ o ∈ os, o ∈ v) (hacc : Both P u v acc)
    (h : mergeRow n p os acc = .ok r) : Both P u v r := by
  induction os generalizing acc with
  | nil => simp only [mergeRow, Res.ok.injEq] at h; subst h; exact hacc
  | cons o os ih =>
    simp only [mergeRow, Res.bind_ok] at h
    obtain ⟨k, hk, h⟩ := h
    cases k with
    | none => exact ih acc (fun o h => hos o (by simp [h])) hacc h
    | some k =>
      simp only [Res.bind_ok] at h
      obtain ⟨new, hnew, h⟩ := h
      refine ih _ (fun o h => hos o (by simp [h])) ?_ h
      intro q hq m hm
      rcases gappendNew_mem hq hm with ⟨q', h1, h2⟩ | hm
      · exact hacc q' h1 m h2
      · obtain ⟨a, s, b, t, c, d⟩ := mergeActual_spec hP (hu p hpu) (hv o (hos o (by simp))) hnew m hm
        exact ⟨a, ⟨p, hpu, s, b, fun σ h => (d σ h).1⟩, ⟨o, hos o (by simp), t, c, fun σ h => (d σ h).2⟩⟩

theorem mergeRows_spec (hP : SoundOn P n) {u v : GUnif} (hu : u.In P) (hv : v.In P) (ps acc r : GUnif)
    (hps : ∀ p ∈ ps, p ∈ u) (hacc : Both P u v acc) (h : mergeRows n v ps acc = .ok r) : Both P u v r := by
  induction ps generalizing acc with
  | nil => simp only [mergeRows, Res.ok.injEq] at h; subst h; exact hacc
  | cons p ps ih =>
    simp only [mergeRows, Res.bind_ok] at h
    obtain ⟨acc', h1, h⟩ := h
    exact ih acc' (fun p h => hps p (by simp [h]))
      (mergeRow_spec hP (hps p (by simp)) hu hv v acc acc' (fun _ h => h) hacc h1) h

/-- Two unifiers that are not empty. -/
theorem merge_both (hP : SoundOn P n) {u v r : GUnif} (hu : u.In P) (hv : v.In P) (hu0 : u ≠ []) (hv0 : v ≠ [])
    (h : u.merge n v = .ok r) : Both P u v r := by
  unfold GUnif.merge at h
  rw [if_neg (by simpa using hu0), if_neg (by simpa using hv0)] at h
  exact mergeRows_spec hP hu hv u [] r (fun _ h => h) (by intro p hp; cases hp) h

/-- The successive results of `MergeUnifierList`. -/
inductive Chain (n : Nat) : GUnif → List GUnif → GUnif → Prop
  | nil (u : GUnif) : Chain n u [] u
  | cons {u v w r : GUnif} {vs : List GUnif} (h : u.merge n v = .ok w) (h0 : w ≠ []) (t : Chain n w vs r) :
      Chain n u (v :: vs) r

/-- **Merging, what holds**: if no merge along the way gives the empty unifier, and substitutions are taken from a
class on which merging two of them is sound, then every instantiation that satisfies a substitution of the result
satisfies a substitution of every branch. -/
theorem C45_merge_partial (hP : SoundOn P n) {u : GUnif} {vs : List GUnif} {r : GUnif} (hu : u.In P)
    (hvs : ∀ v ∈ vs, v.In P ∧ v ≠ []) (hu0 : u ≠ []) (h : Chain n u vs r) :
    mergeList n (u :: vs) = .ok r ∧
    ∀ p ∈ r, ∀ m ∈ p.2, ∀ σ, Respects σ m → ∀ v ∈ u :: vs, GUnif.Sat σ v := by
  induction h with
  | nil u =>
    refine ⟨rfl, fun p hp m hm σ hσ v hv => ?_⟩
    simp only [List.mem_singleton] at hv
    subst hv
    exact ⟨p, hp, m, hm, hσ⟩
  | @cons u v w r vs h h0 t ih =>
    have hb := merge_both hP hu (hvs v (by simp)).1 hu0 (hvs v (by simp)).2 h
    obtain ⟨e, hr⟩ := ih (fun p hp s hs => (hb p hp s hs).1) (fun v hv => hvs v (by simp [hv])) h0
    refine ⟨?_, fun p hp m hm σ hσ v' hv' => ?_⟩
    · simp only [mergeList, List.foldl_cons, Res.bind, h] at e ⊢
      exact e
    · have hw := hr p hp m hm σ hσ w (by simp)
      obtain ⟨q, hq, s, hs, hσs⟩ := hw
      obtain ⟨_, ⟨q1, h1, s1, h2, h3⟩, q2, h4, s2, h5, h6⟩ := hb q hq s hs
      rcases List.mem_cons.1 hv' with rfl | hv'
      · exact ⟨q1, h1, s1, h2, h3 σ hσs⟩
      · rcases List.mem_cons.1 hv' with rfl | hv'
        · exact ⟨q2, h4, s2, h5, h6 σ hσs⟩
        · exact hr p hp m hm σ hσ v' (by simp [hv'])

/-- Such a class: substitutions by terms without metavariables. -/
theorem C45_ground_sound (ar : Nat → Nat) (n : Nat) : SoundOn (fun s => s.Gd ar) n := by
  intro s1 s2 r h1 h2 h
  have hM : Merges s1 s2 (.ok r) := by
    refine ⟨by simp, n, ?_⟩
    unfold mixed at h
    split at h <;> simp_all
  obtain ⟨a, b, c, d⟩ := C28_ground_sound h1.arity h2.arity h1.1 h2.1 (fun p hp => (h1.2 p hp).2)
    (fun p hp => (h2.2 p hp).2) hM
  exact ⟨⟨b, fun p hp => ⟨c p hp, d p hp⟩⟩, a⟩

/-- Three compatible branches. -/
example : mergeList 12 [[([(0, a)], [[(0, a)]])], [([(1, b)], [[(1, b)]])], [([], [[(2, g a)]])]] =
    .ok [([(1, b), (0, a)], [[(0, a), (1, b), (2, g a)]])] := by decide +kernel

example : Chain 12 [([(0, a)], [[(0, a)]])] [[([(1, b)], [[(1, b)]])], [([], [[(2, g a)]])]]
    [([(1, b), (0, a)], [[(0, a), (1, b), (2, g a)]])] := by
  refine .cons (w := [([(1, b), (0, a)], [[(0, a), (1, b)]])]) ?_ (by simp) (.cons ?_ (by simp) (.nil _)) <;> decide +kernel

/-! ### C58: bindings of the metavariables of the branch -/

/-- The position found by the inner loop (src/Core/global_unifier.go:207-215): the last one with this key. -/
def lastIndex (k : Nat) (s : Subst) : Option Nat :=
  (s.zipIdx.filter (fun p => decide (p.1.1 = k))).getLast?.map (·.2)

/-- The first loop of `PruneMetasInSubsts` for one pair (src/Core/global_unifier.go:206-220). `RemoveAt` builds a
new list (src/Lib/list.go:242-250), which is not stored anywhere (line 218): the pair stays as it is. -/
def pruneKey (metas : List Nat) (p : Subst × List Subst) : Subst × List Subst :=
  metas.foldl (fun p k => match lastIndex k p.1 with
    | some i => let _removed := p.1.eraseIdx i; p
    | none => p) p

/-- `PruneMetasInSubsts` (src/Core/global_unifier.go:204-227). -/
def GUnif.pruneMetas (metas : List Nat) (u : GUnif) : GUnif :=
  (u.map (pruneKey metas)).foldl (fun acc p => gappendNew acc p.1 p.2) []

/-- C58 in full: the metavariables are not bound by a cleaned substitution any more. -/
def C58_statement : Prop :=
  ∀ (metas : List Nat) (u : GUnif), ∀ p ∈ u.pruneMetas metas, ∀ k ∈ metas, k ∉ p.1.map (·.1)

/-- **C58 is violated**: the binding of the metavariable of the branch is still there. -/
theorem C58_violated : GUnif.pruneMetas [1] [([(0, a), (1, b)], [[(0, a), (1, b)]])] =
    [([(0, a), (1, b)], [[(0, a), (1, b)]])] := by decide +kernel

theorem C58_statement_false : ¬ C58_statement := by
  intro h
  have := h [1] [([(0, a), (1, b)], [[(0, a), (1, b)]])] ([(0, a), (1, b)], [[(0, a), (1, b)]])
    (by rw [C58_violated]; simp) 1 (by simp)
  simp at this

theorem pruneKey_eq (metas : List Nat) (p : Subst × List Subst) : pruneKey metas p = p := by
  unfold pruneKey
  induction metas with
  | nil => rfl
  | cons k metas ih =>
    simp only [List.foldl_cons]
    split <;> exact ih

theorem gappendNew_has (acc : GUnif) (k : Subst) (new : List Subst) (c s : Subst) :
    (gappendNew acc k new).Has c s ↔ acc.Has c s ∨ (c = k ∧ s ∈ new) := by
  induction acc with
  | nil =>
    simp only [gappendNew, GUnif.Has, List.mem_singleton, Prod.mk.injEq, List.not_mem_nil, false_and, exists_false, false_or]
    exact ⟨fun ⟨l, ⟨h1, h2⟩, h3⟩ => ⟨h1, h2 ▸ h3⟩, fun ⟨h1, h2⟩ => ⟨new, ⟨h1, rfl⟩, h2⟩⟩
  | cons q acc ih =>
    simp only [gappendNew]
    obtain ⟨d, l⟩ := q
    split
    · rename_i h
      simp only at h
      subst h
      simp only [GUnif.Has, List.mem_cons, Prod.mk.injEq]
      constructor
      · rintro ⟨l', ⟨rfl, rfl⟩ | h, hs⟩
        · rcases List.mem_append.1 hs with hs | hs
          · exact Or.inl ⟨l, Or.inl ⟨rfl, rfl⟩, hs⟩
          · exact Or.inr ⟨rfl, hs⟩
        · exact Or.inl ⟨l', Or.inr h, hs⟩
      · rintro (⟨l', ⟨rfl, rfl⟩ | h, hs⟩ | ⟨rfl, hs⟩)
        · exact ⟨_, Or.inl ⟨rfl, rfl⟩, by simp [hs]⟩
        · exact ⟨l', Or.inr h, hs⟩
        · exact ⟨_, Or.inl ⟨rfl, rfl⟩, by simp [hs]⟩
    · have cons : ∀ (r : GUnif), GUnif.Has ((d, l) :: r) c s ↔ (c = d ∧ s ∈ l) ∨ r.Has c s := by
        intro r
        simp only [GUnif.Has, List.mem_cons, Prod.mk.injEq]
        constructor
        · rintro ⟨l', ⟨rfl, rfl⟩ | h, hs⟩
          · exact Or.inl ⟨rfl, hs⟩
          · exact Or.inr ⟨l', h, hs⟩
        · rintro (⟨rfl, hs⟩ | ⟨l', h, hs⟩)
          · exact ⟨_, Or.inl ⟨rfl, rfl⟩, hs⟩
          · exact ⟨l', Or.inr h, hs⟩
      rw [cons, cons, ih, or_assoc]

/-- **C58, what holds**: the call regroups the records; none is lost and none is added. -/
theorem C58_regroup_partial (metas : List Nat) (u : GUnif) (c s : Subst) :
    (u.pruneMetas metas).Has c s ↔ u.Has c s := by
  have hm : u.map (pruneKey metas) = u := (List.map_congr_left fun p _ => pruneKey_eq metas p).trans (List.map_id _)
  have key : ∀ (u acc : GUnif), (u.foldl (fun acc p => gappendNew acc p.1 p.2) acc).Has c s ↔ acc.Has c s ∨ u.Has c s := by
    intro u
    induction u with
    | nil => intro acc; simp [GUnif.Has]
    | cons p u ih =>
      intro acc
      obtain ⟨d, l⟩ := p
      rw [List.foldl_cons, ih, gappendNew_has, or_assoc]
      refine or_congr Iff.rfl ?_
      simp only [GUnif.Has, List.mem_cons, Prod.mk.injEq]
      constructor
      · rintro (⟨rfl, hs⟩ | ⟨l', h, hs⟩)
        · exact ⟨_, Or.inl ⟨rfl, rfl⟩, hs⟩
        · exact ⟨l', Or.inr h, hs⟩
      · rintro ⟨l', ⟨rfl, rfl⟩ | h, hs⟩
        · exact Or.inl ⟨rfl, hs⟩
        · exact Or.inr ⟨l', h, hs⟩
  unfold GUnif.pruneMetas
  rw [hm, key]
  simp [GUnif.Has]

/-- The reported substitution (`GetUnifier`) is a recorded one, if any is recorded with the first pair. -/
theorem C45_reported (u : GUnif) : (∃ c, u.Has c u.get) ∨ u.get = [] := by
  cases u with
  | nil => exact Or.inr rfl
  | cons p u =>
    obtain ⟨c, l⟩ := p
    cases l with
    | nil => exact Or.inr rfl
    | cons s l => exact Or.inl ⟨c, s :: l, by simp, by simp [GUnif.get]⟩

example : GUnif.pruneMetas [] [([(0, a)], [[(0, a)]]), ([], [[]]), ([(0, a)], [[(1, b)]])] =
    [([(0, a)], [[(0, a)], [(1, b)]]), ([], [[]])] := by decide +kernel

end Verif.Search
