import Mathlib.Data.Finset.Card
import Verif.Unif.Fuel
/-!
# `Eliminate` ends

The loops of `Eliminate` (src/Unif/substitutions_type.go:268-335) have no bound in the code. They end: with the solved form when the bindings have
no cycle, with failure when they have one.
-/

namespace Verif.Unif

theorem UT.mem_occ_sub_ne {k : Nat} {v : UT} {i : Nat} (t : UT) (hi : i ∈ t.occ) (hk : i ≠ k) : i ∈ (t.sub k v).occ := by
  induction t using UT.ind with
  | mv j =>
    simp only [UT.occ, List.mem_singleton] at hi
    subst hi
    simp [UT.sub, hk, UT.occ]
  | fn p args ih =>
    simp only [UT.occ, UT.mem_occL, UT.sub, UT.subL_eq] at hi ⊢
    obtain ⟨a, ha, hia⟩ := hi
    exact ⟨_, List.mem_map.2 ⟨a, ha, rfl⟩, ih a ha hia⟩

/-! ### One key -/

theorem elimPass_cases (key : Nat) (value : UT) (s : Subst) (acc : Subst × Bool) :
    elimPass key value s acc = .fail ∨ ∃ r, elimPass key value s acc = .ok r := by
  induction s generalizing acc with
  | nil => exact Or.inr ⟨acc, rfl⟩
  | cons p s ih =>
    obtain ⟨k2, v2⟩ := p
    obtain ⟨tmp, ch⟩ := acc
    cases v2 with
    | mv i =>
      simp only [elimPass]
      split
      · exact ih _
      · exact ih _
    | fn p args =>
      simp only [elimPass]
      split
      · exact ih _
      · exact Or.inl rfl

theorem elimPass_some {key : Nat} {value : UT} (s : Subst) (acc : Subst × Bool)
    (h : ∀ p ∈ s, p.1 ∉ (p.2.sub key value).occ) : ∃ r, elimPass key value s acc = .ok r := by
  induction s generalizing acc with
  | nil => exact ⟨acc, rfl⟩
  | cons p s ih =>
    obtain ⟨k2, v2⟩ := p
    obtain ⟨tmp, ch⟩ := acc
    have ih := fun acc => ih acc fun p hp => h p (by simp [hp])
    cases v2 with
    | mv i =>
      simp only [elimPass]
      split
      · exact ih _
      · exact ih _
    | fn p args =>
      simp only [elimPass]
      rw [if_pos (occurValid_iff.2 (h (k2, .fn p args) (by simp)))]
      exact ih _

theorem subAll_clean {key : Nat} {value : UT} (hv : key ∉ value.occ) (s : Subst) : ∀ p ∈ s.subAll key value, key ∉ p.2.occ := by
  intro p hp
  simp only [Subst.subAll, List.mem_map] at hp
  obtain ⟨q, hq, rfl⟩ := hp
  intro hk
  rcases UT.occ_sub _ hk with ⟨_, h2⟩ | ⟨_, h2⟩
  · exact h2 rfl
  · exact hv h2

theorem any_iff {key : Nat} {s : Subst} : s.any (fun p => p.2.occ.contains key) = true ↔ ∃ p ∈ s, key ∈ p.2.occ := by
  simp [List.any_eq_true]

theorem any_clean {key : Nat} {value : UT} (hv : key ∉ value.occ) (s : Subst) :
    ¬ (s.subAll key value).any (fun p => p.2.occ.contains key) = true := fun h => by
  obtain ⟨p, hp, hk⟩ := any_iff.1 h
  exact subAll_clean hv s p hp hk

/-- Two passes are enough. -/
theorem elimInside_cases {key : Nat} {value : UT} (hv : key ∉ value.occ) (n : Nat) (s : Subst) (top : Bool) (hnd : s.keys.Nodup) :
    elimInside key value (n + 2) s top = .fail ∨ ∃ r, elimInside key value (n + 2) s top = .ok r := by
  simp only [elimInside]
  rcases elimPass_cases key value s ([], false) with h | ⟨a, h⟩
  · exact Or.inl (by rw [h]; rfl)
  · rw [h, Res.ok_bind]
    have := elimPass_spec s [] false a (by simpa using hnd) h
    subst this
    simp only [List.nil_append, Bool.false_or]
    split
    · rcases elimPass_cases key value (s.subAll key value) ([], false) with h | ⟨a, h⟩
      · exact Or.inl (by rw [h]; rfl)
      · rw [h, Res.ok_bind]
        have := elimPass_spec _ [] false a (by simpa [Subst.keys_subAll] using hnd) h
        subst this
        simp only [List.nil_append, Bool.false_or]
        rw [if_neg (any_clean hv s)]
        exact Or.inr ⟨_, rfl⟩
    · exact Or.inr ⟨_, rfl⟩

theorem elimInside_some {key : Nat} {value : UT} (hv : key ∉ value.occ) (n : Nat) (s : Subst) (top : Bool) (hnd : s.keys.Nodup)
    (h : ∀ p ∈ s, p.1 ∉ (p.2.sub key value).occ) :
    elimInside key value (n + 2) s top = .ok (s.subAll key value, top || s.any (fun p => p.2.occ.contains key)) := by
  have key : ∃ r, elimInside key value (n + 2) s top = .ok r := by
    simp only [elimInside]
    obtain ⟨a, ha⟩ := elimPass_some s ([], false) h
    rw [ha, Res.ok_bind]
    have := elimPass_spec s [] false a (by simpa using hnd) ha
    subst this
    simp only [List.nil_append, Bool.false_or]
    split
    · obtain ⟨a, ha⟩ := elimPass_some (key := key) (value := value) (s.subAll key value) ([], false) (by
        intro p hp
        rw [UT.sub_of_not_mem _ (subAll_clean hv s p hp)]
        simp only [Subst.subAll, List.mem_map] at hp
        obtain ⟨q, hq, rfl⟩ := hp
        exact h q hq)
      rw [ha, Res.ok_bind]
      have := elimPass_spec _ [] false a (by simpa [Subst.keys_subAll] using hnd) ha
      subst this
      simp only [List.nil_append, Bool.false_or]
      rw [if_neg (any_clean hv s)]
      exact ⟨_, rfl⟩
    · exact ⟨_, rfl⟩
  obtain ⟨r, hr⟩ := key
  rw [hr, elimInside_spec hv _ s top r hnd hr]

/-! ### Without cycles -/

/-- A height for the keys, decreasing from a key to the keys in its term. -/
def Ranked (K : List Nat) (ρ : Nat → Nat) (s : Subst) : Prop := ∀ p ∈ s, ∀ z ∈ p.2.occ, z ∈ K → ρ z < ρ p.1

theorem Ranked.sub {K : List Nat} {ρ : Nat → Nat} {s : Subst} (h : Ranked K ρ s) {k : Nat} {v : UT} (hk : k ∈ K)
    (hv : ∀ z ∈ v.occ, z ∈ K → ρ z < ρ k) : Ranked K ρ (s.subAll k v) := by
  intro p hp z hz hzK
  simp only [Subst.subAll, List.mem_map] at hp
  obtain ⟨q, hq, rfl⟩ := hp
  rcases UT.occ_sub _ hz with ⟨h1, _⟩ | ⟨h1, h2⟩
  · exact h q hq z h1 hzK
  · exact Nat.lt_trans (hv z h2 hzK) (h q hq k h1 hk)

theorem elimRound_ranked {K : List Nat} {ρ : Nat → Nat} (n r : Nat) (ts s : Subst) (ch : Bool) (hK : s.keys = K) (hts : ∀ t ∈ ts, t.1 ∈ K)
    (hnd : s.keys.Nodup) (h1 : Ranked K ρ ts) (h2 : Ranked K ρ s)
    (h3 : ∀ p ∈ s, ∀ z ∈ p.2.occ, z ∈ K → ρ z < r ∨ ρ z = r ∧ z ∈ ts.keys) :
    ∃ s' ch', elimRound (n + 2) ts (s, ch) = .ok (s', ch') ∧ s'.keys = K ∧ Ranked K ρ s' ∧ ∀ p ∈ s', ∀ z ∈ p.2.occ, z ∈ K → ρ z < r := by
  induction ts generalizing s ch with
  | nil =>
    refine ⟨s, ch, rfl, hK, h2, fun p hp z hz hzK => ?_⟩
    rcases h3 p hp z hz hzK with h | ⟨_, h⟩
    · exact h
    · simp [Subst.keys] at h
  | cons t ts ih =>
    obtain ⟨k, v⟩ := t
    have hk : k ∈ K := hts (k, v) (by simp)
    have hv : ∀ z ∈ v.occ, z ∈ K → ρ z < ρ k := h1 (k, v) (by simp)
    have ho : k ∉ v.occ := fun h => Nat.lt_irrefl _ (hv k h hk)
    have hs := h2.sub hk hv
    have hin := elimInside_some ho n s ch hnd (fun p hp hz => by
      have hp' : (p.1, p.2.sub k v) ∈ s.subAll k v := List.mem_map.2 ⟨p, hp, rfl⟩
      exact Nat.lt_irrefl _ (hs _ hp' _ hz (hK ▸ List.mem_map.2 ⟨p, hp, rfl⟩)))
    simp only [elimRound, if_pos (occurValid_iff.2 ho), hin, Res.ok_bind]
    refine ih _ _ (by rw [Subst.keys_subAll, hK]) (fun t ht => hts t (by simp [ht])) (by rw [Subst.keys_subAll]; exact hnd)
      (fun p hp => h1 p (by simp [hp])) hs fun p hp z hz hzK => ?_
    simp only [Subst.subAll, List.mem_map] at hp
    obtain ⟨q, hq, rfl⟩ := hp
    rcases UT.occ_sub _ hz with ⟨e1, e2⟩ | ⟨e1, e2⟩
    · rcases h3 q hq z e1 hzK with h | ⟨h, h'⟩
      · exact Or.inl h
      · refine Or.inr ⟨h, ?_⟩
        simp only [Subst.keys, List.map_cons, List.mem_cons] at h'
        exact h'.resolve_left e2
    · have := hv z e2 hzK
      rcases h3 q hq k e1 hk with h | ⟨h, _⟩ <;> exact Or.inl (by omega)

theorem elimRound_idle (n : Nat) (ts s : Subst) (ch : Bool) (hnd : s.keys.Nodup) (hs : ∀ p ∈ s, p.1 ∉ p.2.occ) (hts : ∀ t ∈ ts, t.1 ∉ t.2.occ)
    (h : ∀ t ∈ ts, ∀ p ∈ s, t.1 ∉ p.2.occ) : elimRound (n + 2) ts (s, ch) = .ok (s, ch) := by
  induction ts generalizing s ch with
  | nil => rfl
  | cons t ts ih =>
    obtain ⟨k, v⟩ := t
    have ho : k ∉ v.occ := hts (k, v) (by simp)
    have hk : ∀ p ∈ s, k ∉ p.2.occ := h (k, v) (by simp)
    have hid : s.subAll k v = s := by
      have := List.map_congr_left (l := s) (f := fun p => (p.1, p.2.sub k v)) (g := id) fun p hp => by
        simp only [id]
        rw [UT.sub_of_not_mem _ (hk p hp)]
      simpa [Subst.subAll] using this
    have hany : s.any (fun p => p.2.occ.contains k) = false := by
      rw [Bool.eq_false_iff]
      intro e
      obtain ⟨p, hp, hk'⟩ := any_iff.1 e
      exact hk p hp hk'
    have hin := elimInside_some ho n s ch hnd (fun p hp => by rw [UT.sub_of_not_mem _ (hk p hp)]; exact hs p hp)
    rw [hid, hany, Bool.or_false] at hin
    simp only [elimRound, if_pos (occurValid_iff.2 ho), hin, Res.ok_bind]
    exact ih s ch hnd hs (fun t ht => hts t (by simp [ht])) fun t ht => h t (by simp [ht])

theorem eliminate_ranked {K : List Nat} {ρ : Nat → Nat} (r : Nat) (s : Subst) (hK : s.keys = K) (hnd : s.keys.Nodup) (h2 : Ranked K ρ s)
    (h3 : ∀ p ∈ s, ∀ z ∈ p.2.occ, z ∈ K → ρ z < r) : ∃ s', eliminate (r + 1) s = .ok s' := by
  have own : ∀ p ∈ s, p.1 ∈ K := fun p hp => hK ▸ List.mem_map.2 ⟨p, hp, rfl⟩
  induction r generalizing s with
  | zero =>
    have hno : ∀ p ∈ s, ∀ z ∈ K, z ∉ p.2.occ := fun p hp z hzK hz => absurd (h3 p hp z hz hzK) (by omega)
    refine ⟨s, ?_⟩
    simp only [eliminate]
    rw [elimRound_idle 0 s s false hnd (fun p hp => hno p hp _ (own p hp)) (fun p hp => hno p hp _ (own p hp))
      fun t ht p hp => hno p hp _ (own t ht)]
    rfl
  | succ r ih =>
    obtain ⟨s', ch', e, hK', h2', h3'⟩ := elimRound_ranked (r + 1) r s s false hK own hnd h2 h2 (fun p hp z hz hzK => by
      rcases Nat.lt_or_eq_of_le (Nat.le_of_lt_succ (h3 p hp z hz hzK)) with h | h
      · exact Or.inl h
      · exact Or.inr ⟨h, hK ▸ hzK⟩)
    simp only [eliminate, e, Res.ok_bind]
    cases ch' with
    | false => exact ⟨s', rfl⟩
    | true => exact ih s' hK' (by rw [hK', ← hK]; exact hnd) h2' h3' fun p hp => hK' ▸ List.mem_map.2 ⟨p, hp, rfl⟩

open Classical in
/-- The height of a key in bindings without cycle. -/
noncomputable def height (s : Subst) (wf : WellFounded s.Dep) : Nat → Nat :=
  wf.fix fun k rec => match s.get k with
    | none => 0
    | some v => (v.occ.map fun z => if h : s.Dep z k then rec z h + 1 else 0).foldr max 0

theorem le_foldr_max {l : List Nat} {x : Nat} (h : x ∈ l) : x ≤ l.foldr max 0 := by
  induction l with
  | nil => cases h
  | cons y l ih =>
    simp only [List.foldr_cons]
    rcases List.mem_cons.1 h with rfl | h
    · exact Nat.le_max_left _ _
    · exact Nat.le_trans (ih h) (Nat.le_max_right _ _)

theorem height_lt {s : Subst} (hnd : s.keys.Nodup) (wf : WellFounded s.Dep) {p : Nat × UT} (hp : p ∈ s) {z : Nat} (hz : z ∈ p.2.occ) :
    height s wf z < height s wf p.1 := by
  have hd : s.Dep z p.1 := ⟨p.2, hp, hz⟩
  have hg := Subst.get_of_mem hnd hp
  conv => rhs; unfold height; rw [WellFounded.fix_eq]
  simp only [hg]
  refine Nat.lt_of_lt_of_le (Nat.lt_succ_self _) (le_foldr_max (List.mem_map.2 ⟨z, hz, ?_⟩))
  simp only [hd, dif_pos]
  rfl

theorem eliminate_wf {s : Subst} (hnd : s.keys.Nodup) (wf : WellFounded s.Dep) : ∃ n r, eliminate n s = .ok r := by
  have hr : Ranked s.keys (height s wf) s := fun p hp z hz _ => height_lt hnd wf hp hz
  obtain ⟨r, hr'⟩ := eliminate_ranked (K := s.keys) (((s.keys.map (height s wf)).foldr max 0) + 1) s rfl hnd hr (fun p hp z hz hzK =>
    Nat.lt_succ_of_le (le_foldr_max (List.mem_map.2 ⟨z, hzK, rfl⟩)))
  exact ⟨_, r, hr'⟩

/-! ### With a cycle -/

/-- Each key of `S` has a key of `S` in its term, the one given by `g`. -/
def Trap (S : Finset Nat) (g : Nat → Nat) (s : Subst) : Prop := ∀ k ∈ S, g k ∈ S ∧ ∃ v, (k, v) ∈ s ∧ g k ∈ v.occ

/-- What a key's replacement does to the chosen successors. -/
def moved (g0 g : Nat → Nat) (k : Nat) (x : Nat) : Nat := if g x = k then g0 k else g x

theorem Trap.sub {S : Finset Nat} {g0 g : Nat → Nat} {s : Subst} (h : Trap S g s) {k : Nat} {v : UT} (h0 : k ∈ S → g0 k ∈ S ∧ g0 k ∈ v.occ) :
    Trap S (moved g0 g k) (s.subAll k v) := by
  intro x hx
  obtain ⟨h1, w, h2, h3⟩ := h x hx
  have hm : (x, w.sub k v) ∈ s.subAll k v := List.mem_map.2 ⟨(x, w), h2, rfl⟩
  unfold moved
  by_cases e : g x = k
  · rw [if_pos e]
    have hk : k ∈ S := e ▸ h1
    exact ⟨(h0 hk).1, _, hm, UT.mem_occ_sub _ (e ▸ h3) (h0 hk).2⟩
  · rw [if_neg e]
    exact ⟨h1, _, hm, UT.mem_occ_sub_ne _ h3 e⟩

theorem elimRound_cases (n : Nat) (ts s : Subst) (ch : Bool) (hnd : s.keys.Nodup) :
    elimRound (n + 2) ts (s, ch) = .fail ∨ ∃ r, elimRound (n + 2) ts (s, ch) = .ok r := by
  induction ts generalizing s ch with
  | nil => exact Or.inr ⟨_, rfl⟩
  | cons t ts ih =>
    obtain ⟨k, v⟩ := t
    simp only [elimRound]
    split
    · rename_i ho
      rcases elimInside_cases (occurValid_iff.1 ho) n s ch hnd with h | ⟨a, h⟩
      · exact Or.inl (by rw [h]; rfl)
      · have := elimInside_spec (occurValid_iff.1 ho) _ s ch a hnd h
        subst this
        rw [h, Res.ok_bind]
        exact ih _ _ (by rw [Subst.keys_subAll]; exact hnd)
    · exact Or.inl rfl

/-- Two keys with the same successor keep having the same successor. -/
theorem elimRound_merged {S : Finset Nat} {g0 : Nat → Nat} (n : Nat) (ts : Subst) {s : Subst} {ch : Bool} {r : Subst × Bool} (hnd : s.keys.Nodup)
    (h0 : ∀ t ∈ ts, t.1 ∈ S → g0 t.1 ∈ S ∧ g0 t.1 ∈ t.2.occ) {g : Nat → Nat} (hg : Trap S g s) {x y : Nat} (hxy : g x = g y)
    (h : elimRound n ts (s, ch) = .ok r) : ∃ g', Trap S g' r.1 ∧ g' x = g' y := by
  induction ts generalizing s ch g with
  | nil =>
    simp only [elimRound, Res.ok.injEq] at h
    exact ⟨g, h ▸ hg, hxy⟩
  | cons t ts ih =>
    obtain ⟨k, v⟩ := t
    simp only [elimRound] at h
    split at h
    · rename_i ho
      simp only [Res.bind_ok] at h
      obtain ⟨a, ha, h⟩ := h
      have := elimInside_spec (occurValid_iff.1 ho) _ s ch a hnd ha
      subst this
      exact ih (g := moved g0 g k) (by rw [Subst.keys_subAll]; exact hnd) (fun t ht => h0 t (by simp [ht])) (hg.sub (h0 (k, v) (by simp)))
        (by simp only [moved, hxy]) h
    · cases h

/-- In a round that does not fail two keys get the same successor. -/
theorem elimRound_merges {S : Finset Nat} {g0 : Nat → Nat} (n : Nat) (ts : Subst) {s : Subst} {ch : Bool} {r : Subst × Bool} (hnd : s.keys.Nodup)
    (h0 : ∀ t ∈ ts, t.1 ∈ S → g0 t.1 ∈ S ∧ g0 t.1 ∈ t.2.occ) (hsurj : ∀ k ∈ S, ∃ x ∈ S, g0 x = k) (hin : ∃ t ∈ ts, t.1 ∈ S) {g : Nat → Nat}
    (hg : Trap S g s) (hgg : ∀ x ∈ S, g x = g0 x) (h : elimRound n ts (s, ch) = .ok r) :
    ∃ g', Trap S g' r.1 ∧ ∃ x ∈ S, ∃ y ∈ S, x ≠ y ∧ g' x = g' y := by
  induction ts generalizing s ch g with
  | nil => obtain ⟨t, ht, _⟩ := hin; cases ht
  | cons t ts ih =>
    obtain ⟨k, v⟩ := t
    simp only [elimRound] at h
    split at h
    · rename_i ho
      simp only [Res.bind_ok] at h
      obtain ⟨a, ha, h⟩ := h
      have := elimInside_spec (occurValid_iff.1 ho) _ s ch a hnd ha
      subst this
      have hts : ∀ t ∈ ts, t.1 ∈ S → g0 t.1 ∈ S ∧ g0 t.1 ∈ t.2.occ := fun t ht => h0 t (by simp [ht])
      have hnd' : (s.subAll k v).keys.Nodup := by rw [Subst.keys_subAll]; exact hnd
      have hg' := hg.sub (h0 (k, v) (by simp))
      by_cases hk : k ∈ S
      · obtain ⟨x, hx, hxk⟩ := hsurj k hk
        have hne : g0 k ≠ k := fun e => occurValid_iff.1 ho (e ▸ (h0 (k, v) (by simp) hk).2)
        have hxne : x ≠ k := fun e => hne (by rw [← e]; rw [e] at hxk; rw [e]; exact hxk)
        have hm : moved g0 g k x = moved g0 g k k := by
          unfold moved
          rw [if_pos ((hgg x hx).trans hxk), if_neg (by rw [hgg k hk]; exact hne), hgg k hk]
        obtain ⟨g', h1, h2⟩ := elimRound_merged n ts hnd' hts hg' hm h
        exact ⟨g', h1, x, hx, k, hk, hxne, h2⟩
      · refine ih (g := moved g0 g k) hnd' hts ?_ hg' (fun x hx => ?_) h
        · obtain ⟨t, ht, htS⟩ := hin
          rcases List.mem_cons.1 ht with rfl | ht
          · exact absurd htS hk
          · exact ⟨t, ht, htS⟩
        · unfold moved
          rw [if_neg (fun e : g x = k => hk (e ▸ (hg x hx).1)), hgg x hx]
    · cases h

/-- The keys that are successors are a trap too. -/
theorem Trap.image {S : Finset Nat} {g : Nat → Nat} {s : Subst} (h : Trap S g s) : Trap (S.image g) g s := by
  intro k hk
  have hS : k ∈ S := by
    obtain ⟨x, hx, rfl⟩ := Finset.mem_image.1 hk
    exact (h x hx).1
  exact ⟨Finset.mem_image.2 ⟨k, hS, rfl⟩, (h k hS).2⟩

theorem card_image {S : Finset Nat} {g : Nat → Nat} {x y : Nat} (hx : x ∈ S) (hy : y ∈ S) (hne : x ≠ y) (h : g x = g y) :
    (S.image g).card < S.card := by
  refine Nat.lt_of_le_of_ne Finset.card_image_le fun e => hne ?_
  exact Finset.card_image_iff.1 e (by exact_mod_cast hx) (by exact_mod_cast hy) h

/-- A round that does not fail makes the trap smaller. -/
theorem elimRound_trap {S : Finset Nat} {g0 : Nat → Nat} (n : Nat) {s : Subst} {r : Subst × Bool} (hnd : s.keys.Nodup) (hne : S.Nonempty)
    (hg : Trap S g0 s) (h : elimRound n s (s, false) = .ok r) : ∃ S' : Finset Nat, ∃ g', S'.Nonempty ∧ S'.card < S.card ∧ Trap S' g' r.1 := by
  have h0 : ∀ t ∈ s, t.1 ∈ S → g0 t.1 ∈ S ∧ g0 t.1 ∈ t.2.occ := by
    intro t ht htS
    obtain ⟨h1, v, h2, h3⟩ := hg t.1 htS
    exact ⟨h1, by rw [Subst.mem_unique hnd (v := t.2) (w := v) ht h2]; exact h3⟩
  have fin : ∀ g', Trap S g' r.1 → (∃ x ∈ S, ∃ y ∈ S, x ≠ y ∧ g' x = g' y) →
      ∃ S' : Finset Nat, ∃ g', S'.Nonempty ∧ S'.card < S.card ∧ Trap S' g' r.1 :=
    fun g' h1 ⟨x, hx, y, hy, hxy, e⟩ => ⟨S.image g', g', hne.image g', card_image hx hy hxy e, h1.image⟩
  by_cases hinj : ∃ x ∈ S, ∃ y ∈ S, x ≠ y ∧ g0 x = g0 y
  · obtain ⟨x, hx, y, hy, hxy, e⟩ := hinj
    obtain ⟨g', h1, h2⟩ := elimRound_merged n s hnd h0 hg e h
    exact fin g' h1 ⟨x, hx, y, hy, hxy, h2⟩
  · have himg : S.image g0 = S := by
      refine Finset.eq_of_subset_of_card_le (fun k hk => ?_) (Nat.le_of_eq ?_)
      · obtain ⟨x, hx, rfl⟩ := Finset.mem_image.1 hk
        exact (hg x hx).1
      · refine (Finset.card_image_of_injOn fun x hx y hy e => ?_).symm
        exact Classical.byContradiction fun hxy => hinj ⟨x, by exact_mod_cast hx, y, by exact_mod_cast hy, hxy, e⟩
    have hsurj : ∀ k ∈ S, ∃ x ∈ S, g0 x = k := fun k hk => by
      rw [← himg] at hk
      exact Finset.mem_image.1 hk
    obtain ⟨k, hk⟩ := hne
    obtain ⟨_, v, hv, _⟩ := hg k hk
    obtain ⟨g', h1, h2⟩ := elimRound_merges n s hnd h0 hsurj ⟨(k, v), hv, hk⟩ hg (fun _ _ => rfl) h
    exact fin g' h1 h2

theorem eliminate_trap (n : Nat) {S : Finset Nat} {g : Nat → Nat} {s : Subst} (hnd : s.keys.Nodup) (hne : S.Nonempty) (hg : Trap S g s)
    (hn : S.card ≤ n) : eliminate n s = .fail := by
  induction n generalizing S g s with
  | zero => exact absurd (Finset.card_pos.2 hne) (by omega)
  | succ n ih =>
    simp only [eliminate]
    rcases elimRound_cases n s s false hnd with h | ⟨r, h⟩
    · rw [h]; rfl
    · rw [h, Res.ok_bind]
      obtain ⟨h1, _, _, h4⟩ := elimRound_spec.{0} _ s s false r hnd h
      have hr2 : r.2 = true := by
        rw [← Bool.not_eq_false]
        intro e
        obtain ⟨_, _, h4⟩ := h4 e
        obtain ⟨k, hk⟩ := hne
        obtain ⟨hgk, v, hv, hz⟩ := hg k hk
        obtain ⟨_, w, hw, _⟩ := hg _ hgk
        exact h4 (g k, w) hw (k, v) hv hz
      rw [if_pos hr2]
      obtain ⟨S', g', e1, e2, e3⟩ := elimRound_trap _ hnd hne hg h
      exact ih (by rw [h1]; exact hnd) e1 e3 (by omega)

/-- Bindings with a cycle have a trap. -/
theorem trap_of_not_wf {s : Subst} (h : ¬ WellFounded s.Dep) : ∃ S : Finset Nat, ∃ g, S.Nonempty ∧ Trap S g s := by
  classical
  have key : ∀ k, ¬ Acc s.Dep k → ∃ z, ¬ Acc s.Dep z ∧ ∃ v, (k, v) ∈ s ∧ z ∈ v.occ := by
    intro k hk
    refine Classical.byContradiction fun hne => hk (Acc.intro k fun z hz => Classical.byContradiction fun hz' => hne ⟨z, hz', hz⟩)
  have mem : ∀ k, ¬ Acc s.Dep k → k ∈ s.keys := fun k hk => by
    obtain ⟨_, _, v, hv, _⟩ := key k hk
    exact List.mem_map.2 ⟨_, hv, rfl⟩
  let S : Finset Nat := s.keys.toFinset.filter fun k => ¬ Acc s.Dep k
  have hS : ∀ k, k ∈ S ↔ ¬ Acc s.Dep k := fun k => by
    simp only [S, Finset.mem_filter, List.mem_toFinset]
    exact ⟨fun h => h.2, fun h => ⟨mem k h, h⟩⟩
  let g : Nat → Nat := fun k => if hk : ¬ Acc s.Dep k then Classical.choose (key k hk) else k
  refine ⟨S, g, ?_, fun k hk => ?_⟩
  · obtain ⟨k, hk⟩ : ∃ k, ¬ Acc s.Dep k := Classical.byContradiction fun hne =>
      h ⟨fun k => Classical.byContradiction fun hk => hne ⟨k, hk⟩⟩
    exact ⟨k, (hS k).2 hk⟩
  · have hk := (hS k).1 hk
    have e : g k = Classical.choose (key k hk) := dif_pos hk
    obtain ⟨h1, h2⟩ := Classical.choose_spec (key k hk)
    rw [← e] at h1 h2
    exact ⟨(hS _).2 h1, h2⟩

theorem eliminate_not_wf {s : Subst} (hnd : s.keys.Nodup) (h : ¬ WellFounded s.Dep) : ∃ n, eliminate n s = .fail := by
  obtain ⟨S, g, h1, h2⟩ := trap_of_not_wf h
  exact ⟨S.card, eliminate_trap _ hnd h1 h2 (Nat.le_refl _)⟩

/-! ### The property -/

/-- `Eliminate(s)` ends with result `o`. -/
def Eliminates (s : Subst) (o : Res Subst) : Prop := o ≠ .out ∧ ∃ n, eliminate n s = o

/-- **C72.** `Eliminate` ends, on all bindings: with the solved form if no key occurs, through the bindings, in its own term, with failure
otherwise. -/
theorem C72_eliminate_total (s : Subst) (hnd : s.keys.Nodup) :
    (WellFounded s.Dep → ∃ r, Eliminates s (.ok r) ∧ r.keys = s.keys ∧ r.Solved) ∧ (¬ WellFounded s.Dep → Eliminates s .fail) := by
  refine ⟨fun h => ?_, fun h => ⟨by simp, eliminate_not_wf hnd h⟩⟩
  obtain ⟨n, r, hr⟩ := eliminate_wf hnd h
  obtain ⟨h1, h2, _⟩ := eliminate_spec.{0} n s r hnd hr
  exact ⟨r, ⟨by simp, n, hr⟩, h1, h2⟩

/-- The result is the only one, and does not depend on the number of rounds allowed once it is reached. -/
theorem C72_stable (s : Subst) (o : Res Subst) (h : Eliminates s o) : ∃ N, ∀ n, N ≤ n → eliminate n s = o := by
  obtain ⟨h1, N, h2⟩ := h
  refine ⟨N, fun n hn => ?_⟩
  rcases eliminate_mono hn s with h | h
  · exact absurd (h2.symm.trans h) h1
  · exact h.symm.trans h2

theorem depth_lt {t : UT} {D : Nat → Nat} {p : Nat} {args : List UT} (h : t = .fn p args) {z : Nat} (hz : z ∈ t.occ) :
    D z < t.eval (fun _ l => l.foldr max 0 + 1) D := by
  have key : ∀ t : UT, z ∈ t.occ → D z ≤ t.eval (fun _ l => l.foldr max 0 + 1) D := by
    intro t
    induction t using UT.ind with
    | mv j => intro hz; simp only [UT.occ, List.mem_singleton] at hz; subst hz; exact Nat.le_refl _
    | fn p args ih =>
      intro hz
      simp only [UT.occ, UT.mem_occL] at hz
      obtain ⟨a, ha, hz⟩ := hz
      simp only [UT.eval, UT.evalL_eq]
      exact Nat.le_succ_of_le (Nat.le_trans (ih a ha hz) (le_foldr_max (List.mem_map.2 ⟨a, ha, rfl⟩)))
  subst h
  simp only [UT.occ, UT.mem_occL] at hz
  obtain ⟨a, ha, hz⟩ := hz
  simp only [UT.eval, UT.evalL_eq]
  exact Nat.lt_succ_of_le (Nat.le_trans (key a hz) (le_foldr_max (List.mem_map.2 ⟨a, ha, rfl⟩)))

/-- For bindings to compound terms, success means that the bindings can be satisfied by terms. -/
theorem C72_unifiable (s : Subst) (hnd : s.keys.Nodup) (hfn : ∀ p ∈ s, ∃ q args, p.2 = .fn q args) :
    (∃ r, Eliminates s (.ok r)) ↔ ∃ σ : Nat → UT, Subst.Sol termAlg σ s := by
  obtain ⟨h1, h2⟩ := C72_eliminate_total s hnd
  constructor
  · rintro ⟨r, _, n, hr⟩
    have hr' := eliminate_spec.{0} n s r hnd hr
    have wf := wf_of_solved hr'.1 hr'.2.1 (fun A σ => hr'.2.2.1 A σ) hnd
    exact ⟨solve termAlg .mv s wf, solve_sol hnd wf⟩
  · rintro ⟨σ, hσ⟩
    suffices wf : WellFounded s.Dep from (h1 wf).imp fun r hr => hr.1
    · let d : UT → Nat := fun t => t.eval (fun _ l => l.foldr max 0 + 1) fun _ => 0
      have heval : ∀ t : UT, d (t.eval termAlg σ) = t.eval (fun _ l => l.foldr max 0 + 1) fun i => d (σ i) := by
        intro t
        induction t using UT.ind with
        | mv j => rfl
        | fn p args ih =>
          simp only [UT.eval, UT.evalL_eq, termAlg, d, List.map_map]
          congr 2
          exact List.map_congr_left fun a ha => ih a ha
      have hlt : ∀ z k, s.Dep z k → d (σ z) < d (σ k) := by
        rintro z k ⟨v, hv, hz⟩
        obtain ⟨q, args, e⟩ := hfn _ hv
        have := hσ _ hv
        simp only at this
        rw [this, heval]
        exact depth_lt (D := fun i => d (σ i)) e hz
      exact Subrelation.wf (fun {z k} h => hlt z k h) (measure fun k => d (σ k)).wf

/-- Without `EliminateMeta` a cycle of metavariables is a failure. -/
example : eliminate 3 [(0, .mv 1), (1, .mv 2), (2, .mv 0)] = .fail := by decide +kernel

/-- A cycle through terms: the occurs check. -/
example : eliminate 3 [(0, .fn 0 [.mv 1]), (1, .fn 0 [.mv 0])] = .fail := by decide +kernel

/-- A chain. -/
example : eliminate 4 [(0, .fn 0 [.mv 1]), (1, .fn 0 [.mv 2]), (2, .fn 1 [])] =
    .ok [(0, .fn 0 [.fn 0 [.fn 1 []]]), (1, .fn 0 [.fn 1 []]), (2, .fn 1 [])] := by decide +kernel

end Verif.Unif
