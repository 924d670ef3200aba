import Verif.Unif.IndexGround
import Verif.Unif.ElimTotal
/-!
# Queries whose arguments are fresh metavariables

The equality module reads the equalities of a branch by unifying `=(M0, M1, M2)` with the formulas of the index. The run of a stored
formula against such a query always succeeds, whatever terms the formula has, and the answer is right: up to the choice of the
representatives among metavariables it binds the metavariables of the query to the arguments of the formula.
-/

namespace Verif.Unif

/-! ### Elimination -/

theorem elimBoth_ranked {ρ : Nat → Nat} (r : Nat) {s : Subst} (hR : Ranked s.keys ρ s)
    (h3 : ∀ p ∈ s, ∀ z ∈ p.2.occ, z ∈ s.keys → ρ z < r) {m : Nat} (hm : r + 1 ≤ m) : ∃ s', elimBoth m s = .ok s' := by
  have hk : ∀ z ∈ (elimMeta s).keys, z ∈ s.keys := by
    intro z hz
    obtain ⟨p, hp, rfl⟩ := List.mem_map.1 hz
    exact List.mem_map.2 ⟨p, elimMeta_sub s p hp, rfl⟩
  obtain ⟨s', h⟩ := eliminate_ranked (K := (elimMeta s).keys) (ρ := ρ) r (elimMeta s) rfl (elimMeta_nodup s)
    (fun p hp z hz hzK => hR p (elimMeta_sub s p hp) z hz (hk z hzK))
    (fun p hp z hz hzK => h3 p (elimMeta_sub s p hp) z hz (hk z hzK))
  refine ⟨s', ?_⟩
  rcases eliminate_mono hm (elimMeta s) with h' | h'
  · rw [h] at h'; cases h'
  · exact h'.symm.trans h

/-- A property of bindings that replacements keep. -/
def Stable (W : Nat × UT → Prop) : Prop := ∀ p q, W p → W q → W (p.1, p.2.sub q.1 q.2)

theorem elimRound_stable {W : Nat × UT → Prop} (hW : Stable W) (n : Nat) (ts s : Subst) (ch : Bool) (r : Subst × Bool) (hnd : s.keys.Nodup)
    (h : elimRound n ts (s, ch) = .ok r) (hts : ∀ p ∈ ts, W p) (hs : ∀ p ∈ s, W p) : ∀ p ∈ r.1, W p := by
  induction ts generalizing s ch with
  | nil => simp only [elimRound, Res.ok.injEq] at h; subst h; exact hs
  | cons t ts ih =>
    obtain ⟨k, v⟩ := t
    simp only [elimRound] at h
    split at h
    · rename_i ho
      rw [Res.bind_ok] at h
      obtain ⟨a, ha, h⟩ := h
      have := elimInside_spec (occurValid_iff.1 ho) n s ch a hnd ha
      subst this
      refine ih _ _ (by rw [Subst.keys_subAll]; exact hnd) h (fun p hp => hts p (by simp [hp])) fun p hp => ?_
      simp only [Subst.subAll, List.mem_map] at hp
      obtain ⟨q, hq, rfl⟩ := hp
      exact hW q (k, v) (hs q hq) (hts _ (by simp))
    · cases h

theorem eliminate_stable {W : Nat × UT → Prop} (hW : Stable W) (n : Nat) (s r : Subst) (hnd : s.keys.Nodup) (h : eliminate n s = .ok r)
    (hs : ∀ p ∈ s, W p) : ∀ p ∈ r, W p := by
  induction n generalizing s with
  | zero => simp [eliminate] at h
  | succ n ih =>
    simp only [eliminate, Res.bind_ok] at h
    obtain ⟨a, ha, h⟩ := h
    have h1 := elimRound_stable hW _ s s false a hnd ha hs hs
    have h2 := (elimRound_spec.{0} _ s s false a hnd ha).1
    split at h
    · exact ih a.1 (by rw [h2]; exact hnd) h h1
    · simp only [Res.ok.injEq] at h; subst h; exact h1

theorem elimBoth_stable {W : Nat × UT → Prop} (hW : Stable W) {n : Nat} {s r : Subst} (h : elimBoth n s = .ok r) (hs : ∀ p ∈ s, W p) :
    ∀ p ∈ r, W p :=
  eliminate_stable hW n _ r (elimMeta_nodup s) h fun p hp => hs p (elimMeta_sub s p hp)

theorem elimBoth_keys {n : Nat} {s r : Subst} (h : elimBoth n s = .ok r) : ∀ k ∈ r.keys, k ∈ s.keys := by
  intro k hk
  rw [(eliminate_spec.{0} n _ r (elimMeta_nodup s) h).1] at hk
  obtain ⟨p, hp, rfl⟩ := List.mem_map.1 hk
  exact List.mem_map.2 ⟨p, elimMeta_sub s p hp, rfl⟩

theorem elimMetaLoop_id (s : Subst) (rest acc : Subst) (hs : ∀ k i, (k, UT.mv i) ∈ rest → s.get i ≠ some (.mv k))
    (hnd : (acc ++ rest).keys.Nodup) : elimMetaLoop s rest acc = acc ++ rest := by
  induction rest generalizing acc with
  | nil => simp [elimMetaLoop]
  | cons p rest ih =>
    obtain ⟨k, v⟩ := p
    have hk : k ∉ acc.keys := by
      rw [Subst.keys_append, List.nodup_append] at hnd
      intro hh
      exact hnd.2.2 k hh k (by simp [Subst.keys]) rfl
    have go : elimMetaLoop s rest (acc.set k v) = acc ++ (k, v) :: rest := by
      rw [ih _ (fun k i h => hs k i (by simp [h])) (by rw [Subst.set_new v hk]; simpa [Subst.keys] using hnd), Subst.set_new v hk]
      simp
    cases v with
    | mv i =>
      have hne := hs k i (by simp)
      simp only [elimMetaLoop, hne, decide_false, Bool.and_false, Bool.false_eq_true, if_false]
      exact go
    | fn q args => simp only [elimMetaLoop]; exact go

/-- `EliminateMeta` keeps bindings without two metavariables bound to each other. -/
theorem elimMeta_id {s : Subst} (hnd : s.keys.Nodup) (h : ∀ k i, (k, UT.mv i) ∈ s → s.get i ≠ some (.mv k)) : elimMeta s = s := by
  have := elimMetaLoop_id s s [] h (by simpa using hnd)
  simpa [elimMeta] using this

/-- A solved form stays. -/
theorem elimBoth_solved_ok {s : Subst} (h : s.Solved) {m : Nat} (hm : 1 ≤ m) : ∃ s', elimBoth m s = .ok s' :=
  elimBoth_ranked (ρ := fun _ => 0) 0 (fun p hp z hz hzK => absurd hz (h.2 p hp z hzK)) (fun p hp z hz hzK => absurd hz (h.2 p hp z hzK)) hm

/-! ### The setting -/

/-- `xs` are the metavariables of the query, `σ` maps them to the arguments of the stored formula, where they do not occur; those of
`drop` are mapped to compound terms. -/
structure Fresh (σ : Nat → UT) (xs drop : List Nat) : Prop where
  away : ∀ x ∈ xs, ∀ z ∈ (σ x).occ, z ∉ xs
  id : ∀ i, i ∉ xs → σ i = .mv i
  drop : ∀ d ∈ drop, d ∈ xs ∧ ∃ p l, σ d = .fn p l

variable {σ : Nat → UT} {xs drop : List Nat}

theorem Fresh.inst (F : Fresh σ xs drop) {x : Nat} (hx : x ∈ xs) : (σ x).inst σ = σ x := by
  have : (σ x).inst σ = (σ x).inst UT.mv := UT.eval_congr _ fun i hi => F.id i (F.away x hx i hi)
  rw [this, UT.inst_mv]

/-- A binding of the metavariables of the query: the argument itself if it is compound, or another metavariable of the query that
stands for the same metavariable. -/
def Sh (σ : Nat → UT) (xs : List Nat) (p : Nat × UT) : Prop :=
  p.1 ∈ xs ∧ ((p.2 = σ p.1 ∧ ∃ q l, σ p.1 = .fn q l) ∨ ∃ y ∈ xs, p.2 = .mv y ∧ σ y = σ p.1 ∧ ∃ k, σ p.1 = .mv k)

theorem Sh.stable (F : Fresh σ xs drop) : Stable (Sh σ xs) := by
  rintro ⟨a, u⟩ ⟨k, v⟩ ⟨ha, h⟩ ⟨hk, h'⟩
  simp only at ha h hk h'
  refine ⟨ha, ?_⟩
  rcases h with ⟨rfl, h⟩ | ⟨y, hy, rfl, e, k0, hk0⟩
  · refine Or.inl ⟨?_, h⟩
    exact UT.sub_of_not_mem _ fun hz => F.away a ha k hz hk
  · simp only [UT.sub]
    by_cases hyk : y = k
    · subst hyk
      simp only [if_true]
      rcases h' with ⟨rfl, q, l, h'⟩ | ⟨y', hy', rfl, e', h'⟩
      · rw [e, hk0] at h'; cases h'
      · exact Or.inr ⟨y', hy', rfl, e'.trans e, k0, hk0⟩
    · simp only [hyk, if_false]
      exact Or.inr ⟨y, hy, rfl, e, k0, hk0⟩

/-- The bindings while the code of the formula runs. -/
def Good (σ : Nat → UT) (xs : List Nat) (s : Subst) : Prop := s.Solved ∧ ∀ p ∈ s, Sh σ xs p

theorem Good.nil : Good σ xs [] := ⟨⟨by simp [Subst.keys], by simp⟩, by simp⟩

theorem Good.elim (F : Fresh σ xs drop) {m : Nat} {s r : Subst} (hs : ∀ p ∈ s, Sh σ xs p) (h : elimBoth m s = .ok r) : Good σ xs r :=
  ⟨elimBoth_solved h, elimBoth_stable (Sh.stable F) h hs⟩

/-- Binding a metavariable of the query that is not bound. -/
theorem bind_good (F : Fresh σ xs drop) {s : Subst} (h : Good σ xs s) {x : Nat} {v : UT} (hx : x ∉ s.keys) (hv : Sh σ xs (x, v))
    (hxv : x ∉ v.occ) (hk : ∀ k ∈ s.keys, k ∉ v.occ) {m : Nat} (hm : 2 ≤ m) : ∃ r, elimBoth m (s.set x v) = .ok r ∧ Good σ xs r := by
  have hsh : ∀ p ∈ s.set x v, Sh σ xs p := by
    intro p hp
    rcases Subst.mem_set hp with hp | rfl
    · exact h.2 p hp
    · exact hv
  have key : ∀ p ∈ s.set x v, ∀ z ∈ p.2.occ, z ∈ (s.set x v).keys → z = x ∧ p.1 ≠ x := by
    intro p hp z hz hzK
    rcases Subst.mem_set hp with hp | rfl
    · refine ⟨?_, fun e => hx (e ▸ List.mem_map.2 ⟨p, hp, rfl⟩)⟩
      rcases Subst.key_set.1 hzK with hzK | rfl
      · exact absurd hz (h.1.2 p hp z hzK)
      · rfl
    · rcases Subst.key_set.1 hzK with hzK | rfl
      · exact absurd hz (hk z hzK)
      · exact absurd hz hxv
  obtain ⟨r, hr⟩ := elimBoth_ranked (ρ := fun z => if z = x then 0 else 1) 1 (s := s.set x v)
    (fun p hp z hz hzK => by
      obtain ⟨e1, e2⟩ := key p hp z hz hzK
      simp [e1, e2])
    (fun p hp z hz hzK => by
      obtain ⟨e1, e2⟩ := key p hp z hz hzK
      simp [e1]) hm
  exact ⟨r, hr, Good.elim F hsh hr⟩

theorem unwrap_good {s : Subst} (h : Good σ xs s) {x k : Nat} (hx : x ∈ xs) (hk : σ x = .mv k) :
    ∃ y ∈ xs, unwrap s (s.length + 1) [] (.mv x) = .mv y ∧ y ∉ s.keys ∧ σ y = .mv k := by
  cases hg : s.get x with
  | none =>
    refine ⟨x, hx, by simp only [unwrap, hg], fun hh => ?_, hk⟩
    obtain ⟨v, hv⟩ := Subst.get_isSome hh
    rw [hg] at hv; cases hv
  | some v =>
    have hm := Subst.get_mem hg
    rcases (h.2 _ hm).2 with ⟨_, q, l, e⟩ | ⟨y, hy, e1, e2, _⟩
    · simp only at e; rw [hk] at e; cases e
    · simp only at e1 e2
      subst e1
      have hyk : y ∉ s.keys := fun hh => h.1.2 _ hm y hh (by simp [UT.occ])
      refine ⟨y, hy, ?_, hyk, e2.trans hk⟩
      simp only [unwrap, hg, List.not_mem_nil, if_false]
      cases hl : s.length with
      | zero => rfl
      | succ n => simp only [unwrap, Subst.get_eq_none hyk]

theorem bound_new {s : Subst} {x : Nat} (h : x ∉ s.keys) (t : UT) : boundElse s (.mv x) t = false := by
  simp only [boundElse, Subst.get_eq_none h]

/-- A stored formula against the query. -/
def planFresh (F : Fresh σ xs drop) (strict : Bool) (n : Nat) : Plan (addUnif strict (n + 3)) where
  C t u := ∃ x ∈ xs, t = σ x ∧ u = .mv x
  V k u := ∃ x ∈ xs, σ x = .mv k ∧ u = .mv x
  Q s := Good σ xs s
  fn_fn := by rintro p l q m ⟨x, _, _, h⟩; cases h
  fn_mv := by
    rintro p l x ⟨x', hx, e, h⟩ s hs
    obtain rfl := UT.mv.inj h
    have hv : Sh σ xs (x, .fn p l) := ⟨hx, Or.inl ⟨e, p, l, e.symm⟩⟩
    by_cases hk : x ∈ s.keys
    · obtain ⟨v, hg⟩ := Subst.get_isSome hk
      have hm := Subst.get_mem hg
      have hvv : v = .fn p l := by
        rcases (hs.2 _ hm).2 with ⟨e1, _⟩ | ⟨y, _, _, _, k, e2⟩
        · exact e1.trans e.symm
        · simp only at e2; rw [← e] at e2; cases e2
      subst hvv
      obtain ⟨r, hr⟩ := elimBoth_solved_ok hs.1 (m := n + 2) (by omega)
      refine ⟨r, ?_, Good.elim F hs.2 hr⟩
      have hb : boundElse s (.mv x) (.fn p l) = false := by simp [boundElse, hg]
      have hb' : boundElse s (.fn p l) (.mv x) = false := rfl
      simp only [addUnif, addUnifBody, hb, hb', Bool.or_self, Bool.false_eq_true, if_false, Subst.set_has _ hk]
      exact hr
    · obtain ⟨r, hr, hq⟩ := bind_good F hs hk hv (fun h => F.away x hx x (e ▸ h) hx)
        (fun k hk' hz => F.away x hx k (e ▸ hz) (by
          obtain ⟨p', hp', rfl⟩ := List.mem_map.1 hk'
          exact (hs.2 p' hp').1)) (m := n + 2) (by omega)
      refine ⟨r, ?_, hq⟩
      have hb' : boundElse s (.fn p l) (.mv x) = false := rfl
      simp only [addUnif, addUnifBody, bound_new hk, hb', Bool.or_self, Bool.false_eq_true, if_false]
      exact hr
  mv := by rintro k u ⟨x, hx, e, rfl⟩; exact ⟨x, hx, e.symm, rfl⟩
  cmp := by
    rintro k a b ⟨x, hx, ex, rfl⟩ ⟨x', hx', ex', rfl⟩ s hs
    obtain ⟨y, hy, e, hyk, ey⟩ := unwrap_good hs hx ex
    obtain ⟨y', hy', e', hyk', ey'⟩ := unwrap_good hs hx' ex'
    rw [e, e']
    by_cases hyy : y = y'
    · exact Or.inl (by rw [hyy])
    · have hv : Sh σ xs (y, .mv y') := ⟨hy, Or.inr ⟨y', hy', rfl, by simp only [ey, ey'], k, ey⟩⟩
      obtain ⟨r, hr, hq⟩ := bind_good F hs hyk hv (by simpa [UT.occ] using hyy)
        (by
          intro k hk hz
          simp only [UT.occ, List.mem_singleton] at hz
          exact hyk' (hz ▸ hk)) (m := n + 2) (by omega)
      refine Or.inr ⟨r, ?_, hq⟩
      simp only [addUnif, addUnifBody, bound_new hyk, bound_new hyk', Bool.or_self, Bool.false_eq_true, if_false]
      exact hr

/-! ### The binding phase -/

/-- What is known of all bindings of the answer. -/
def Wv (σ : Nat → UT) (xs drop : List Nat) (p : Nat × UT) : Prop :=
  p.2.inst σ = σ p.1 ∧ (∀ z, p.2 = .mv z → z ∈ xs) ∧ ∀ z ∈ p.2.occ, z ∉ drop

theorem Wv.stable : Stable (Wv σ xs drop) := by
  rintro ⟨a, u⟩ ⟨k, v⟩ ⟨h1, h2, h3⟩ ⟨g1, g2, g3⟩
  simp only at h1 h2 h3 g1 g2 g3
  refine ⟨?_, ?_, ?_⟩
  · exact (UT.eval_sub g1.symm u).trans h1
  · intro z hz
    cases u with
    | mv i =>
      simp only [UT.sub] at hz
      split at hz
      · exact g2 z hz
      · exact h2 z hz
    | fn q l => simp [UT.sub] at hz
  · intro z hz
    rcases UT.occ_sub _ hz with ⟨e, _⟩ | ⟨_, e⟩
    · exact h3 z e
    · exact g3 z e

theorem Sh.wv (F : Fresh σ xs drop) {p : Nat × UT} (h : Sh σ xs p) : Wv σ xs drop p := by
  obtain ⟨hx, h⟩ := h
  rcases h with ⟨e, q, l, e2⟩ | ⟨y, hy, e, e2, k, hk⟩
  · refine ⟨by rw [e, F.inst hx], fun z hz => ?_, fun z hz hd => ?_⟩
    · rw [e, e2] at hz; cases hz
    · rw [e] at hz
      exact F.away _ hx z hz (F.drop z hd).1
  · refine ⟨by rw [e]; exact e2, fun z hz => ?_, fun z hz hd => ?_⟩
    · rw [e] at hz; cases hz; exact hy
    · rw [e] at hz
      simp only [UT.occ, List.mem_singleton] at hz
      subst hz
      obtain ⟨_, q, l, h'⟩ := F.drop _ hd
      rw [e2, hk] at h'; cases h'

/-- A metavariable of the formula and the metavariable of the query it was matched with. -/
def Tk (σ : Nat → UT) (xs : List Nat) (p : Nat × UT) : Prop := p.1 ∉ xs ∧ ∃ x ∈ xs, p.2 = .mv x ∧ σ x = .mv p.1

theorem Tk.wv (F : Fresh σ xs drop) {p : Nat × UT} (h : Tk σ xs p) : Wv σ xs drop p := by
  obtain ⟨hp, x, hx, e, e2⟩ := h
  refine ⟨?_, fun z hz => ?_, fun z hz hd => ?_⟩
  · rw [e, F.id _ hp]; exact e2
  · rw [e] at hz; cases hz; exact hx
  · rw [e] at hz
    simp only [UT.occ, List.mem_singleton] at hz
    subst hz
    obtain ⟨_, q, l, h'⟩ := F.drop _ hd
    rw [e2] at h'; cases h'

theorem computeLoop_fresh (au : AU) (metas : List Nat) (subs : List (Nat × UT)) (done : List Nat) (T E : Subst)
    (hsub : ∀ p ∈ subs, ∃ k, metas[p.1]? = some k ∧ Tk σ xs (k, p.2)) (hE : ∀ k ∈ E.keys, k ∈ xs)
    (hT : ∀ p ∈ T, Tk σ xs p) (hd : ∀ k ∈ T.keys, k ∈ done) :
    ∃ T', computeLoop true au metas subs done T E = .ok (T', E) ∧ ∀ p ∈ T', Tk σ xs p := by
  induction subs generalizing done T with
  | nil => exact ⟨T, rfl, hT⟩
  | cons p rest ih =>
    obtain ⟨i, u⟩ := p
    obtain ⟨k, hk, ht⟩ := hsub (i, u) (by simp)
    simp only at hk
    have hrest := fun p hp => hsub p (List.mem_cons_of_mem (i, u) hp)
    have hne : ¬ UT.mv k = u := by
      rintro rfl
      obtain ⟨h1, x, hx, e, _⟩ := ht
      simp only [UT.mv.injEq] at e
      exact h1 (e ▸ hx)
    have hg : E.get k = none := Subst.get_eq_none fun h => ht.1 (hE k h)
    have hc : (true && T.has k && decide (T.get k ≠ some u) && decide (k ∉ done)) = false := by
      cases hh : T.has k with
      | false => simp
      | true => simp [hd k (Subst.has_iff.1 hh)]
    simp only [computeLoop, hk, hne, if_false, hc, Bool.false_eq_true, hg]
    refine ih _ _ hrest (fun p hp => ?_) fun z hz => ?_
    · rcases Subst.mem_set hp with hp | rfl
      · exact hT p hp
      · exact ht
    · rcases Subst.key_set.1 hz with hz | rfl
      · exact List.mem_cons_of_mem _ (hd z hz)
      · simp

theorem merge_step (F : Fresh σ xs drop) {res : Subst} (hres : res.Solved) (hw : ∀ p ∈ res, Wv σ xs drop p) {k : Nat} {v : UT} (ht : Tk σ xs (k, v))
    (hk : k ∉ res.keys) {m : Nat} (hm : 3 ≤ m) :
    ∃ r, elimBoth m (res.set k v) = .ok r ∧ r.Solved ∧ (∀ p ∈ r, Wv σ xs drop p) ∧ ∀ z ∈ r.keys, z ∈ res.keys ∨ z = k := by
  obtain ⟨hkx, x, hx, rfl, e⟩ := id ht
  simp only at hkx e
  have hxk : x ≠ k := fun h => hkx (h ▸ hx)
  have key : ∀ p ∈ res.set k (.mv x), ∀ z ∈ p.2.occ, z ∈ (res.set k (.mv x)).keys →
      (z = k ∧ p.1 ≠ k ∧ p.1 ≠ x) ∨ (z = x ∧ p.1 = k) := by
    intro p hp z hz hzK
    rcases Subst.mem_set hp with hp1 | rfl
    · rcases Subst.key_set.1 hzK with hzK | rfl
      · exact absurd hz (hres.2 p hp1 z hzK)
      · refine Or.inl ⟨rfl, fun h => hk (h ▸ List.mem_map.2 ⟨p, hp1, rfl⟩), fun h => ?_⟩
        obtain ⟨w1, w2, _⟩ := hw p hp1
        rw [h, e] at w1
        cases hv : p.2 with
        | mv i =>
          rw [hv] at hz
          simp only [UT.occ, List.mem_singleton] at hz
          subst hz
          exact hkx (w2 _ hv)
        | fn q l => rw [hv, UT.inst_args] at w1; cases w1
    · simp only [UT.occ, List.mem_singleton] at hz
      exact Or.inr ⟨hz, rfl⟩
  obtain ⟨r, hr⟩ := elimBoth_ranked (ρ := fun z => if z = x then 0 else if z = k then 1 else 2) 2 (s := res.set k (.mv x))
    (fun p hp z hz hzK => by
      rcases key p hp z hz hzK with ⟨e1, e2, e3⟩ | ⟨e1, e2⟩
      · simp [e1, e2, e3, hxk.symm]
      · simp [e1, e2, hxk.symm])
    (fun p hp z hz hzK => by
      rcases key p hp z hz hzK with ⟨e1, e2, e3⟩ | ⟨e1, e2⟩
      · simp [e1, hxk.symm]
      · simp [e1]) hm
  refine ⟨r, hr, elimBoth_solved hr, elimBoth_stable Wv.stable hr fun p hp => ?_, fun z hz => Subst.key_set.1 (elimBoth_keys hr z hz)⟩
  rcases Subst.mem_set hp with hp | rfl
  · exact hw p hp
  · exact ht.wv F

theorem mergeLoop_fresh (F : Fresh σ xs drop) (au : AU) {m : Nat} (hm : 3 ≤ m) (rest res : Subst) (hrest : ∀ p ∈ rest, Tk σ xs p)
    (hnd : rest.keys.Nodup) (hdis : ∀ k ∈ rest.keys, k ∉ res.keys) (hres : res.Solved) (hw : ∀ p ∈ res, Wv σ xs drop p) :
    ∃ r, mergeLoop au m rest res = .ok r ∧ r.Solved ∧ ∀ p ∈ r, Wv σ xs drop p := by
  induction rest generalizing res with
  | nil => exact ⟨res, rfl, hres, hw⟩
  | cons p rest ih =>
    obtain ⟨k, v⟩ := p
    have hk : k ∉ res.keys := hdis k (by simp [Subst.keys])
    obtain ⟨r, hr, h1, h2, h3⟩ := merge_step F hres hw (hrest (k, v) (by simp)) hk hm
    simp only [Subst.keys, List.map_cons, List.nodup_cons] at hnd
    have hh : res.has k = false := by
      cases h : res.has k with
      | false => rfl
      | true => exact absurd (Subst.has_iff.1 h) hk
    simp only [mergeLoop, hh, Bool.false_eq_true, if_false, hr, Res.ok_bind]
    refine ih r (fun p hp => hrest p (by simp [hp])) hnd.2 (fun z hz hzr => ?_) h1 h2
    rcases h3 z hzr with h | rfl
    · exact hdis z (by simp only [Subst.keys, List.map_cons, List.mem_cons]; exact Or.inr hz) h
    · exact hnd.1 hz

theorem compute_fresh (F : Fresh σ xs drop) (au : AU) {m : Nat} (hm : 3 ≤ m) (metas : List Nat) (subs : List (Nat × UT)) (E : Subst)
    (hsub : ∀ p ∈ subs, ∃ k, metas[p.1]? = some k ∧ Tk σ xs (k, p.2)) (hE : Good σ xs E) :
    ∃ r, compute true au m metas subs E = .ok r ∧ r.Solved ∧ ∀ p ∈ r, Wv σ xs drop p := by
  have hEx : ∀ k ∈ E.keys, k ∈ xs := by
    intro k hk
    obtain ⟨p, hp, rfl⟩ := List.mem_map.1 hk
    exact (hE.2 p hp).1
  obtain ⟨T, h1, hT⟩ := computeLoop_fresh au metas subs [] [] E hsub hEx (by simp) (by simp [Subst.keys])
  obtain ⟨E', h2⟩ := elimBoth_solved_ok hE.1 (m := m) (by omega)
  have hE' := Good.elim F hE.2 h2
  have hTk : ∀ p ∈ T, ∀ z ∈ p.2.occ, z ∉ T.keys := by
    intro p hp z hz hzk
    obtain ⟨_, x, hx, e, _⟩ := hT p hp
    rw [e] at hz
    simp only [UT.occ, List.mem_singleton] at hz
    subst hz
    obtain ⟨p', hp', e'⟩ := List.mem_map.1 hzk
    exact (hT p' hp').1 (e' ▸ hx)
  obtain ⟨T', h3⟩ := elimBoth_ranked (ρ := fun _ => 0) 0 (s := T) (fun p hp z hz hzK => absurd hzK (hTk p hp z hz))
    (fun p hp z hz hzK => absurd hzK (hTk p hp z hz)) (m := m) (by omega)
  have hTst : Stable (Tk σ xs) := by
    rintro ⟨a, u⟩ ⟨k, v⟩ ⟨ha, x, hx, e, e2⟩ ⟨hk, _⟩
    simp only at ha e e2 hk
    subst e
    refine ⟨ha, x, hx, ?_, e2⟩
    simp only [UT.sub]
    rw [if_neg (fun h : x = k => hk (h ▸ hx))]
  have hT' := elimBoth_stable hTst h3 hT
  have hsT : T'.Solved := elimBoth_solved h3
  have hdis : ∀ k ∈ T'.keys, k ∉ E'.keys := by
    intro k hk hk'
    obtain ⟨p, hp, rfl⟩ := List.mem_map.1 hk
    obtain ⟨p', hp', e⟩ := List.mem_map.1 hk'
    exact (hT' p hp).1 (e ▸ (hE'.2 p' hp').1)
  have hm' : ∃ q, merge au m E' T' = .ok q ∧ q.Solved ∧ ∀ p ∈ q, Wv σ xs drop p := by
    simp only [merge]
    split
    · exact ⟨T', rfl, hsT, fun p hp => (hT' p hp).wv F⟩
    · split
      · exact ⟨E', rfl, hE'.1, fun p hp => (hE'.2 p hp).wv F⟩
      · rw [foldl_set E' [] (by simpa using hE'.1.1), List.nil_append]
        exact mergeLoop_fresh F au hm T' E' hT' hsT.1 hdis hE'.1 fun p hp => (hE'.2 p hp).wv F
  obtain ⟨q, h4, hq, hw⟩ := hm'
  obtain ⟨r, h5⟩ := elimBoth_solved_ok hq (m := m) (by omega)
  refine ⟨r, ?_, elimBoth_solved h5, elimBoth_stable Wv.stable h5 hw⟩
  simp only [compute, h1, Res.ok_bind, h2, h3, h4, h5]

/-! ### The whole run -/

theorem compute_le {au au' : AU} (hle : AULe au au') {n : Nat} {metas : List Nat} {subs : List (Nat × UT)} {E r : Subst}
    (h : compute true au n metas subs E = .ok r) : compute false au' n metas subs E = .ok r := by
  simp only [compute, Res.bind_ok] at h ⊢
  obtain ⟨⟨T, F⟩, h1, F', hF, T', hT, q, hq, h⟩ := h
  exact ⟨⟨T, F⟩, computeLoop_le hle _ _ _ _ _ _ h1, F', hF, T', hT, q, merge_le hle _ _ _ _ hq, h⟩

/-- The run of a stored formula against the query succeeds, and the answer is right in both directions: `σ` respects it, and whatever
respects it makes the formula equal to the query. -/
theorem single_fresh {ar : Nat → Nat} {f q : Atom} (F : Fresh σ xs drop) (hp : f.p = q.p) (hf : f.args = xs.map σ) (hq : q.args = xs.map .mv)
    (haf : f.term.Ar ar) (haq : q.term.Ar ar) (n : Nat) :
    ∃ r, single (addUnif false (n + 3)) (n + 3) { terms := [q.term] } (f.code, f) = [(f, r)] ∧ r.Solved ∧ (∀ p ∈ r, Wv σ xs drop p) ∧
      ∀ τ : Nat → UT, Respects τ r → f.term.inst τ = q.term.inst τ := by
  have hocc : ∀ z ∈ UT.occL f.args, z ∉ xs := by
    intro z hz
    rw [UT.mem_occL, hf] at hz
    obtain ⟨t, ht, hz⟩ := hz
    obtain ⟨x, hx, rfl⟩ := List.mem_map.1 ht
    exact F.away x hx z hz
  obtain ⟨m, h1, h2⟩ := exec_code_through (planFresh F true n) hp (by rw [hf, hq]; simp) (by
    intro e he
    rw [hf, hq, List.zip_map'] at he
    obtain ⟨x, hx, rfl⟩ := List.mem_map.1 he
    exact ⟨x, hx, rfl, rfl⟩) Good.nil
  have hsub : ∀ p ∈ m.subst, ∃ k, (UT.occL f.args)[p.1]? = some k ∧ Tk σ xs (k, p.2) := by
    intro p hp
    have hlt := h2.idx p hp
    refine ⟨(UT.occL f.args)[p.1], by simp [hlt], hocc _ (List.getElem_mem hlt), ?_⟩
    obtain ⟨x, hx, e1, e2⟩ := h2.val p hp (UT.occL f.args)[p.1] (by simp [hlt])
    exact ⟨x, hx, e2, e1⟩
  obtain ⟨r, h3, h4, h5⟩ := compute_fresh F (addUnif true (n + 3)) (m := n + 3) (by omega) (UT.occL f.args) m.subst m.mt hsub h2.q
  refine ⟨r, ?_, h4, h5, fun τ hτ => ?_⟩
  · simp only [single, exec_le (strict_agree _) _ _ _ h1, compute_le (strict_agree _) h3]
  · have hb : AUBase ar (addUnif true (n + 3)) := fun t1 t2 s r a1 a2 hk ha h =>
      ⟨(addUnif_spec.{0} ar true _ t1 t2 s r a1 a2 hk ha h).solved.1, (addUnif_spec.{0} ar true _ t1 t2 s r a1 a2 hk ha h).ar⟩
    have hs : AUSound.{0} ar (addUnif true (n + 3)) := fun t1 t2 s r a1 a2 hk ha h =>
      (addUnif_spec.{0} ar true _ t1 t2 s r a1 a2 hk ha h).snd rfl
    obtain ⟨e1, e2⟩ := exec_code hb haf haq h1
    obtain ⟨c1, _, c3, _⟩ := compute_spec.{0} hb e2.inv.arS e2.inv.keys e2.inv.arM h3
    obtain ⟨d1, d2, d3⟩ := e2.snd hs termAlg
    obtain ⟨x1, x2⟩ := c3 rfl hs termAlg (d2 (fun p hp => by cases hp)) τ hτ
    exact (d3 τ x1 x2).2

/-! ### The search -/

theorem exec_code_other {au : AU} {f q : Atom} (hp : f.p ≠ q.p) : exec au f.code { terms := [q.term] } = .fail := by
  have hcur : ({ terms := [q.term] } : M).terms[({ terms := [q.term] } : M).q]? = some (.fn q.p q.args) := rfl
  have hp' : ¬ q.p = f.p := fun h => hp h.symm
  by_cases he : f.args.isEmpty = true
  · simp only [Atom.code, he, if_true, exec]
    rw [step_begin_fn hcur, Res.ok_bind, step_check_fn (by rfl) (by exact hcur), if_neg hp']; rfl
  · have hne : f.args.isEmpty = false := by simpa using he
    simp only [Atom.code, hne, Bool.false_eq_true, if_false, exec]
    rw [step_begin_fn hcur, Res.ok_bind, step_check_fn (by rfl) (by exact hcur), if_neg hp']; rfl

/-- If every stored sequence fails or gives an answer, the search ends. -/
theorem search_answers {au : AU} {n : Nat} (t : Node Instr Atom) (hw : t.WF) : ∀ m : M, (∀ p ∈ t.paths, exec au p.1 m = .fail ∨
    ∃ r, single au n m p = [(p.2, r)]) → ∃ out, Search au n t m out := by
  induction t using Node.ind with
  | h v ch fs ih =>
    intro m h
    obtain ⟨-, hch, -, hfs⟩ := Node.WF_iff.1 hw
    obtain ⟨s, f, hs, x, hx⟩ := hw.exists_path
    simp only [Node.value] at hx
    subst hx
    cases hv : exec au v m with
    | fail => exact ⟨[], .fail hv⟩
    | panic => rcases h _ hs with h | ⟨r, h⟩ <;> simp [single, exec_append, hv, Res.bind] at h
    | out => rcases h _ hs with h | ⟨r, h⟩ <;> simp [single, exec_append, hv, Res.bind] at h
    | ok m1 =>
      have hsub : ∀ c ∈ ch, ∃ out, Search au n c m1 out := by
        intro c hc
        refine ih c hc (hch c hc) m1 fun p hp => ?_
        have := h (v ++ p.1, p.2) (Node.mem_paths.2 (Or.inr ⟨c, hc, p.1, hp, rfl⟩))
        rw [single_append hv] at this
        simpa [exec_append, hv, Res.bind] using this
      have houts : ∃ outs : List (List (Atom × Subst)), outs.length = ch.length ∧
          ∀ i (h1 : i < ch.length) (h2 : i < outs.length), Search au n ch[i] m1 outs[i] := by
        refine ⟨ch.attach.map fun c => (hsub c.1 c.2).choose, by simp, fun i h1 h2 => ?_⟩
        simp only [List.getElem_map, List.getElem_attach]
        exact (hsub ch[i] (List.getElem_mem h1)).choose_spec
      obtain ⟨outs, hl, ho⟩ := houts
      have hleaf : ∀ fs' : List Atom, (∀ f ∈ fs', f ∈ fs) → ∃ own, leafResults au n m1 fs' = some own := by
        intro fs' hsub
        induction fs' with
        | nil => exact ⟨[], rfl⟩
        | cons f fs' ih' =>
          obtain ⟨own, hown⟩ := ih' fun g hg => hsub g (by simp [hg])
          have hp : (v, f) ∈ (Node.mk v ch fs).paths := Node.mem_paths.2 (Or.inl ⟨rfl, hsub f (by simp)⟩)
          rcases h _ hp with h | ⟨r, h⟩
          · simp [hv] at h
          · have : (f, r) ∈ single au n m (v, f) := by rw [h]; simp
            obtain ⟨-, m', h1, h2⟩ := mem_single.1 this
            rw [hv] at h1
            cases h1
            refine ⟨(f, r) :: own, ?_⟩
            simp only at h2
            simp only [leafResults, h2, hown, Option.map_some]
      obtain ⟨own, hown⟩ := hleaf fs fun _ h => h
      exact ⟨_, .ok hv hown hl ho (List.Perm.refl _)⟩

theorem single_other {au : AU} {n : Nat} {f q : Atom} (hp : f.p ≠ q.p) : single au n { terms := [q.term] } (f.code, f) = [] := by
  simp only [single, exec_code_other hp]

/-- The search answers each stored formula with the symbol of the query, once, if each such formula gives an answer on its own. -/
theorem search_symbol {au : AU} {n : Nat} {batches : List (List Atom)} {q : Atom} {P : Atom → Subst → Prop}
    (hs : ∀ f ∈ batches.flatten, f.p = q.p → ∃ r, single au n { terms := [q.term] } (f.code, f) = [(f, r)] ∧ P f r) {t : Node Instr Atom}
    (ht : batches.foldlM (fun n l => n.addAtoms l) Node.empty = some t) :
    (∃ out, Search au n t { terms := [q.term] } out) ∧
    ∀ out : List (Atom × Subst), out.Perm (batches.flatten.dedup.flatMap fun f => single au n { terms := [q.term] } (f.code, f)) →
      (out.map (·.1)).Perm (batches.flatten.dedup.filter fun f => decide (f.p = q.p)) ∧ ∀ x ∈ out, P x.1 x.2 := by
  refine ⟨?_, fun out h => ⟨?_, fun x hx => ?_⟩⟩
  · obtain ⟨t', ht', h2, h3⟩ := index_built batches
    rw [ht] at ht'
    obtain rfl := Option.some.inj ht'
    rcases h2 with rfl | h2
    · exact ⟨[] ++ ([] : List (List (Atom × Subst))).flatten, .ok rfl rfl rfl (by simp) (List.Perm.refl _)⟩
    · refine search_answers t h2 { terms := [q.term] } fun p hp => ?_
      obtain ⟨e1, e2⟩ := (h3 p.1 p.2).1 hp
      obtain ⟨p1, p2⟩ := p
      simp only at e1 e2
      subst e1
      by_cases hq : p2.p = q.p
      · obtain ⟨r, hr, _⟩ := hs p2 e2 hq
        exact Or.inr ⟨r, hr⟩
      · exact Or.inl (exec_code_other hq)
  · refine (h.map _).trans ?_
    have : ∀ l : List Atom, (∀ f ∈ l, f ∈ batches.flatten) →
        (l.flatMap fun f => single au n { terms := [q.term] } (f.code, f)).map (·.1) = l.filter fun f => decide (f.p = q.p) := by
      intro l hl
      induction l with
      | nil => rfl
      | cons f l ih =>
        rw [List.flatMap_cons, List.map_append, ih fun g hg => hl g (by simp [hg])]
        by_cases hq : f.p = q.p
        · obtain ⟨r, hr, _⟩ := hs f (hl f (by simp)) hq
          rw [hr, List.filter_cons_of_pos (by simpa using hq)]
          rfl
        · rw [single_other hq, List.filter_cons_of_neg (by simpa using hq)]
          rfl
    rw [this _ fun f hf => List.mem_dedup.1 hf]
  · have := h.mem_iff.1 hx
    simp only [List.mem_flatMap, List.mem_dedup] at this
    obtain ⟨f, hf, hx⟩ := this
    by_cases hq : f.p = q.p
    · obtain ⟨r, hr, hP⟩ := hs f hf hq
      rw [hr, List.mem_singleton] at hx
      subst hx
      exact hP
    · rw [single_other hq] at hx; cases hx

end Verif.Unif
