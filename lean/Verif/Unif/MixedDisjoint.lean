import Verif.Unif.MixedMono
/-!
# C103: substitutions for different metavariables

With polymorphic symbols too, substitutions that bind different metavariables to values without metavariables are merged to their union: no terms are
unified. If the values have metavariables, the type arguments keep those that the result binds.
-/

namespace Verif.Unif.Mixed
open Verif.Unif

/-- Distinct keys, and no metavariables among the arguments of the values. -/
def Flat (s : PSub) : Prop := (s.map (·.1)).Nodup ∧ ∀ p ∈ s, p.2.occ = []

theorem isFn_of_occ {t : PT} (h : t.occ = []) : ∃ p tys l, t = .fn p tys l := by
  cases t with
  | mv i => simp [PT.occ] at h
  | fn p tys l => exact ⟨p, tys, l, rfl⟩

theorem subL_closed {l : List PT} (ih : ∀ a ∈ l, a.occ = [] → ∀ k v, a.sub k v = a) (h : PT.occL l = []) (k : Nat) (v : PT) : PT.subL l k v = l := by
  induction l with
  | nil => rfl
  | cons a l ihl =>
    simp only [PT.occL, List.append_eq_nil_iff] at h
    simp only [PT.subL]
    rw [ih a (by simp) h.1, ihl (fun b hb => ih b (by simp [hb])) h.2]

theorem sub_closed (t : PT) : t.occ = [] → ∀ k v, t.sub k v = t := by
  induction t using PT.ind with
  | mv i => intro h; simp [PT.occ] at h
  | fn p tys args ih =>
    intro h k v
    simp only [PT.sub]
    rw [subL_closed ih (by simpa [PT.occ] using h)]

theorem set_new {s : PSub} {k : Nat} (v : PT) (h : k ∉ s.map (·.1)) : s.set k v = s ++ [(k, v)] := by
  have : s.has k = false := by
    rw [PSub.has, List.any_eq_false]
    intro p hp e
    exact h (List.mem_map.2 ⟨p, hp, by simpa using e⟩)
  simp [PSub.set, this]

theorem new_key {a b : PSub} {k : Nat} {v : PT} (h : ((a ++ (k, v) :: b).map (·.1)).Nodup) : k ∉ a.map (·.1) := by
  intro hk
  rw [List.map_append, List.nodup_append] at h
  exact h.2.2 k hk k (by simp) rfl

theorem elimPass_flat (key : Nat) (value : PT) (s tmp : PSub) (ch : Bool) (hnd : ((tmp ++ s).map (·.1)).Nodup) (h : ∀ p ∈ s, p.2.occ = []) :
    elimPass key value s (tmp, ch) = .ok (tmp ++ s, ch) := by
  induction s generalizing tmp ch with
  | nil => simp [elimPass]
  | cons p s ih =>
    obtain ⟨k, v⟩ := p
    have hv : v.occ = [] := h (k, v) (by simp)
    have e : tmp.set k v ++ s = tmp ++ (k, v) :: s := by rw [set_new v (new_key hnd)]; simp
    have go : elimPass key value s (tmp.set k v, ch) = .ok (tmp ++ (k, v) :: s, ch) := by
      rw [ih _ _ (by rw [e]; exact hnd) fun p hp => h p (by simp [hp]), e]
    obtain ⟨p, tys, l, rfl⟩ := isFn_of_occ hv
    have hs : (PT.fn p tys l).sub key value = .fn p tys l := sub_closed _ hv _ _
    have ho : occurValid k (PT.fn p tys l) = true := by simp [occurValid, hv]
    have hc : (PT.fn p tys l).occ.contains key = false := by rw [hv]; rfl
    simp only [elimPass]
    rw [hs, if_pos ho, hc, Bool.or_false]
    exact go

theorem elimRound_flat (n : Nat) (ts s : PSub) (ch : Bool) (hts : ∀ p ∈ ts, p.2.occ = []) (h : Flat s) :
    elimRound (n + 1) ts (s, ch) = .ok (s, ch) := by
  induction ts with
  | nil => rfl
  | cons p ts ih =>
    obtain ⟨k, v⟩ := p
    have ho : occurValid k v = true := by simp [occurValid, hts (k, v) (by simp)]
    simp only [elimRound, if_pos ho, elimInside]
    rw [elimPass_flat k v s [] false (by simpa using h.1) h.2]
    simp only [Res.bind, List.nil_append, Bool.false_eq_true, if_false]
    exact ih fun p hp => hts p (by simp [hp])

theorem elimMetaLoop_flat (s rest acc : PSub) (hnd : ((acc ++ rest).map (·.1)).Nodup) (h : ∀ p ∈ rest, p.2.occ = []) :
    elimMetaLoop s rest acc = acc ++ rest := by
  induction rest generalizing acc with
  | nil => simp [elimMetaLoop]
  | cons p rest ih =>
    obtain ⟨k, v⟩ := p
    have e : acc.set k v ++ rest = acc ++ (k, v) :: rest := by rw [set_new v (new_key hnd)]; simp
    obtain ⟨p, tys, l, rfl⟩ := isFn_of_occ (h (k, v) (by simp))
    simp only [elimMetaLoop]
    rw [ih _ (by rw [e]; exact hnd) fun p hp => h p (by simp [hp]), e]

theorem elimBoth_flat (n : Nat) {s : PSub} (h : Flat s) : elimBoth (n + 1) s = .ok s := by
  have e : elimMeta s = s := by
    unfold elimMeta
    rw [elimMetaLoop_flat s s [] (by simpa using h.1) h.2, List.nil_append]
  simp only [elimBoth, e, eliminate, elimRound_flat (n + 1) s s false h.2 h, Res.bind]
  simp

theorem foldl_set (s acc : PSub) (h : ((acc ++ s).map (·.1)).Nodup) : s.foldl (fun r p => r.set p.1 p.2) acc = acc ++ s := by
  induction s generalizing acc with
  | nil => simp
  | cons p s ih =>
    obtain ⟨k, v⟩ := p
    have e : acc.set k v ++ s = acc ++ (k, v) :: s := by rw [set_new v (new_key h)]; simp
    rw [List.foldl_cons, ih _ (by rw [e]; exact h), e]

theorem mergeLoop_flat (au : AU) (n : Nat) (s acc : PSub) (h : Flat (acc ++ s)) : mergeLoop au (n + 1) s acc = .ok (acc ++ s) := by
  induction s generalizing acc with
  | nil => simp [mergeLoop]
  | cons p s ih =>
    obtain ⟨k, v⟩ := p
    have hk := new_key h.1
    have hh : acc.has k = false := by
      rw [PSub.has, List.any_eq_false]
      intro p hp e
      exact hk (List.mem_map.2 ⟨p, hp, by simpa using e⟩)
    have e : acc ++ [(k, v)] ++ s = acc ++ (k, v) :: s := by simp
    have hf : Flat (acc ++ [(k, v)]) := by
      rw [← e] at h
      refine ⟨?_, fun p hp => h.2 p (List.mem_append_left _ hp)⟩
      have := h.1
      rw [List.map_append, List.nodup_append] at this
      exact this.1
    simp only [mergeLoop, hh, Bool.false_eq_true, if_false]
    rw [set_new v hk, elimBoth_flat n hf]
    simp only [Res.bind]
    rw [ih _ (by rw [e]; exact h), e]

theorem merge_flat (au : AU) (n : Nat) (s1 s2 : PSub) (h : Flat (s1 ++ s2)) : merge au (n + 1) s1 s2 = .ok (s1 ++ s2) := by
  unfold merge
  split
  · next h1 => simp [List.isEmpty_iff.1 h1]
  · split
    · next h2 => simp [List.isEmpty_iff.1 h2]
    · have : ((([] : PSub) ++ s1).map (·.1)).Nodup := by
        have := h.1
        rw [List.map_append, List.nodup_append] at this
        simpa using this.1
      rw [foldl_set s1 [] this, List.nil_append]
      exact mergeLoop_flat au n s2 s1 h

/-! ### Mixed substitutions -/

variable {pi : Nat → Nat} {isTy : Nat → Bool}

/-- Types are bound to metavariables for types, terms to the others. -/
def Sorted (isTy : Nat → Bool) (s : List Mix) : Prop := ∀ b ∈ s, match b with
  | .ty k _ => isTy k = true
  | .tm k _ => isTy k = false

theorem occL_valL {l : List PT} (ih : ∀ a ∈ l, a.val.occ = [] → a.occ = []) (h : UT.occL (PT.valL l) = []) : PT.occL l = [] := by
  induction l with
  | nil => rfl
  | cons a l ihl =>
    simp only [PT.valL, UT.occL, List.append_eq_nil_iff] at h
    simp only [PT.occL, ih a (by simp) h.1, ihl (fun b hb => ih b (by simp [hb])) h.2, List.append_nil]

theorem occL_append_nil {l m : List UT} (h : UT.occL (l ++ m) = []) : UT.occL m = [] := by
  induction l with
  | nil => exact h
  | cons a l ih => exact ih (by simp only [List.cons_append, UT.occL, List.append_eq_nil_iff] at h; exact h.2)

theorem occ_of_val (t : PT) : t.val.occ = [] → t.occ = [] := by
  induction t using PT.ind with
  | mv i => intro h; simp [PT.val, UT.occ] at h
  | fn p tys args ih =>
    intro h
    simp only [PT.val, UT.occ] at h
    simp only [PT.occ]
    exact occL_valL ih (occL_append_nil h)

theorem mapM_fromSub : ∀ s : List Mix, TypedS pi s → Sorted isTy s → (s.map Mix.toSub).mapM (fromSub pi isTy) = some s
  | [], _, _ => rfl
  | b :: s, h, hs => by
    have hb : fromSub pi isTy b.toSub = some b := by
      have := hs b (by simp)
      cases b with
      | ty k v => simp only at this; simp [fromSub, Mix.toSub, this, toTy_emb]
      | tm k v => simp only at this; simp [fromSub, Mix.toSub, this, dec_typed v (h k v (by simp))]
    simp [hb, mapM_fromSub s (fun k v hv => h k v (by simp [hv])) fun b hb => hs b (by simp [hb])]

/-- **C103 for different metavariables**: with polymorphic symbols too, substitutions that bind different metavariables to values without metavariables are
merged to their union; so what satisfies the result is what satisfies both. -/
theorem C103_disjoint {s1 s2 : List Mix} (h1 : TypedS pi s1) (h2 : TypedS pi s2) (t1 : Sorted isTy s1) (t2 : Sorted isTy s2) (c1 : Closed s1)
    (c2 : Closed s2) (k : ((s1 ++ s2).map (·.binding.1)).Nodup) :
    ∃ r, MergesMixed pi isTy s1 s2 (.ok r) ∧ ∀ σ, Sat σ r ↔ Sat σ s1 ∧ Sat σ s2 := by
  have hkey : ∀ b : Mix, b.toSub.1 = b.binding.1 := fun b => by cases b <;> rfl
  have hf : Flat (s1.map Mix.toSub ++ s2.map Mix.toSub) := by
    rw [← List.map_append]
    refine ⟨?_, fun p hp => ?_⟩
    · rw [List.map_map]
      exact (List.map_congr_left (fun b _ => hkey b) : (s1 ++ s2).map ((·.1) ∘ Mix.toSub) = _) ▸ k
    · obtain ⟨b, hb, rfl⟩ := List.mem_map.1 hp
      have hc : b.binding.2.occ = [] := (List.mem_append.1 hb).elim (c1 b) (c2 b)
      cases b with
      | ty k v => exact occ_of_val _ ((congrArg UT.occ (val_emb v)).trans hc)
      | tm k v => exact occ_of_val _ hc
  refine ⟨s1 ++ s2, ⟨by simp, 1, ?_⟩, fun σ => ?_⟩
  · simp only [mergeMixed]
    rw [merge_flat (addUnif 1) 0 _ _ hf, ← List.map_append]
    simp only [Res.bind]
    rw [mapM_fromSub (s1 ++ s2) (fun k v hv => (List.mem_append.1 hv).elim (h1 k v) (h2 k v))
      fun b hb => (List.mem_append.1 hb).elim (t1 b) (t2 b)]
  · simp only [Sat, List.mem_append]
    exact ⟨fun h => ⟨fun b hb => h b (.inl hb), fun b hb => h b (.inr hb)⟩, fun h b hb => hb.elim (h.1 b) (h.2 b)⟩

/-- The hypotheses are met: `X ↦ c<A>`, `T ↦ A` and `Y ↦ f<B>(a)`. -/
example : ∃ r, MergesMixed Ex.arity (fun i => i == 5) [.tm 0 (Ex.c Ex.A), .ty 5 Ex.A] [.tm 1 (Ex.f Ex.B Ex.a)] (.ok r) ∧
    ∀ σ, Sat σ r ↔ Sat σ [.tm 0 (Ex.c Ex.A), .ty 5 Ex.A] ∧ Sat σ [.tm 1 (Ex.f Ex.B Ex.a)] := by
  refine C103_disjoint ?_ ?_ ?_ ?_ ?_ ?_ (by decide)
  · intro k v hv; simp at hv; rw [hv.2]; simp [Typed, TypedL, Ex.c, Ex.arity]
  · intro k v hv; simp at hv; rw [hv.2]; simp [Typed, TypedL, Ex.f, Ex.a, Ex.arity]
  · intro b hb; simp at hb; rcases hb with rfl | rfl <;> rfl
  · intro b hb; simp at hb; subst hb; rfl
  · intro b hb; simp at hb; rcases hb with rfl | rfl <;> rfl
  · intro b hb; simp at hb; subst hb; rfl

/-- **The result is not solved**: `T ↦ A` and `X ↦ f<T>(a)` are merged, and the value of `X` still has `T`, which the result binds. -/
theorem C103_violated_unresolved : ∃ r, MergesMixed Ex.arity (fun i => i == 5) [.ty 5 Ex.A] [.tm 0 (Ex.f (.mv 5) Ex.a)] (.ok r) ∧
    ∃ b ∈ r, ∃ b' ∈ r, b'.binding.1 ∈ b.binding.2.occ :=
  ⟨[.ty 5 Ex.A, .tm 0 (Ex.f (.mv 5) Ex.a)], ⟨by simp, 9, by rfl⟩, .tm 0 (Ex.f (.mv 5) Ex.a), by simp, .ty 5 Ex.A, by simp, by decide⟩

/-! ### Values with metavariables -/

/-- Without polymorphic symbols the result is most general: it is satisfied by every instantiation that satisfies both. -/
theorem C103_general (hp : ∀ p, pi p = 0) {ar : Nat → Nat} {s1 s2 r : List Mix} (h1 : TypedS pi s1) (h2 : TypedS pi s2) (a1 : (plain s1).Ar ar)
    (a2 : (plain s2).Ar ar) (k1 : ((plain s1).map (·.1)).Nodup) (k2 : ((plain s2).map (·.1)).Nodup) (h : MergesMixed pi isTy s1 s2 (.ok r))
    (σ : Nat → UT) (g1 : Sat σ s1) (g2 : Sat σ s2) : Sat σ r := by
  obtain ⟨r', hm, rfl⟩ := (C103_mono hp h1 h2 r).1 h
  have : plain (r'.map (back isTy)) = r' := by
    simp only [plain, List.map_map]
    exact (List.map_congr_left fun b _ => binding_back b).trans (List.map_id _)
  rw [sat_iff, this]
  exact C28_merge_general a1 a2 k1 k2 hm σ (sat_iff.1 g1) (sat_iff.1 g2)

/-- The hypotheses are met: `X ↦ g(Y)` and `Y ↦ a`, where the instantiation that takes `X` to `g(a)` satisfies the result. -/
example : Sat (fun i => if i = 0 then .fn 4 [.fn 3 []] else .fn 3 []) [.tm 0 (.fn 4 [] [.fn 3 [] []]), .tm 1 Ex.a] := by
  refine C103_general (pi := fun _ => 0) (isTy := fun _ => false) (fun _ => rfl) (ar := fun p => if p = 4 then 1 else 0)
    (s1 := [.tm 0 (.fn 4 [] [.mv 1])]) (s2 := [.tm 1 Ex.a]) ?_ ?_ ?_ ?_ (by decide) (by decide) ⟨by simp, 9, by rfl⟩ _ ?_ ?_
  · intro k v hv; simp at hv; rw [hv.2]; simp [Typed, TypedL]
  · intro k v hv; simp at hv; rw [hv.2]; simp [Typed, TypedL, Ex.a]
  · intro b hb; simp [plain, Mix.binding] at hb; subst hb; simp [PT.val, PT.valL, UT.Ar, UT.ArL]
  · intro b hb; simp [plain, Mix.binding] at hb; subst hb; simp [Ex.a, PT.val, PT.valL, UT.Ar, UT.ArL]
  · intro b hb; simp at hb; subst hb; rfl
  · intro b hb; simp at hb; subst hb; rfl

end Verif.Unif.Mixed
