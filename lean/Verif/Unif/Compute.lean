import Verif.Unif.Exec
/-!
# From the run of the machine to the result of `AddUnification`
-/

namespace Verif.Unif

universe u

theorem Subst.Sol_set {D : Type u} {A : Alg D} {σ : Nat → D} {s : Subst} {k : Nat} {v : UT}
    (h : Subst.Sol A σ s) (hv : σ k = v.eval A σ) : Subst.Sol A σ (s.set k v) := by
  intro p hp
  rcases Subst.mem_set hp with hp | rfl
  · exact h p hp
  · exact hv

theorem Subst.Sol_of_set {D : Type u} {A : Alg D} {σ : Nat → D} {s : Subst} {k : Nat} {v : UT}
    (h : Subst.Sol A σ (s.set k v)) : Subst.Sol A σ s := fun p hp => h p (Subst.mem_set_left hp)

/-- `Set` of a key that is absent, or present with the same value, records the binding. -/
theorem Subst.mem_set_self {s : Subst} {k : Nat} {v : UT} (h : s.has k = true → s.get k = some v) :
    (k, v) ∈ s.set k v := by
  by_cases hk : k ∈ s.keys
  · rw [Subst.set_has v hk]
    exact Subst.get_mem (h (Subst.has_iff.2 hk))
  · rw [Subst.set_new v hk]; simp

/-! ### `computeSubstitutions` -/

theorem computeLoop_base {ar : Nat → Nat} {au : AU} (hb : AUBase ar au) {strict : Bool} {metas : List Nat}
    (subs : List (Nat × UT)) (done : List Nat) (T E : Subst) (r : Subst × Subst)
    (hS : ∀ p ∈ subs, p.2.Ar ar) (hT : T.keys.Nodup) (hE : E.keys.Nodup) (aT : T.Ar ar) (aE : E.Ar ar)
    (h : computeLoop strict au metas subs done T E = .ok r) :
    r.1.keys.Nodup ∧ r.2.keys.Nodup ∧ r.1.Ar ar ∧ r.2.Ar ar := by
  induction subs generalizing done T E with
  | nil => simp only [computeLoop, Res.ok.injEq] at h; subst h; exact ⟨hT, hE, aT, aE⟩
  | cons p rest ih =>
    obtain ⟨i, u⟩ := p
    have hu : u.Ar ar := hS (i, u) (by simp)
    have ih := fun d T E => ih d T E (fun p hp => hS p (List.mem_cons_of_mem _ hp))
    simp only [computeLoop] at h
    split at h
    · cases h
    · rename_i m hm
      split at h
      · exact ih _ _ _ hT hE aT aE h
      · split at h
        · cases h
        · have h1 := Subst.nodup_set hT m u
          have h2 := Subst.Ar_set aT (k := m) hu
          split at h
          · exact ih _ _ _ h1 hE h2 aE h
          · rename_i v hv
            split at h
            · exact ih _ _ _ h1 hE h2 aE h
            · rw [Res.bind_ok] at h
              obtain ⟨T', h3, h⟩ := h
              obtain ⟨b1, b2⟩ := hb _ _ _ _ hu (aE _ (Subst.get_mem hv)) h1 h2 h3
              obtain ⟨c1, c2⟩ := Subst.removeKey_spec hE m
              exact ih _ _ _ b1 c1 b2 (fun p hp => aE p ((c2 p).1 hp).1) h

theorem computeLoop_gen {ar : Nat → Nat} {au : AU} (hb : AUBase ar au) (hg : AUGen.{u} ar au) {strict : Bool}
    {metas : List Nat} (subs : List (Nat × UT)) (done : List Nat) (T E : Subst) (r : Subst × Subst)
    (hS : ∀ p ∈ subs, p.2.Ar ar) (hT : T.keys.Nodup) (hE : E.keys.Nodup) (aT : T.Ar ar) (aE : E.Ar ar)
    (h : computeLoop strict au metas subs done T E = .ok r) {D : Type u} {A : Alg D} (hA : A.Free) {σ : Nat → D}
    (sT : Subst.Sol A σ T) (sE : Subst.Sol A σ E) (hent : Ent A σ metas subs) :
    Subst.Sol A σ r.1 ∧ Subst.Sol A σ r.2 := by
  induction subs generalizing done T E with
  | nil => simp only [computeLoop, Res.ok.injEq] at h; subst h; exact ⟨sT, sE⟩
  | cons p rest ih =>
    obtain ⟨i, u⟩ := p
    have hu : u.Ar ar := hS (i, u) (by simp)
    have ih := fun d T E => ih d T E (fun p hp => hS p (List.mem_cons_of_mem _ hp))
    have hent' : Ent A σ metas rest := fun p hp => hent p (List.mem_cons_of_mem _ hp)
    simp only [computeLoop] at h
    split at h
    · cases h
    · rename_i m hm
      have hmu : σ m = u.eval A σ := hent (i, u) (by simp) m hm
      split at h
      · exact ih _ _ _ hT hE aT aE h sT sE hent'
      · split at h
        · cases h
        · have h1 := Subst.nodup_set hT m u
          have h2 := Subst.Ar_set aT (k := m) hu
          have s1 := Subst.Sol_set sT hmu
          split at h
          · exact ih _ _ _ h1 hE h2 aE h s1 sE hent'
          · rename_i v hv
            split at h
            · exact ih _ _ _ h1 hE h2 aE h s1 sE hent'
            · rw [Res.bind_ok] at h
              obtain ⟨T', h3, h⟩ := h
              have arv := aE _ (Subst.get_mem hv)
              obtain ⟨b1, b2⟩ := hb _ _ _ _ hu arv h1 h2 h3
              obtain ⟨c1, c2⟩ := Subst.removeKey_spec hE m
              refine ih _ _ _ b1 c1 b2 (fun p hp => aE p ((c2 p).1 hp).1) h ?_ (fun p hp => sE p ((c2 p).1 hp).1) hent'
              refine hg _ _ _ _ hu arv h1 h2 h3 A hA σ s1 ?_
              rw [← hmu]
              exact sE _ (Subst.get_mem hv)

/-- `all` are all recorded pairs, `E0` the bindings at the start of the loop. -/
theorem computeLoop_sound {ar : Nat → Nat} {au : AU} (hb : AUBase ar au) (hs : AUSound.{u} ar au)
    {metas : List Nat} {all : List (Nat × UT)} {E0 : Subst} {D : Type u} {A : Alg D}
    (hcompat : ∀ p ∈ all, ∀ p' ∈ all, ∀ k, metas[p.1]? = some k → metas[p'.1]? = some k →
      ∀ σ : Nat → D, Subst.Sol A σ E0 → p.2.eval A σ = p'.2.eval A σ)
    (subs : List (Nat × UT)) (done : List Nat) (T E : Subst) (r : Subst × Subst)
    (hsub : ∀ p ∈ subs, p ∈ all) (hS : ∀ p ∈ subs, p.2.Ar ar)
    (hT : T.keys.Nodup) (hE : E.keys.Nodup) (aT : T.Ar ar) (aE : E.Ar ar)
    (h0 : ∀ σ, Subst.Sol A σ T → Subst.Sol A σ E → Subst.Sol A σ E0)
    (hdone : ∀ m ∈ done, ∃ p ∈ all, metas[p.1]? = some m ∧
      ∀ σ, Subst.Sol A σ T → Subst.Sol A σ E → σ m = p.2.eval A σ)
    (hdoneE : ∀ m ∈ done, ∀ v, (m, v) ∈ E → ∀ σ, Subst.Sol A σ T → σ m = v.eval A σ)
    (h : computeLoop true au metas subs done T E = .ok r) (σ : Nat → D)
    (sT : Subst.Sol A σ r.1) (sE : Subst.Sol A σ r.2) :
    Subst.Sol A σ T ∧ Subst.Sol A σ E ∧ Ent A σ metas subs := by
  induction subs generalizing done T E with
  | nil =>
    simp only [computeLoop, Res.ok.injEq] at h
    subst h
    exact ⟨sT, sE, fun p hp => by cases hp⟩
  | cons p rest ih =>
    obtain ⟨i, u⟩ := p
    have hall : (i, u) ∈ all := hsub (i, u) (by simp)
    have hu : u.Ar ar := hS (i, u) (by simp)
    have ih := fun d T E => ih d T E (fun p hp => hsub p (List.mem_cons_of_mem _ hp)) (fun p hp => hS p (List.mem_cons_of_mem _ hp))
    simp only [computeLoop] at h
    split at h
    · cases h
    · rename_i m hm
      have ent : ∀ σ : Nat → D, σ m = u.eval A σ → Ent A σ metas rest → Ent A σ metas ((i, u) :: rest) := by
        intro σ h1 h2 p hp k hk
        rcases List.mem_cons.1 hp with rfl | hp
        · rw [hm] at hk; rw [← Option.some.inj hk]; exact h1
        · exact h2 p hp k hk
      split at h
      · rename_i hmu
        obtain ⟨a, b, c⟩ := ih _ _ _ hT hE aT aE h0 hdone hdoneE h
        exact ⟨a, b, ent σ (by rw [← hmu]; rfl) c⟩
      · split at h
        · cases h
        · rename_i hstrict
          -- the value of `m` is recorded, or was treated before
          have hm' : ((m, u) ∈ T.set m u) ∨ m ∈ done := by
            by_cases hd : m ∈ done
            · exact Or.inr hd
            · refine Or.inl (Subst.mem_set_self fun hh => ?_)
              simpa [hh, hd] using hstrict
          have h1 := Subst.nodup_set hT m u
          have h2 := Subst.Ar_set aT (k := m) hu
          have key : ∀ σ, Subst.Sol A σ (T.set m u) → Subst.Sol A σ E → σ m = u.eval A σ := by
            intro σ g1 g2
            rcases hm' with hm' | hm'
            · exact g1 _ hm'
            · obtain ⟨p, hp, hpk, hpe⟩ := hdone m hm'
              rw [hpe σ (Subst.Sol_of_set g1) g2]
              exact hcompat p hp (i, u) hall m hpk hm σ (h0 σ (Subst.Sol_of_set g1) g2)
          -- the branches in which the bindings `E` stay
          have stay : ((∀ v, (m, v) ∈ E → u = v)) →
              computeLoop true au metas rest (m :: done) (T.set m u) E = .ok r →
              Subst.Sol A σ T ∧ Subst.Sol A σ E ∧ Ent A σ metas ((i, u) :: rest) := by
            intro hv h
            obtain ⟨a, b, c⟩ := ih (m :: done) _ _ h1 hE h2 aE (fun σ g1 g2 => h0 σ (Subst.Sol_of_set g1) g2)
              (by
                intro k hk
                rcases List.mem_cons.1 hk with rfl | hk
                · exact ⟨(i, u), hall, hm, key⟩
                · obtain ⟨p, hp, hpk, hpe⟩ := hdone k hk
                  exact ⟨p, hp, hpk, fun σ g1 g2 => hpe σ (Subst.Sol_of_set g1) g2⟩)
              (by
                intro k hk v hkv σ g
                rcases List.mem_cons.1 hk with rfl | hk
                · rcases hm' with hm' | hm'
                  · rw [← hv v hkv]; exact g _ hm'
                  · exact hdoneE _ hm' v hkv σ (Subst.Sol_of_set g)
                · exact hdoneE k hk v hkv σ (Subst.Sol_of_set g)) h
            exact ⟨Subst.Sol_of_set a, b, ent σ (key σ a b) c⟩
          split at h
          · rename_i hg
            refine stay (fun v hv => ?_) h
            rw [Subst.get_of_mem hE hv] at hg; cases hg
          · rename_i v hv
            split at h
            · rename_i huv
              refine stay (fun w hw => ?_) h
              rw [Subst.get_of_mem hE hw] at hv
              rw [huv, Option.some.inj hv]
            · rw [Res.bind_ok] at h
              obtain ⟨T', h3, h⟩ := h
              have hmv := Subst.get_mem hv
              have arv := aE _ hmv
              obtain ⟨b1, b2⟩ := hb _ _ _ _ hu arv h1 h2 h3
              obtain ⟨c1, c2⟩ := Subst.removeKey_spec hE m
              have snd := fun σ => hs _ _ _ _ hu arv h1 h2 h3 A σ
              -- the removed binding is implied
              have hmv' : ∀ σ, Subst.Sol A σ T' → σ m = v.eval A σ := by
                intro σ g
                obtain ⟨g1, g2⟩ := snd σ g
                rcases hm' with hm' | hm'
                · rw [← g2]; exact g1 _ hm'
                · exact hdoneE _ hm' v hmv σ (Subst.Sol_of_set g1)
              have back : ∀ σ, Subst.Sol A σ T' → Subst.Sol A σ (E.removeKey m) → Subst.Sol A σ E := by
                intro σ g1 g2 p hp
                by_cases hpm : p.1 = m
                · obtain ⟨k, w⟩ := p
                  simp only at hpm
                  subst hpm
                  rw [Subst.mem_unique hE hp hmv]
                  exact hmv' σ g1
                · exact g2 p ((c2 p).2 ⟨hp, hpm⟩)
              obtain ⟨a, b, c⟩ := ih (m :: done) _ _ b1 c1 b2 (fun p hp => aE p ((c2 p).1 hp).1)
                (fun σ g1 g2 => h0 σ (Subst.Sol_of_set (snd σ g1).1) (back σ g1 g2))
                (by
                  intro k hk
                  rcases List.mem_cons.1 hk with rfl | hk
                  · exact ⟨(i, u), hall, hm, fun σ g1 g2 => key σ (snd σ g1).1 (back σ g1 g2)⟩
                  · obtain ⟨p, hp, hpk, hpe⟩ := hdone k hk
                    exact ⟨p, hp, hpk, fun σ g1 g2 => hpe σ (Subst.Sol_of_set (snd σ g1).1) (back σ g1 g2)⟩)
                (by
                  intro k hk w hkw σ g
                  obtain ⟨d1, d2⟩ := (c2 _).1 hkw
                  rcases List.mem_cons.1 hk with rfl | hk
                  · exact absurd rfl d2
                  · exact hdoneE k hk w d1 σ (Subst.Sol_of_set (snd σ g).1)) h
              have b' := back σ a b
              have a' := (snd σ a).1
              exact ⟨Subst.Sol_of_set a', b', ent σ (key σ a' b') c⟩

/-! ### `MergeSubstitutions` -/

theorem foldl_set (s acc : Subst) (h : (acc ++ s).keys.Nodup) :
    s.foldl (fun r p => r.set p.1 p.2) acc = acc ++ s := by
  induction s generalizing acc with
  | nil => simp
  | cons p s ih =>
    obtain ⟨k, v⟩ := p
    simp only [List.foldl_cons]
    have hk : k ∉ Subst.keys acc := by
      intro hk
      rw [Subst.keys_append, List.nodup_append] at h
      exact h.2.2 k hk k (by simp [Subst.keys]) rfl
    rw [Subst.set_new v hk, ih _ (by simpa using h)]
    simp

theorem mergeLoop_spec {ar : Nat → Nat} {au : AU} (hb : AUBase ar au) (n : Nat) (rest res r : Subst)
    (hk : res.keys.Nodup) (ha : res.Ar ar) (har : rest.Ar ar) (h : mergeLoop au n rest res = .ok r) :
    r.keys.Nodup ∧ r.Ar ar ∧
    (AUSound.{u} ar au → ∀ {D : Type u} (A : Alg D) (σ : Nat → D), Subst.Sol A σ r →
      Subst.Sol A σ res ∧ Subst.Sol A σ rest) ∧
    (AUGen.{u} ar au → ∀ {D : Type u} (A : Alg D), A.Free → ∀ (σ : Nat → D), Subst.Sol A σ res →
      Subst.Sol A σ rest → Subst.Sol A σ r) := by
  induction rest generalizing res with
  | nil =>
    simp only [mergeLoop, Res.ok.injEq] at h
    subst h
    exact ⟨hk, ha, fun _ _ _ _ h => ⟨h, fun p hp => by cases hp⟩, fun _ _ _ _ _ h _ => h⟩
  | cons p rest ih =>
    obtain ⟨k, v⟩ := p
    have hv : v.Ar ar := har (k, v) (by simp)
    have ih := fun res h1 h2 => ih res h1 h2 (fun p hp => har p (List.mem_cons_of_mem _ hp))
    have cons : ∀ {D : Type u} {A : Alg D} {σ : Nat → D}, Subst.Sol A σ ((k, v) :: rest) ↔
        σ k = v.eval A σ ∧ Subst.Sol A σ rest := by
      intro D A σ
      simp [Subst.Sol]
    simp only [mergeLoop] at h
    split at h
    · rw [Res.bind_ok] at h
      obtain ⟨s, hs, h⟩ := h
      have hmv : (UT.mv k).Ar ar := by simp [UT.Ar]
      obtain ⟨b1, b2⟩ := hb _ _ _ _ hmv hv hk ha hs
      obtain ⟨c1, c2, c3, c4⟩ := ih _ b1 b2 h
      refine ⟨c1, c2, fun hS D A σ g => ?_, fun hG D A hA σ g1 g2 => ?_⟩
      · obtain ⟨d1, d2⟩ := c3 hS A σ g
        obtain ⟨e1, e2⟩ := hS _ _ _ _ hmv hv hk ha hs A σ d1
        exact ⟨e1, cons.2 ⟨e2, d2⟩⟩
      · obtain ⟨d1, d2⟩ := cons.1 g2
        exact c4 hG A hA σ (hG _ _ _ _ hmv hv hk ha hs A hA σ g1 d1) d2
    · rename_i hh
      have hkk : k ∉ res.keys := fun hc => hh (Subst.has_iff.2 hc)
      rw [Res.bind_ok] at h
      obtain ⟨s, hs, h⟩ := h
      obtain ⟨b1, b2, b3⟩ := elimBoth_spec.{u} (Subst.nodup_set hk k v) hs
      obtain ⟨c1, c2, c3, c4⟩ := ih _ b1.1 (b3 ar (Subst.Ar_set ha hv)) h
      refine ⟨c1, c2, fun hS D A σ g => ?_, fun hG D A hA σ g1 g2 => ?_⟩
      · obtain ⟨d1, d2⟩ := c3 hS A σ g
        have d1 := (b2 A σ).1 d1
        refine ⟨Subst.Sol_of_set d1, cons.2 ⟨d1 (k, v) ?_, d2⟩⟩
        rw [Subst.set_new v hkk]; simp
      · obtain ⟨d1, d2⟩ := cons.1 g2
        exact c4 hG A hA σ ((b2 A σ).2 (Subst.Sol_set g1 d1)) d2

theorem merge_spec {ar : Nat → Nat} {au : AU} (hb : AUBase ar au) (n : Nat) (s1 s2 r : Subst)
    (hk1 : s1.keys.Nodup) (hk2 : s2.keys.Nodup) (ha1 : s1.Ar ar) (ha2 : s2.Ar ar) (h : merge au n s1 s2 = .ok r) :
    r.keys.Nodup ∧ r.Ar ar ∧
    (AUSound.{u} ar au → ∀ {D : Type u} (A : Alg D) (σ : Nat → D), Subst.Sol A σ r →
      Subst.Sol A σ s1 ∧ Subst.Sol A σ s2) ∧
    (AUGen.{u} ar au → ∀ {D : Type u} (A : Alg D), A.Free → ∀ (σ : Nat → D), Subst.Sol A σ s1 →
      Subst.Sol A σ s2 → Subst.Sol A σ r) := by
  unfold merge at h
  split at h
  · rename_i he
    simp only [Res.ok.injEq] at h
    subst h
    have : s1 = [] := by simpa using he
    subst this
    exact ⟨hk2, ha2, fun _ _ _ _ h => ⟨fun p hp => (by cases hp), h⟩, fun _ _ _ _ _ _ h => h⟩
  · split at h
    · rename_i he
      simp only [Res.ok.injEq] at h
      subst h
      have : s2 = [] := by simpa using he
      subst this
      exact ⟨hk1, ha1, fun _ _ _ _ h => ⟨h, fun p hp => by cases hp⟩, fun _ _ _ _ _ h _ => h⟩
    · rw [foldl_set s1 [] (by simpa using hk1), List.nil_append] at h
      exact mergeLoop_spec hb n s2 s1 r hk1 ha1 ha2 h

/-! ### `AddUnification` -/

theorem compute_spec {ar : Nat → Nat} {au : AU} (hb : AUBase ar au) {strict : Bool} {n : Nat} {metas : List Nat}
    {subs : List (Nat × UT)} {E r : Subst} (hS : ∀ p ∈ subs, p.2.Ar ar) (hE : E.keys.Nodup) (aE : E.Ar ar)
    (h : compute strict au n metas subs E = .ok r) :
    r.Solved ∧ r.Ar ar ∧
    (strict = true → AUSound.{u} ar au → ∀ {D : Type u} (A : Alg D),
      (∀ p ∈ subs, ∀ p' ∈ subs, ∀ k, metas[p.1]? = some k → metas[p'.1]? = some k →
        ∀ σ : Nat → D, Subst.Sol A σ E → p.2.eval A σ = p'.2.eval A σ) →
      ∀ σ : Nat → D, Subst.Sol A σ r → Subst.Sol A σ E ∧ Ent A σ metas subs) ∧
    (AUGen.{u} ar au → ∀ {D : Type u} (A : Alg D), A.Free → ∀ (σ : Nat → D), Subst.Sol A σ E →
      Ent A σ metas subs → Subst.Sol A σ r) := by
  simp only [compute, Res.bind_ok] at h
  obtain ⟨⟨T, F⟩, h1, F', hF, T', hT, q, hq, h⟩ := h
  obtain ⟨b1, b2, b3, b4⟩ := computeLoop_base hb subs [] [] E _ hS (by simp [Subst.keys]) hE
    (fun p hp => by cases hp) aE h1
  obtain ⟨f1, f2, f3⟩ := elimBoth_spec.{u} b2 hF
  obtain ⟨t1, t2, t3⟩ := elimBoth_spec.{u} b1 hT
  obtain ⟨m1, m2, m3, m4⟩ := merge_spec.{u} hb n F' T' q f1.1 t1.1 (f3 ar b4) (t3 ar b3) hq
  obtain ⟨r1, r2, r3⟩ := elimBoth_spec.{u} m1 h
  refine ⟨r1, r3 ar m2, ?_, ?_⟩
  · intro hst hs D A hcomp σ g
    subst hst
    obtain ⟨g1, g2⟩ := m3 hs A σ ((r2 A σ).1 g)
    have hnil : ∀ σ : Nat → D, Subst.Sol A σ [] := fun σ p hp => by cases hp
    obtain ⟨_, g3, g4⟩ := computeLoop_sound hb hs (all := subs) (E0 := E) hcomp subs [] [] E _ (fun _ h => h) hS
      (by simp [Subst.keys]) hE (fun p hp => by cases hp) aE (fun _ _ h => h) (fun m hm => by cases hm)
      (fun m hm => by cases hm) h1 σ ((t2 A σ).1 g2) ((f2 A σ).1 g1)
    exact ⟨g3, g4⟩
  · intro hg D A hA σ sE hent
    obtain ⟨g1, g2⟩ := computeLoop_gen hb hg subs [] [] E _ hS (by simp [Subst.keys]) hE
      (fun p hp => by cases hp) aE h1 hA (σ := σ) (fun p hp => by cases hp) sE hent
    exact (r2 A σ).2 (m4 hg A hA σ ((f2 A σ).2 g2) ((t2 A σ).2 g1))

theorem tryUnif_spec {ar : Nat → Nat} {au : AU} (hb : AUBase ar au) {strict : Bool} {n : Nat} {t1 t2 : UT}
    {s r : Subst} (a1 : t1.Ar ar) (a2 : t2.Ar ar) (hk : s.keys.Nodup) (ha : s.Ar ar)
    (h : tryUnif strict au n t1 t2 s = .ok r) :
    r.Solved ∧ r.Ar ar ∧
    (strict = true → AUSound.{u} ar au → ∀ {D : Type u} (A : Alg D) (σ : Nat → D), Subst.Sol A σ r →
      Subst.Sol A σ s ∧ t1.eval A σ = t2.eval A σ) ∧
    (AUGen.{u} ar au → ∀ {D : Type u} (A : Alg D), A.Free → ∀ (σ : Nat → D), Subst.Sol A σ s →
      t1.eval A σ = t2.eval A σ → Subst.Sol A σ r) := by
  simp only [tryUnif, Res.bind_ok] at h
  obtain ⟨m, hm, h⟩ := h
  obtain ⟨hi, hsnd, hgen⟩ := exec_run.{u} hb a1 a2 hk ha hm
  obtain ⟨c1, c2, c3, c4⟩ := compute_spec.{u} hb hi.arS hi.keys hi.arM h
  refine ⟨c1, c2, fun hst hs D A σ g => ?_, fun hg D A hA σ g1 g2 => ?_⟩
  · obtain ⟨d1, d2, d3⟩ := hsnd hs A
    obtain ⟨e1, e2⟩ := c3 hst hs A (d2 (fun p hp => by cases hp)) σ g
    exact ⟨d1 σ e1, (d3 σ e1 e2).2⟩
  · obtain ⟨d1, d2⟩ := hgen hg A hA σ g1 (fun p hp => by cases hp) g2
    exact c4 hg A hA σ d1 d2

/-- All facts about one call. -/
structure AUSpec (ar : Nat → Nat) (strict : Bool) (t1 t2 : UT) (s r : Subst) : Prop where
  solved : r.Solved
  ar : r.Ar ar
  snd : strict = true → ∀ {D : Type u} (A : Alg D) (σ : Nat → D), Subst.Sol A σ r →
    Subst.Sol A σ s ∧ t1.eval A σ = t2.eval A σ
  gen : ∀ {D : Type u} (A : Alg D), A.Free → ∀ (σ : Nat → D), Subst.Sol A σ s →
    t1.eval A σ = t2.eval A σ → Subst.Sol A σ r

theorem boundElse_false {s : Subst} {x : Nat} {t : UT} (h : boundElse s (.mv x) t = false) (hh : s.has x = true) :
    s.get x = some t := by
  obtain ⟨v, hv⟩ := Subst.get_isSome (Subst.has_iff.1 hh)
  simp only [boundElse, hv, decide_eq_false_iff_not, Decidable.not_not] at h
  rw [hv, h]

theorem addUnif_spec (ar : Nat → Nat) (strict : Bool) (n : Nat) (t1 t2 : UT) (s r : Subst) (a1 : t1.Ar ar)
    (a2 : t2.Ar ar) (hk : s.keys.Nodup) (ha : s.Ar ar) (h : addUnif strict n t1 t2 s = .ok r) :
    AUSpec.{u} ar strict t1 t2 s r := by
  induction n generalizing t1 t2 s r with
  | zero => simp [addUnif] at h
  | succ n ih =>
    have hb : AUBase ar (addUnif strict n) := fun t1 t2 s r a1 a2 hk ha h =>
      ⟨(ih t1 t2 s r a1 a2 hk ha h).solved.1, (ih t1 t2 s r a1 a2 hk ha h).ar⟩
    have hs : strict = true → AUSound.{u} ar (addUnif strict n) := fun hst t1 t2 s r a1 a2 hk ha h =>
      (ih t1 t2 s r a1 a2 hk ha h).snd hst
    have hg : AUGen.{u} ar (addUnif strict n) := fun t1 t2 s r a1 a2 hk ha h =>
      (ih t1 t2 s r a1 a2 hk ha h).gen
    have try' : ∀ {t1 t2 : UT}, t1.Ar ar → t2.Ar ar →
        (tryUnif strict (addUnif strict n) n t1 t2 s).bind (elimBoth n) = .ok r → AUSpec.{u} ar strict t1 t2 s r := by
      intro t1 t2 a1 a2 h
      rw [Res.bind_ok] at h
      obtain ⟨q, hq, h⟩ := h
      obtain ⟨c1, c2, c3, c4⟩ := tryUnif_spec.{u} hb a1 a2 hk ha hq
      obtain ⟨r1, r2, r3⟩ := elimBoth_spec.{u} c1.1 h
      exact ⟨r1, r3 ar c2, fun hst D A σ g => c3 hst (hs hst) A σ ((r2 A σ).1 g),
        fun A hA σ g1 g2 => (r2 A σ).2 (c4 hg A hA σ g1 g2)⟩
    have bind' : ∀ {x : Nat} {t : UT}, t.Ar ar → boundElse s (.mv x) t = false →
        elimBoth n (s.set x t) = .ok r → AUSpec.{u} ar strict (.mv x) t s r := by
      intro x t at' hbe h
      obtain ⟨r1, r2, r3⟩ := elimBoth_spec.{u} (Subst.nodup_set hk x t) h
      refine ⟨r1, r3 ar (Subst.Ar_set ha at'), fun _ D A σ g => ?_, fun A hA σ g1 g2 => ?_⟩
      · have g := (r2 A σ).1 g
        exact ⟨Subst.Sol_of_set g, g (x, t) (Subst.mem_set_self (boundElse_false hbe))⟩
      · exact (r2 A σ).2 (Subst.Sol_set g1 g2)
    simp only [addUnif] at h
    cases t1 with
    | mv x =>
      simp only [addUnifBody] at h
      split at h
      · exact try' a1 a2 h
      · rename_i hx
        simp only [Bool.or_eq_true, not_or, Bool.not_eq_true] at hx
        exact bind' a2 hx.1 h
    | fn p l =>
      cases t2 with
      | mv y =>
        simp only [addUnifBody] at h
        split at h
        · exact try' a1 a2 h
        · rename_i hx
          have := bind' a1 (by simpa using hx) h
          exact ⟨this.solved, this.ar, fun hst D A σ g => (this.snd hst A σ g).imp id Eq.symm,
            fun A hA σ g1 g2 => this.gen A hA σ g1 g2.symm⟩
      | fn q m =>
        simp only [addUnifBody] at h
        exact try' a1 a2 h

end Verif.Unif
