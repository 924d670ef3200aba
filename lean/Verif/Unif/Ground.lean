import Verif.Unif.Props
/-!
# Unification against terms without metavariables

The flaw of `computeSubstitutions` (`C25_violated`) needs a binding that refers to a metavariable of the other
term. If one of the two terms has no metavariable and the terms of the initial bindings have none either, the
code never meets it: it agrees with the strict variant, and its results are sound.
-/

namespace Verif.Unif

/-- No metavariable, and arities respected. -/
def UT.Gd (ar : Nat → Nat) (t : UT) : Prop := t.Ar ar ∧ t.occ = []

/-- All terms without metavariables, no metavariable bound twice. -/
def Subst.Gd (ar : Nat → Nat) (s : Subst) : Prop := s.keys.Nodup ∧ ∀ p ∈ s, p.2.Gd ar

variable {ar : Nat → Nat}

theorem UT.Gd.isFn {t : UT} (h : t.Gd ar) : ∃ p l, t = .fn p l := by
  cases t with
  | mv i => simp [UT.Gd, UT.occ] at h
  | fn p l => exact ⟨p, l, rfl⟩

theorem UT.Gd.args {p : Nat} {l : List UT} (h : (UT.fn p l).Gd ar) : ∀ t ∈ l, t.Gd ar := by
  intro t ht
  refine ⟨UT.ArL_iff.1 h.1.2 t ht, ?_⟩
  have h2 : UT.occL l = [] := h.2
  apply List.eq_nil_iff_forall_not_mem.2
  intro i hi
  have : i ∈ UT.occL l := UT.mem_occL.2 ⟨t, ht, hi⟩
  rw [h2] at this
  cases this

theorem UT.inst_ground {t : UT} (h : t.occ = []) (σ : Nat → UT) : t.inst σ = t := by
  have : t.inst σ = t.inst UT.mv := UT.eval_congr _ fun i hi => by rw [h] at hi; cases hi
  rw [this, UT.inst_mv]

theorem Subst.Gd.arity {s : Subst} (h : s.Gd ar) : s.Ar ar := fun p hp => (h.2 p hp).1

theorem Subst.Gd.nil : Subst.Gd ar ([] : Subst) := ⟨by simp [Subst.keys], by simp⟩

theorem Subst.Gd.get {s : Subst} (h : s.Gd ar) {k : Nat} {v : UT} (hv : s.get k = some v) : v.Gd ar :=
  h.2 _ (Subst.get_mem hv)

theorem Subst.Gd.set {s : Subst} (h : s.Gd ar) {v : UT} (hv : v.Gd ar) (k : Nat) : (s.set k v).Gd ar := by
  refine ⟨Subst.nodup_set h.1 k v, fun p hp => ?_⟩
  rcases Subst.mem_set hp with hp | rfl
  · exact h.2 p hp
  · exact hv

theorem Subst.Gd.removeKey {s : Subst} (h : s.Gd ar) (k : Nat) : (s.removeKey k).Gd ar := by
  obtain ⟨h1, h2⟩ := Subst.removeKey_spec h.1 k
  exact ⟨h1, fun p hp => h.2 p ((h2 p).1 hp).1⟩

/-! ### `Eliminate` changes nothing -/

theorem subAll_ground {s : Subst} (h : ∀ p ∈ s, p.2.Gd ar) (k : Nat) (v : UT) : s.subAll k v = s := by
  unfold Subst.subAll
  refine (List.map_congr_left fun p hp => ?_).trans (List.map_id _)
  have : p.2.sub k v = p.2 := UT.sub_of_not_mem _ (by rw [(h p hp).2]; simp)
  simp [this]

theorem any_ground {s : Subst} (h : ∀ p ∈ s, p.2.Gd ar) (k : Nat) : s.any (fun p => p.2.occ.contains k) = false := by
  rw [List.any_eq_false]
  intro p hp
  rw [(h p hp).2]
  simp

theorem elimPass_ground (key : Nat) (value : UT) (s tmp : Subst) (ch : Bool) (hnd : (tmp ++ s).keys.Nodup)
    (h : ∀ p ∈ s, p.2.Gd ar) : elimPass key value s (tmp, ch) = .ok (tmp ++ s, ch) := by
  induction s generalizing tmp ch with
  | nil => simp [elimPass]
  | cons p s ih =>
    obtain ⟨k, v⟩ := p
    have hv : v.Gd ar := h (k, v) (by simp)
    have hk : k ∉ tmp.keys := by
      intro hk
      rw [Subst.keys_append, List.nodup_append] at hnd
      exact hnd.2.2 k hk k (by simp [Subst.keys]) rfl
    have e : tmp.set k v ++ s = tmp ++ (k, v) :: s := by rw [Subst.set_new v hk]; simp
    have go : elimPass key value s (tmp.set k v, ch) = .ok (tmp ++ (k, v) :: s, ch) := by
      rw [ih _ _ (by rw [e]; exact hnd) fun p hp => h p (by simp [hp]), e]
    obtain ⟨p, l, rfl⟩ := hv.isFn
    have hs : (UT.fn p l).sub key value = .fn p l := UT.sub_of_not_mem _ (by rw [hv.2]; simp)
    have ho : occurValid k (UT.fn p l) = true := occurValid_iff.2 (by rw [hv.2]; simp)
    have hc : (UT.fn p l).occ.contains key = false := by rw [hv.2]; rfl
    simp only [elimPass]
    rw [hs, if_pos ho, hc, Bool.or_false]
    exact go

theorem elimInside_ground (key : Nat) (value : UT) (n : Nat) (s : Subst) (top : Bool) (h : s.Gd ar) :
    elimInside key value (n + 1) s top = .ok (s, top) := by
  simp only [elimInside]
  rw [elimPass_ground key value s [] false (by simpa using h.1) h.2]
  simp [Res.bind]

theorem elimRound_ground (n : Nat) (ts s : Subst) (ch : Bool) (hts : ∀ p ∈ ts, p.2.Gd ar) (h : s.Gd ar) :
    elimRound (n + 1) ts (s, ch) = .ok (s, ch) := by
  induction ts with
  | nil => rfl
  | cons p ts ih =>
    obtain ⟨k, v⟩ := p
    have ho : occurValid k v = true := occurValid_iff.2 (by rw [(hts (k, v) (by simp)).2]; simp)
    simp only [elimRound, if_pos ho, elimInside_ground k v n s ch h, Res.bind]
    exact ih fun p hp => hts p (by simp [hp])

theorem elimMetaLoop_ground (s rest acc : Subst) (hnd : (acc ++ rest).keys.Nodup) (h : ∀ p ∈ rest, p.2.Gd ar) :
    elimMetaLoop s rest acc = acc ++ rest := by
  induction rest generalizing acc with
  | nil => simp [elimMetaLoop]
  | cons p rest ih =>
    obtain ⟨k, v⟩ := p
    have hk : k ∉ acc.keys := by
      intro hk
      rw [Subst.keys_append, List.nodup_append] at hnd
      exact hnd.2.2 k hk k (by simp [Subst.keys]) rfl
    have e : acc.set k v ++ rest = acc ++ (k, v) :: rest := by rw [Subst.set_new v hk]; simp
    obtain ⟨p, l, rfl⟩ := (h (k, v) (by simp)).isFn
    simp only [elimMetaLoop]
    rw [ih _ (by rw [e]; exact hnd) fun p hp => h p (by simp [hp]), e]

theorem elimBoth_ground (n : Nat) {s : Subst} (h : s.Gd ar) : elimBoth (n + 1) s = .ok s := by
  have e : elimMeta s = s := by
    unfold elimMeta
    rw [elimMetaLoop_ground s s [] (by simpa using h.1) h.2, List.nil_append]
  simp only [elimBoth, e, eliminate, elimRound_ground (n + 1) s s false h.2 h, Res.bind]
  simp

theorem elimBoth_ground' {n : Nat} {s r : Subst} (h : s.Gd ar) (hr : elimBoth n s = .ok r) : r = s := by
  cases n with
  | zero => simp [elimBoth, eliminate] at hr
  | succ n => rw [elimBoth_ground n h] at hr; simpa using hr.symm

/-! ### Agreement with the strict variant -/

/-- Same successes when one term is ground and the bindings are, and ground results. -/
def AUGround (ar : Nat → Nat) (au au' : AU) : Prop :=
  ∀ t1 t2 s r, t1.Gd ar ∨ t2.Gd ar → Subst.Gd ar s → au t1 t2 s = .ok r → au' t1 t2 s = .ok r ∧ r.Gd ar

/-- Different ground terms do not unify. -/
def AUDiff (ar : Nat → Nat) (au : AU) : Prop :=
  ∀ t1 t2 s r, t1.Gd ar → t2.Gd ar → Subst.Gd ar s → au t1 t2 s = .ok r → t1 = t2

variable {au au' : AU}

/-- State of the machine while a term runs against a ground one. -/
structure G2 (ar : Nat → Nat) (s : Subst) (m : M) : Prop where
  lock : m.beginLock = none
  terms : ∀ t ∈ m.terms, t.Gd ar
  post : ∀ p ∈ m.post, ∀ t ∈ p.2, t.Gd ar
  subst : ∀ p ∈ m.subst, p.2.Gd ar
  mt : m.mt = s

theorem unwrap_fn (s : Subst) (n : Nat) (seen : List Nat) {t : UT} (h : t.Gd ar) : unwrap s n seen t = t := by
  obtain ⟨p, l, rfl⟩ := h.isFn
  cases n <;> rfl

theorem G2.step {s : Subst} (hs : s.Gd ar) (hd : AUDiff ar au) {m m' : M} (h : G2 ar s m) (i : Instr)
    (hi : m.step au i = .ok m') : G2 ar s m' ∧ m.step au' i = .ok m' := by
  obtain ⟨h1, h2, h3, h4, h5⟩ := h
  cases i with
  | begin =>
    refine ⟨?_, hi⟩
    simp only [M.step] at hi
    cases ht : m.terms[m.q]? with
    | none => simp [ht] at hi
    | some t =>
      obtain ⟨p, l, rfl⟩ := (h2 t (List.mem_of_getElem? ht)).isFn
      simp only [ht, Res.ok.injEq] at hi
      subst hi
      exact ⟨h1, h2, h3, h4, h5⟩
  | fin t =>
    simp only [M.step, M.fin, h1] at hi ⊢
    refine ⟨?_, hi⟩
    rw [checkEnd_ok hi]
    exact ⟨rfl, h2, h3, h4, h5⟩
  | right =>
    refine ⟨?_, hi⟩
    simp only [M.step, M.right, h1] at hi
    split at hi
    · cases hi
    · simp only [Res.ok.injEq] at hi
      subst hi
      exact ⟨rfl, h2, h3, h4, h5⟩
  | down =>
    refine ⟨?_, hi⟩
    simp only [M.step, h1] at hi
    cases ht : m.terms[m.q]? with
    | none => simp [ht] at hi
    | some t =>
      have hg := h2 t (List.mem_of_getElem? ht)
      obtain ⟨p, l, rfl⟩ := hg.isFn
      simp only [ht, Res.ok.injEq] at hi
      subst hi
      exact ⟨rfl, hg.args, h3, h4, h5⟩
  | check p =>
    refine ⟨?_, hi⟩
    simp only [M.step, h1] at hi
    cases ht : m.terms[m.q]? with
    | none => simp [ht] at hi
    | some t =>
      obtain ⟨q, l, rfl⟩ := (h2 t (List.mem_of_getElem? ht)).isFn
      simp only [ht] at hi
      split at hi
      · simp only [Res.ok.injEq] at hi
        subst hi
        exact ⟨h1, h2, h3, h4, h5⟩
      · cases hi
  | push i =>
    refine ⟨?_, hi⟩
    simp only [M.step, h1, Res.ok.injEq] at hi
    subst hi
    refine ⟨rfl, h2, fun p hp => ?_, h4, h5⟩
    simp only [List.mem_append, List.mem_singleton] at hp
    rcases hp with hp | rfl
    · exact h3 p hp
    · exact h2
  | pop i =>
    refine ⟨?_, hi⟩
    simp only [M.step, h1] at hi
    cases ht : m.post[i]? with
    | none => simp [ht] at hi
    | some p =>
      simp only [ht] at hi
      split at hi
      · cases hi
      · simp only [Res.ok.injEq] at hi
        subst hi
        exact ⟨rfl, h3 p (List.mem_of_getElem? ht), fun p hp => h3 p (List.mem_of_mem_eraseIdx hp), h4, h5⟩
  | put i =>
    refine ⟨?_, hi⟩
    simp only [M.step, h1] at hi
    cases ht : m.terms[m.q]? with
    | none => simp [ht] at hi
    | some t =>
      simp only [ht, Res.ok.injEq] at hi
      subst hi
      refine ⟨rfl, h2, h3, fun p hp => ?_, h5⟩
      simp only [List.mem_append, List.mem_singleton] at hp
      rcases hp with hp | rfl
      · exact h4 p hp
      · exact h2 t (List.mem_of_getElem? ht)
  | compare i j =>
    have key : m' = m ∧ m.step au' (.compare i j) = .ok m' := by
      simp only [M.step, h1] at hi ⊢
      split at hi
      · rename_i a b ha hb
        have ga := h4 _ (getAt_mem ha)
        have gb := h4 _ (getAt_mem hb)
        simp only [unwrap_fn _ _ _ ga, unwrap_fn _ _ _ gb] at hi ⊢
        split at hi
        · rename_i hab
          simp only [Res.ok.injEq] at hi
          rw [if_pos hab, hi]
          exact ⟨rfl, rfl⟩
        · rename_i hab
          rw [Res.bind_ok] at hi
          obtain ⟨r, hr, -⟩ := hi
          exact absurd (hd a b m.mt r ga gb (h5 ▸ hs) hr) hab
      · simp only [Res.ok.injEq] at hi
        rw [hi]
        exact ⟨rfl, rfl⟩
    refine ⟨?_, key.2⟩
    rw [key.1]
    exact ⟨h1, h2, h3, h4, h5⟩

theorem G2.exec {s : Subst} (hs : s.Gd ar) (hd : AUDiff ar au) (is : List Instr) {m m' : M} (h : G2 ar s m)
    (hi : exec au is m = .ok m') : G2 ar s m' ∧ exec au' is m = .ok m' := by
  induction is generalizing m with
  | nil =>
    simp only [Unif.exec, Res.ok.injEq] at hi ⊢
    subst hi
    exact ⟨h, rfl⟩
  | cons i is ih =>
    simp only [Unif.exec, Res.bind_ok] at hi ⊢
    obtain ⟨m1, h1, hi⟩ := hi
    obtain ⟨g1, e1⟩ := G2.step (au' := au') hs hd h i h1
    obtain ⟨g2, e2⟩ := ih g1 hi
    exact ⟨g2, m1, e1, e2⟩

/-- Instructions compiled from a ground term. -/
def Instr.Gd (ar : Nat → Nat) : Instr → Prop
  | .put _ => False
  | .fin (some t) => t.Gd ar
  | .fin none => True
  | _ => True

theorem parse_ground (t : UT) : t.Gd ar → ∀ (pc : Nat) (seen : List Nat) (rd : Bool), ∀ i ∈ parseT pc seen rd t, i.Gd ar := by
  induction t using UT.ind with
  | mv k => intro h; simp [UT.Gd, UT.occ] at h
  | fn p args ih =>
    intro h pc seen rd i hi
    have hl : ∀ (l : List UT), (∀ a ∈ l, a ∈ args) → ∀ pc seen, ∀ i ∈ parseL pc seen l, i.Gd ar := by
      intro l
      induction l with
      | nil => intro _ pc seen i hi; cases hi
      | cons a l ihl =>
        intro hsub pc seen i hi
        simp only [parseL, List.mem_append] at hi
        rcases hi with hi | hi
        · exact ih a (hsub a (by simp)) (h.args a (hsub a (by simp))) _ _ _ i hi
        · exact ihl (fun a ha => hsub a (by simp [ha])) _ _ i hi
    have hargs := hl args (fun _ h => h)
    simp only [parseT] at hi
    split at hi
    · simp only [List.mem_cons] at hi
      rcases hi with rfl | rfl | rfl | hi
      · trivial
      · trivial
      · exact h
      · cases rd
        · simp at hi
        · simp at hi; subst hi; trivial
    · split at hi
      · simp only [List.mem_cons, List.mem_append, List.not_mem_nil, or_false] at hi
        rcases hi with rfl | rfl | rfl | rfl | hi | rfl | rfl
        · trivial
        · trivial
        · trivial
        · trivial
        · exact hargs _ _ i hi
        · trivial
        · exact h
      · simp only [List.mem_cons, List.mem_append, List.not_mem_nil, or_false] at hi
        rcases hi with rfl | rfl | rfl | hi | rfl
        · trivial
        · trivial
        · trivial
        · exact hargs _ _ i hi
        · exact h

theorem right_same {m m' : M} (h : m.right = .ok m') : m'.subst = m.subst ∧ m'.mt = m.mt := by
  unfold M.right at h
  split at h
  · simp only [Res.ok.injEq] at h; subst h; exact ⟨rfl, rfl⟩
  · split at h
    · cases h
    · simp only [Res.ok.injEq] at h; subst h; exact ⟨rfl, rfl⟩

theorem lockedRight_same {m m' : M} (h : m.lockedRight = .ok m') : m'.subst = m.subst ∧ m'.mt = m.mt := by
  unfold M.lockedRight at h
  split at h
  · dsimp only at h
    split at h
    · exact right_same (m := { m with hasPushed := false, hasPoped := false }) h
    · simp only [Res.ok.injEq] at h; subst h; exact ⟨rfl, rfl⟩
  · simp only [Res.ok.injEq] at h; subst h; exact ⟨rfl, rfl⟩

theorem G1.step (hg : AUGround ar au au') {m m' : M} (h1 : m.subst = []) (h2 : m.mt.Gd ar) (i : Instr)
    (gi : i.Gd ar) (hi : m.step au i = .ok m') : m'.subst = [] ∧ m'.mt.Gd ar ∧ m.step au' i = .ok m' := by
  cases i with
  | begin =>
    suffices m'.subst = m.subst ∧ m'.mt = m.mt by rw [this.1, this.2]; exact ⟨h1, h2, hi⟩
    simp only [M.step] at hi
    split at hi
    · cases hi
    · simp only [Res.ok.injEq] at hi; subst hi; exact ⟨rfl, rfl⟩
    · simp only [Res.ok.injEq] at hi; subst hi; exact ⟨rfl, rfl⟩
  | fin t =>
    simp only [M.step, M.fin] at hi ⊢
    split at hi
    · rename_i hl
      rw [checkEnd_ok hi] at *
      exact ⟨h1, h2, by rw [checkEnd_ok hi] at hi; exact hi⟩
    · rename_i b hl
      split at hi
      · rename_i hb
        rw [if_pos hb]
        split at hi
        · rename_i x t hx
          rw [Res.bind_ok] at hi
          obtain ⟨s, hs, hi⟩ := hi
          obtain ⟨ho, hg'⟩ := hg _ _ _ _ (Or.inr gi) h2 hs
          rw [ho]
          simp only [Res.bind_ok] at hi
          obtain ⟨m2, hm2, hi⟩ := hi
          have e := lockedRight_same hm2
          refine ⟨?_, ?_, ?_⟩
          · rw [checkEnd_ok hi, e.1]; exact h1
          · rw [checkEnd_ok hi, e.2]; exact hg'
          · simp only [Res.bind_ok]
            exact ⟨s, rfl, m2, hm2, hi⟩
        · cases hi
      · rename_i hb
        rw [if_neg hb]
        have e := checkEnd_ok hi
        refine ⟨by rw [e]; exact h1, by rw [e]; exact h2, hi⟩
  | right =>
    have e := right_same (m := m) (m' := m') (by simpa [M.step] using hi)
    rw [e.1, e.2]
    exact ⟨h1, h2, hi⟩
  | down =>
    suffices m'.subst = m.subst ∧ m'.mt = m.mt by rw [this.1, this.2]; exact ⟨h1, h2, hi⟩
    simp only [M.step] at hi
    split at hi
    · simp only [Res.ok.injEq] at hi; subst hi; exact ⟨rfl, rfl⟩
    · split at hi
      · simp only [Res.ok.injEq] at hi; subst hi; exact ⟨rfl, rfl⟩
      · cases hi
  | check p =>
    suffices m'.subst = m.subst ∧ m'.mt = m.mt by rw [this.1, this.2]; exact ⟨h1, h2, hi⟩
    simp only [M.step] at hi
    repeat' split at hi
    all_goals first
      | cases hi; done
      | (simp only [Res.ok.injEq] at hi; subst hi; exact ⟨rfl, rfl⟩)
  | push i =>
    suffices m'.subst = m.subst ∧ m'.mt = m.mt by rw [this.1, this.2]; exact ⟨h1, h2, hi⟩
    simp only [M.step] at hi
    split at hi
    · simp only [Res.ok.injEq] at hi; subst hi; exact ⟨rfl, rfl⟩
    · simp only [Res.ok.injEq] at hi; subst hi; exact ⟨rfl, rfl⟩
  | pop i =>
    suffices m'.subst = m.subst ∧ m'.mt = m.mt by rw [this.1, this.2]; exact ⟨h1, h2, hi⟩
    simp only [M.step] at hi
    split at hi
    · simp only [Res.ok.injEq] at hi; subst hi; exact ⟨rfl, rfl⟩
    · split at hi
      · cases hi
      · split at hi
        · cases hi
        · simp only [Res.ok.injEq] at hi; subst hi; exact ⟨rfl, rfl⟩
  | put i => exact gi.elim
  | compare i j =>
    have hi' : m.step au' (.compare i j) = .ok m ∧ m' = m := by
      simp only [M.step, h1, getAt, List.find?_nil, Option.map_none] at hi ⊢
      split at hi
      · simp only [Res.ok.injEq] at hi; exact ⟨rfl, hi.symm⟩
      · simp only [Res.ok.injEq] at hi; exact ⟨rfl, hi.symm⟩
    rw [hi'.2]
    exact ⟨h1, h2, hi'.1⟩

theorem G1.exec (hg : AUGround ar au au') (is : List Instr) (his : ∀ i ∈ is, i.Gd ar) {m m' : M}
    (h1 : m.subst = []) (h2 : m.mt.Gd ar) (hi : exec au is m = .ok m') :
    m'.subst = [] ∧ m'.mt.Gd ar ∧ exec au' is m = .ok m' := by
  induction is generalizing m with
  | nil =>
    simp only [Unif.exec, Res.ok.injEq] at hi ⊢
    subst hi
    exact ⟨h1, h2, rfl⟩
  | cons i is ih =>
    simp only [Unif.exec, Res.bind_ok] at hi ⊢
    obtain ⟨m1, e, hi⟩ := hi
    obtain ⟨a, b, c⟩ := G1.step hg h1 h2 i (his i (by simp)) e
    obtain ⟨a', b', c'⟩ := ih (fun i hi => his i (by simp [hi])) a b hi
    exact ⟨a', b', m1, c, c'⟩

theorem computeLoop_ground (hd : AUDiff ar au) (metas : List Nat) (subs : List (Nat × UT)) (done : List Nat)
    (T E : Subst) (r : Subst × Subst) (hsub : ∀ p ∈ subs, p.2.Gd ar) (hT : T.Gd ar) (hE : E.Gd ar)
    (hdone : ∀ k ∈ T.keys, k ∈ done) (h : computeLoop false au metas subs done T E = .ok r) :
    computeLoop true au' metas subs done T E = .ok r ∧ r.1.Gd ar ∧ r.2.Gd ar := by
  induction subs generalizing done T with
  | nil =>
    simp only [computeLoop, Res.ok.injEq] at h ⊢
    subst h
    exact ⟨rfl, hT, hE⟩
  | cons p rest ih =>
    obtain ⟨i, u⟩ := p
    have hu : u.Gd ar := hsub (i, u) (by simp)
    have hrest : ∀ p ∈ rest, p.2.Gd ar := fun p hp => hsub p (by simp [hp])
    simp only [computeLoop] at h ⊢
    split at h
    · cases h
    · rename_i k hk
      have hT' := hT.set hu k
      have hdone' : ∀ j ∈ (T.set k u).keys, j ∈ k :: done := by
        intro j hj
        rcases Subst.key_set.1 hj with hj | rfl
        · simp [hdone j hj]
        · simp
      split at h
      · rename_i hmu
        rw [if_pos hmu]
        exact ih done T hrest hT hdone h
      · rename_i hmu
        rw [if_neg hmu]
        have hcond : (true && T.has k && decide (T.get k ≠ some u) && decide (k ∉ done)) = false := by
          cases hh : T.has k with
          | false => rfl
          | true =>
            have := hdone k (Subst.has_iff.1 hh)
            simp [this]
        simp only [hcond, Bool.false_and, Bool.false_eq_true, if_false] at h ⊢
        split at h
        · exact ih _ _ hrest hT' hdone' h
        · rename_i v hv
          split at h
          · rename_i huv
            rw [if_pos huv]
            exact ih _ _ hrest hT' hdone' h
          · rename_i huv
            rw [Res.bind_ok] at h
            obtain ⟨T', h1, -⟩ := h
            exact absurd (hd u v _ T' hu (hE.get hv) hT' h1) huv

theorem mergeLoop_ground (hg : AUGround ar au au') (n : Nat) (rest res r : Subst) (hrest : ∀ p ∈ rest, p.2.Gd ar)
    (hres : res.Gd ar) (h : mergeLoop au n rest res = .ok r) : mergeLoop au' n rest res = .ok r ∧ r.Gd ar := by
  induction rest generalizing res with
  | nil =>
    simp only [mergeLoop, Res.ok.injEq] at h ⊢
    subst h
    exact ⟨rfl, hres⟩
  | cons p rest ih =>
    obtain ⟨k, v⟩ := p
    have hv : v.Gd ar := hrest (k, v) (by simp)
    simp only [mergeLoop] at h ⊢
    split at h
    · rename_i hk
      rw [if_pos hk]
      rw [Res.bind_ok] at h ⊢
      obtain ⟨a, ha, h⟩ := h
      obtain ⟨e, g⟩ := hg _ _ _ _ (Or.inr hv) hres ha
      obtain ⟨e', g'⟩ := ih a (fun p hp => hrest p (by simp [hp])) g h
      exact ⟨⟨a, e, e'⟩, g'⟩
    · rename_i hk
      rw [if_neg hk]
      rw [Res.bind_ok] at h ⊢
      obtain ⟨a, ha, h⟩ := h
      have e := elimBoth_ground' (hres.set hv k) ha
      obtain ⟨e', g'⟩ := ih a (fun p hp => hrest p (by simp [hp])) (e ▸ hres.set hv k) h
      exact ⟨⟨a, ha, e'⟩, g'⟩

theorem merge_ground (hg : AUGround ar au au') (n : Nat) (s1 s2 r : Subst) (h1 : s1.Gd ar) (h2 : s2.Gd ar)
    (h : merge au n s1 s2 = .ok r) : merge au' n s1 s2 = .ok r ∧ r.Gd ar := by
  simp only [merge] at h ⊢
  split at h
  · rename_i he
    rw [if_pos he]
    simp only [Res.ok.injEq] at h
    exact ⟨by rw [h], h ▸ h2⟩
  · rename_i he
    rw [if_neg he]
    split at h
    · rename_i he2
      rw [if_pos he2]
      simp only [Res.ok.injEq] at h
      exact ⟨by rw [h], h ▸ h1⟩
    · rename_i he2
      rw [if_neg he2]
      have e : s1.foldl (fun (r : Subst) p => r.set p.1 p.2) [] = s1 := by
        rw [foldl_set s1 [] (by simpa using h1.1), List.nil_append]
      rw [e] at h ⊢
      exact mergeLoop_ground hg n s2 s1 r (h2.2) h1 h

theorem tryUnif_ground (hg : AUGround ar au au') (hd : AUDiff ar au) (n : Nat) (t1 t2 : UT) (s r : Subst)
    (ht : t1.Gd ar ∨ t2.Gd ar) (hs : s.Gd ar) (h : tryUnif false au n t1 t2 s = .ok r) :
    tryUnif true au' n t1 t2 s = .ok r ∧ r.Gd ar := by
  simp only [tryUnif, compute, Res.bind_ok] at h ⊢
  obtain ⟨m, hm, ⟨T, F⟩, h1, F', hF, T', hT, q, hq, h⟩ := h
  have key : Unif.exec au' (parseTerm t1) { terms := [t2], mt := s } = .ok m ∧ (∀ p ∈ m.subst, p.2.Gd ar) ∧ m.mt.Gd ar := by
    rcases ht with ht | ht
    · obtain ⟨a, b, c⟩ := G1.exec hg (parseTerm t1) (by
        intro i hi
        simp only [parseTerm, parseL, List.append_nil] at hi
        exact parse_ground t1 ht _ _ _ i hi) (m := { terms := [t2], mt := s }) rfl hs hm
      exact ⟨c, by rw [a]; simp, b⟩
    · obtain ⟨a, b⟩ := G2.exec (au' := au') hs hd (parseTerm t1) (m := { terms := [t2], mt := s })
        ⟨rfl, by simpa using ht, by simp, by simp, rfl⟩ hm
      exact ⟨b, a.subst, by rw [a.mt]; exact hs⟩
  obtain ⟨k1, k2, k3⟩ := key
  obtain ⟨c1, c2, c3⟩ := computeLoop_ground (au' := au') hd t1.occ m.subst [] [] m.mt (T, F) k2 Subst.Gd.nil k3
    (by simp [Subst.keys]) h1
  have eF := elimBoth_ground' c3 hF
  have eT := elimBoth_ground' c2 hT
  obtain ⟨d1, d2⟩ := merge_ground hg n F' T' q (eF ▸ c3) (eT ▸ c2) hq
  have er := elimBoth_ground' d2 h
  exact ⟨⟨m, k1, (T, F), c1, F', hF, T', hT, q, d1, h⟩, er ▸ d2⟩

theorem strict_diff (n : Nat) : AUDiff ar (addUnif true n) := by
  intro t1 t2 s r h1 h2 hs h
  have sp := addUnif_spec.{0} ar true n t1 t2 s r h1.1 h2.1 hs.1 hs.arity h
  have e : t1.inst r.fn = t2.inst r.fn := (sp.snd rfl termAlg r.fn sp.solved.sol).2
  rwa [UT.inst_ground h1.2, UT.inst_ground h2.2] at e

theorem ground_agree (n : Nat) : AUGround ar (addUnif false n) (addUnif true n) := by
  induction n with
  | zero => intro t1 t2 s r _ _ h; simp [addUnif] at h
  | succ n ih =>
    intro t1 t2 s r ht hs h
    have hd : AUDiff ar (addUnif false n) := fun a b s r ga gb gs h =>
      strict_diff n a b s r ga gb gs (ih a b s r (Or.inl ga) gs h).1
    have try' : ∀ t1 t2, t1.Gd ar ∨ t2.Gd ar → (tryUnif false (addUnif false n) n t1 t2 s).bind (elimBoth n) = .ok r →
        (tryUnif true (addUnif true n) n t1 t2 s).bind (elimBoth n) = .ok r ∧ r.Gd ar := by
      intro t1 t2 ht h
      rw [Res.bind_ok] at h ⊢
      obtain ⟨q, hq, h⟩ := h
      obtain ⟨e, g⟩ := tryUnif_ground ih hd n t1 t2 s q ht hs hq
      exact ⟨⟨q, e, h⟩, elimBoth_ground' g h ▸ g⟩
    simp only [addUnif] at h ⊢
    cases t1 with
    | mv x =>
      have h2 : t2.Gd ar := ht.resolve_left fun h => by simp [UT.Gd, UT.occ] at h
      simp only [addUnifBody] at h ⊢
      split at h
      · rename_i hc; rw [if_pos hc]; exact try' _ _ ht h
      · rename_i hc; rw [if_neg hc]
        exact ⟨h, elimBoth_ground' (hs.set h2 x) h ▸ hs.set h2 x⟩
    | fn p l =>
      cases t2 with
      | mv y =>
        have h1 := ht.resolve_right fun h => by simp [UT.Gd, UT.occ] at h
        simp only [addUnifBody] at h ⊢
        split at h
        · rename_i hc; rw [if_pos hc]; exact try' _ _ ht h
        · rename_i hc; rw [if_neg hc]
          exact ⟨h, elimBoth_ground' (hs.set h1 y) h ▸ hs.set h1 y⟩
      | fn q m => exact try' _ _ ht h

/-! ### Soundness -/

/-- **C25 against ground terms**: if one of the terms has no metavariables, and the terms of the initial bindings
have none, then the computed substitution makes the terms equal and satisfies the initial bindings. -/
theorem C25_ground_sound {t1 t2 : UT} {s r : Subst} (a1 : t1.Ar ar) (a2 : t2.Ar ar) (ha : s.Ar ar)
    (hk : (s.map (·.1)).Nodup) (ht : t1.occ = [] ∨ t2.occ = []) (hs : ∀ p ∈ s, p.2.occ = [])
    (h : Unifies t1 t2 s (.ok r)) : Unifier r.fn t1 t2 s := by
  obtain ⟨_, n, h⟩ := h
  have := ground_agree n t1 t2 s r (ht.imp (⟨a1, ·⟩) (⟨a2, ·⟩)) ⟨hk, fun p hp => ⟨ha p hp, hs p hp⟩⟩ h
  exact (C25_unification_sound_partial a1 a2 ha hk this.1).2

/-- **C28 for ground substitutions**: a successful merge of substitutions whose terms have no metavariables
satisfies every binding of both, in every interpretation of the metavariables, and its terms have no metavariables. -/
theorem C28_ground_sound {s1 s2 r : Subst} (a1 : s1.Ar ar) (a2 : s2.Ar ar) (k1 : (s1.map (·.1)).Nodup)
    (k2 : (s2.map (·.1)).Nodup) (g1 : ∀ p ∈ s1, p.2.occ = []) (g2 : ∀ p ∈ s2, p.2.occ = [])
    (h : Merges s1 s2 (.ok r)) :
    (∀ σ, Respects σ r → Respects σ s1 ∧ Respects σ s2) ∧ (r.map (·.1)).Nodup ∧ r.Ar ar ∧ ∀ p ∈ r, p.2.occ = [] := by
  obtain ⟨_, n, h⟩ := h
  have m1 : s1.Gd ar := ⟨k1, fun p hp => ⟨a1 p hp, g1 p hp⟩⟩
  have m2 : s2.Gd ar := ⟨k2, fun p hp => ⟨a2 p hp, g2 p hp⟩⟩
  obtain ⟨e, g⟩ := merge_ground (ground_agree n) n s1 s2 r m1 m2 h
  refine ⟨fun σ hσ => ?_, g.1, g.arity, fun p hp => (g.2 p hp).2⟩
  refine (merge_spec.{0} (fun t1 t2 s r a1 a2 hk ha h => ?_) n s1 s2 r k1 k2 a1 a2 e).2.2.1
    (fun t1 t2 s r a1 a2 hk ha h => (addUnif_spec ar true n t1 t2 s r a1 a2 hk ha h).snd rfl) termAlg σ hσ
  have := addUnif_spec.{0} ar true n t1 t2 s r a1 a2 hk ha h
  exact ⟨this.solved.1, this.ar⟩

open Sample

example : Unifies (f [X, g Y, X]) (f [a, g b, a]) [] (.ok [(0, a), (1, b)]) := ⟨by simp, 12, by decide +kernel⟩
example : Unifies (f [a, g b]) (f [X, g Y]) [(2, b)] (.ok [(2, b), (0, a), (1, b)]) := ⟨by simp, 12, by decide +kernel⟩
example : Merges [(0, a), (1, b)] [(2, g a), (0, a)] (.ok [(0, a), (1, b), (2, g a)]) := ⟨by simp, 12, by decide +kernel⟩

end Verif.Unif
