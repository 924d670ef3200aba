import Verif.Unif.Ground
/-!
# Completeness of unification against terms without metavariables

If one of the terms and the terms of the initial bindings have no metavariables, `AddUnification` finds a
substitution whenever there is one.
-/

namespace Verif.Unif

/-- What is known of the pairs of terms met in a run that does not fail: `C` of the compiled term and the term it
runs against, `V` of a metavariable and the term recorded for it, `Q` of the bindings. -/
structure Plan (au : AU) where
  C : UT → UT → Prop
  V : Nat → UT → Prop
  Q : Subst → Prop
  fn_fn : ∀ {p l q m}, C (.fn p l) (.fn q m) → p = q ∧ l.length = m.length ∧ ∀ e ∈ l.zip m, C e.1 e.2
  fn_mv : ∀ {p l x}, C (.fn p l) (.mv x) → ∀ s, Q s → ∃ r, au (.mv x) (.fn p l) s = .ok r ∧ Q r
  mv : ∀ {k u}, C (.mv k) u → V k u
  cmp : ∀ {k a b}, V k a → V k b → ∀ s, Q s →
    unwrap s (s.length + 1) [] a = unwrap s (s.length + 1) [] b ∨
      ∃ r, au (unwrap s (s.length + 1) [] a) (unwrap s (s.length + 1) [] b) s = .ok r ∧ Q r

variable {au : AU}

/-- State between two pieces of code. -/
structure Plan.St (P : Plan au) (seen : List Nat) (m : M) : Prop where
  idx : ∀ p ∈ m.subst, p.1 < seen.length
  val : ∀ p ∈ m.subst, ∀ k, seen[p.1]? = some k → P.V k p.2
  q : P.Q m.mt

/-- The counters: each move to the right is counted, each descent adds the number of arguments. -/
def Counts (m m' : M) (suf : List UT) : Prop :=
  m'.cnt + m.tot = m.cnt + m'.tot + (if suf.isEmpty then 0 else 1)

/-- At the outermost level the counters agree and there is nothing to the right. -/
def Top (m : M) (suf : List UT) : Prop := m.beginCount = 0 → m.cnt = m.tot ∧ suf = []

theorem compares_ok (P : Plan au) (seen : List Nat) (k : Nat) (js : List Nat) (hjs : ∀ j ∈ js, seen[j]? = some k)
    (m : M) (hl : m.beginLock = none) (hs : P.St (seen ++ [k]) m) :
    ∃ s, exec au (js.map fun j => .compare j seen.length) m = .ok { m with mt := s } ∧ P.Q s := by
  induction js generalizing m with
  | nil => exact ⟨m.mt, rfl, hs.q⟩
  | cons j js ih =>
    have hj : seen[j]? = some k := hjs j (by simp)
    have step : ∃ s, m.step au (.compare j seen.length) = .ok { m with mt := s } ∧ P.Q s := by
      have hm : ∀ {x : Res M}, x = .ok m → x = .ok { m with mt := m.mt } := fun h => h
      cases ha : getAt m.subst j with
      | none => exact ⟨m.mt, hm (by simp only [M.step, hl, ha]), hs.q⟩
      | some a =>
        cases hb : getAt m.subst seen.length with
        | none => exact ⟨m.mt, hm (by simp only [M.step, hl, ha, hb]), hs.q⟩
        | some b =>
          have va : P.V k a := hs.val _ (getAt_mem ha) k (by
            have : j < seen.length := by
              rcases Nat.lt_or_ge j seen.length with h | h
              · exact h
              · rw [List.getElem?_eq_none h] at hj; cases hj
            rw [List.getElem?_append_left this]; exact hj)
          have vb : P.V k b := hs.val _ (getAt_mem hb) k (by simp)
          by_cases he : unwrap m.mt (m.mt.length + 1) [] a = unwrap m.mt (m.mt.length + 1) [] b
          · exact ⟨m.mt, hm (by simp only [M.step, hl, ha, hb, he, if_true]), hs.q⟩
          · rcases P.cmp va vb m.mt hs.q with h | ⟨r, hr, hq⟩
            · exact absurd h he
            · refine ⟨r, ?_, hq⟩
              unfold M.step
              simp only [ha, hb, he, if_false, hr, Res.bind]
              split
              · rename_i h; rw [hl] at h; cases h
              · rfl
    obtain ⟨s, h1, hq⟩ := step
    obtain ⟨s', h2, hq'⟩ := ih (fun j hj => hjs j (by simp [hj])) { m with mt := s } hl ⟨hs.idx, hs.val, hq⟩
    exact ⟨s', by simp only [List.map_cons, exec, h1, Res.bind, h2], hq'⟩

/-- A piece of code runs through. -/
def Through (P : Plan au) (t : UT) : Prop :=
  ∀ (u : UT) (seen : List Nat) (m : M) (pre suf : List UT), P.C t u → Ready m pre u suf → P.St seen m → Top m suf →
    ∃ m', exec au (parseT m.post.length seen (!suf.isEmpty) t) m = .ok m' ∧ Frame m m' suf ∧
      P.St (seen ++ t.occ) m' ∧ Counts m m' suf

theorem Plan.St.more {P : Plan au} {seen : List Nat} {m : M} (h : P.St seen m) (more : List Nat) {m' : M}
    (e : m'.subst = m.subst) (hq : P.Q m'.mt) : P.St (seen ++ more) m' := by
  refine ⟨fun p hp => ?_, fun p hp k hk => ?_, hq⟩
  · rw [e] at hp
    have := h.idx p hp
    simp; omega
  · rw [e] at hp
    rw [List.getElem?_append_left (h.idx p hp)] at hk
    exact h.val p hp k hk

theorem through_mv (P : Plan au) (k : Nat) : Through P (.mv k) := by
  intro u seen m pre suf hC hr hs htop
  have hcur : m.terms[m.q]? = some u := by rw [hr.terms, hr.q]; simp
  have hs1 : P.St (seen ++ [k]) { m with subst := m.subst ++ [(seen.length, u)] } := by
    refine ⟨fun p hp => ?_, fun p hp k' hk => ?_, hs.q⟩
    · simp only [List.mem_append, List.mem_singleton] at hp
      rcases hp with hp | rfl
      · have := hs.idx p hp; simp; omega
      · simp
    · simp only [List.mem_append, List.mem_singleton] at hp
      rcases hp with hp | rfl
      · rw [List.getElem?_append_left (hs.idx p hp)] at hk
        exact hs.val p hp k' hk
      · simp at hk; subst hk; exact P.mv hC
  obtain ⟨s, hc, hq⟩ := compares_ok P seen k ((List.range seen.length).filter (fun j => decide (seen[j]? = some k)))
    (by intro j hj; simpa using (List.mem_filter.1 hj).2) { m with subst := m.subst ++ [(seen.length, u)] } hr.lock hs1
  simp only [parseT, exec, step_put hr.lock hcur, Res.bind, exec_append, compares] at hc ⊢
  rw [hc]
  cases suf with
  | nil =>
    refine ⟨_, rfl, ⟨hr.lock, hr.push, hr.pop, rfl, rfl, fun h => absurd rfl h⟩, ⟨hs1.idx, hs1.val, hq⟩, ?_⟩
    simp [Counts]
  | cons w suf =>
    have hlt : ¬ m.terms.length ≤ m.q + 1 := by rw [hr.terms, hr.q]; simp
    simp only [List.isEmpty_cons, Bool.not_false, if_true, exec,
      step_right (m := { m with subst := m.subst ++ [(seen.length, u)], mt := s }) hr.lock, if_neg hlt, Res.bind]
    refine ⟨_, rfl, ⟨hr.lock, hr.push, hr.pop, rfl, rfl, fun _ => ⟨rfl, rfl⟩⟩, ⟨hs1.idx, hs1.val, hq⟩, ?_⟩
    simp [Counts]; omega

theorem through_list (P : Plan au) (ts : List UT) (ih : ∀ t ∈ ts, Through P t) (seen : List Nat) (m : M)
    (pre : List UT) (u : UT) (suf : List UT) (hC : ∀ e ∈ ts.zip (u :: suf), P.C e.1 e.2) (hr : Ready m pre u suf)
    (hs : P.St seen m) (hlen : ts.length = (u :: suf).length) (hb : m.beginCount ≠ 0) :
    ∃ m', exec au (parseL m.post.length seen ts) m = .ok m' ∧ Frame m m' [] ∧ P.St (seen ++ UT.occL ts) m' ∧
      m'.cnt + m.tot = m.cnt + m'.tot + suf.length := by
  induction ts generalizing seen m pre u suf with
  | nil => simp at hlen
  | cons t ts ihl =>
    have hse : (!ts.isEmpty) = (!suf.isEmpty) := by
      simp only [List.length_cons, Nat.add_right_cancel_iff] at hlen
      cases ts <;> cases suf <;> simp at hlen ⊢
    obtain ⟨m1, h1, f1, s1, c1⟩ := ih t (by simp) u seen m pre suf (hC (t, u) (by simp)) hr hs (fun h => absurd h hb)
    simp only [parseL, exec_append, hse, h1, Res.ok_bind]
    cases suf with
    | nil =>
      have : ts = [] := by simpa using hlen
      subst this
      refine ⟨m1, rfl, f1, by simpa [UT.occL] using s1, ?_⟩
      simpa [Counts] using c1
    | cons w suf =>
      obtain ⟨ht, hq⟩ := f1.next (by simp)
      obtain ⟨m2, h2, f2, s2, c2⟩ := ihl (fun t ht => ih t (by simp [ht])) (seen ++ t.occ) m1 (pre ++ [u]) w suf
        (fun e he => hC e (by simp only [List.zip_cons_cons, List.mem_cons]; exact Or.inr he))
        ⟨f1.lock, f1.push, f1.pop, by rw [ht, hr.terms]; simp, by rw [hq, hr.q]; simp⟩ s1 (by simpa using hlen)
        (by rw [f1.count]; exact hb)
      rw [f1.post] at h2
      refine ⟨m2, h2, ⟨f2.lock, f2.push, f2.pop, f2.post.trans f1.post, f2.count.trans f1.count,
        fun h => absurd rfl h⟩, by simpa [UT.occL, List.append_assoc] using s2, ?_⟩
      simp only [Counts, List.isEmpty_cons, Bool.false_eq_true, if_false] at c1
      simp only [List.length_cons]
      omega

theorem checkEnd_top {m : M} (h : m.beginCount = 0 → m.cnt = m.tot) : m.checkEnd = .ok m := by
  unfold M.checkEnd
  rw [if_neg]
  intro hc
  exact hc.2 (h hc.1)

theorem through_fn (P : Plan au) (p : Nat) (args : List UT) (ih : ∀ a ∈ args, Through P a) :
    Through P (.fn p args) := by
  intro u seen m pre suf hC hr hs htop
  have hcur : m.terms[m.q]? = some u := by rw [hr.terms, hr.q]; simp
  have hq : m.q + 1 < m.terms.length ↔ suf ≠ [] := by
    rw [hr.q, hr.terms]; cases suf <;> simp
  cases u with
  | mv x =>
    obtain ⟨s, hau, hQ⟩ := P.fn_mv hC m.mt hs.q
    by_cases he : args.isEmpty = true
    · simp only [parseT, he, if_true, exec]
      rw [step_begin_mv hr.lock hcur]
      simp only [Res.ok_bind, M.step, M.fin, Nat.add_sub_cancel, if_true, hcur, hau, M.lockedRight, hr.push, Bool.false_and,
        Bool.false_eq_true, if_false]
      rw [checkEnd_top (by intro h; exact (htop h).1)]
      cases suf with
      | nil =>
        refine ⟨_, rfl, ⟨rfl, rfl, hr.pop, rfl, rfl, fun h => absurd rfl h⟩, hs.more _ rfl hQ, ?_⟩
        simp [Counts]
      | cons w suf =>
        have hlt : ¬ m.terms.length ≤ m.q + 1 := Nat.not_le.2 (hq.2 (by simp))
        simp only [List.isEmpty_cons, Bool.not_false, if_true, Res.ok_bind, exec, M.step, M.right, if_neg hlt]
        refine ⟨_, rfl, ⟨rfl, rfl, hr.pop, rfl, rfl, fun _ => ⟨rfl, rfl⟩⟩, hs.more _ rfl hQ, ?_⟩
        simp [Counts]; omega
    · have hne : args.isEmpty = false := by simpa using he
      cases suf with
      | nil =>
        simp only [parseT, hne, List.isEmpty_nil, Bool.not_true, Bool.false_eq_true, if_false, exec]
        rw [step_begin_mv hr.lock hcur]
        simp only [Res.ok_bind, M.step, exec_append]
        rw [lockedL au args _ _ { m with beginLock := some m.beginCount, beginCount := m.beginCount + 1 }
          m.beginCount rfl (by simp) ⟨x, hcur⟩]
        have hq' : ¬ m.q + 1 < m.terms.length := fun h => hq.1 h rfl
        simp only [Res.ok_bind, exec, M.step, M.fin, M.flag, Nat.add_sub_cancel, if_true, hcur, hau, M.lockedRight, hr.push,
          hr.pop, Bool.false_or, Bool.and_self, hq', if_false]
        cases hx : pushesL args with
        | true =>
          simp only [if_true, Res.ok_bind]
          rw [checkEnd_top (by intro h; exact (htop h).1)]
          refine ⟨_, rfl, ⟨rfl, rfl, rfl, rfl, rfl, fun h => absurd rfl h⟩, hs.more _ rfl hQ, ?_⟩
          simp [Counts]
        | false =>
          simp only [Bool.false_eq_true, if_false, Res.ok_bind]
          rw [checkEnd_top (by intro h; exact (htop h).1)]
          refine ⟨_, rfl, ⟨rfl, rfl, rfl, rfl, rfl, fun h => absurd rfl h⟩, hs.more _ rfl hQ, ?_⟩
          simp [Counts]
      | cons w suf =>
        simp only [parseT, hne, List.isEmpty_cons, Bool.not_false, Bool.false_eq_true, if_false, if_true, exec]
        rw [step_begin_mv hr.lock hcur]
        simp only [Res.ok_bind, M.step, exec_append]
        rw [lockedL au args _ _
          { m with beginLock := some m.beginCount, beginCount := m.beginCount + 1, hasPushed := true }
          m.beginCount rfl (by simp) ⟨x, hcur⟩]
        have hq' : m.q + 1 < m.terms.length := hq.2 (by simp)
        simp only [Res.ok_bind, exec, M.step, M.fin, M.flag, Nat.add_sub_cancel, if_true, hcur, hau, M.lockedRight,
          Bool.true_or, Bool.and_self, hq', M.right, Nat.not_le.2 hq', if_false]
        rw [checkEnd_top (by intro h; exact absurd (htop h).2 (by simp))]
        refine ⟨_, rfl, ⟨rfl, rfl, rfl, rfl, rfl, fun _ => ⟨rfl, rfl⟩⟩, hs.more _ rfl hQ, ?_⟩
        simp [Counts]; omega
  | fn p' args' =>
    obtain ⟨rfl, hlen, hCs⟩ := P.fn_fn hC
    by_cases he : args.isEmpty = true
    · have hnil : args = [] := by simpa using he
      simp only [parseT, he, if_true, exec]
      rw [step_begin_fn (by exact hcur)]
      simp only [Res.ok_bind]
      rw [step_check_fn (by exact hr.lock) (by exact hcur)]
      simp only [if_true, Res.ok_bind]
      rw [step_fin (by exact hr.lock), checkEnd_top (by intro h; exact (htop (by simpa using h)).1)]
      cases suf with
      | nil =>
        refine ⟨_, rfl, ⟨hr.lock, hr.push, hr.pop, rfl, rfl, fun h => absurd rfl h⟩, hs.more _ rfl hs.q, ?_⟩
        simp [Counts]
      | cons w suf =>
        have hlt : ¬ m.terms.length ≤ m.q + 1 := Nat.not_le.2 (hq.2 (by simp))
        simp only [List.isEmpty_cons, Bool.not_false, if_true, Res.ok_bind, exec, M.step, M.right, hr.lock, if_neg hlt]
        refine ⟨_, rfl, ⟨rfl, hr.push, hr.pop, rfl, rfl, fun _ => ⟨rfl, rfl⟩⟩, hs.more _ rfl hs.q, ?_⟩
        simp [Counts]; omega
    · have hne : args.isEmpty = false := by simpa using he
      cases args' with
      | nil => simp only [List.length_nil, List.length_eq_zero_iff] at hlen; simp [hlen] at hne
      | cons u0 suf0 =>
        cases suf with
        | nil =>
          obtain ⟨m4, h4, f4, s4, c4⟩ := through_list P args ih seen
              { m with beginCount := m.beginCount + 1, terms := u0 :: suf0, q := 0,
                       tot := m.tot + (u0 :: suf0).length, cnt := m.cnt + 1 } [] u0 suf0 hCs
              ⟨hr.lock, hr.push, hr.pop, rfl, rfl⟩ ⟨hs.idx, hs.val, hs.q⟩ hlen (by simp)
          have c4 : m4.cnt + (m.tot + (suf0.length + 1)) = m.cnt + 1 + m4.tot + suf0.length := c4
          have hcount : m4.beginCount = m.beginCount + 1 := f4.count
          simp only [parseT, hne, List.isEmpty_nil, Bool.not_true, Bool.false_eq_true, if_false, exec]
          rw [step_begin_fn (by exact hcur)]
          simp only [Res.ok_bind]
          rw [step_check_fn (by exact hr.lock) (by exact hcur)]
          simp only [if_true, Res.ok_bind]
          rw [step_down (by exact hr.lock) (by exact hcur)]
          simp only [Res.ok_bind, exec_append]
          rw [h4]
          simp only [Res.ok_bind, exec]
          rw [step_fin f4.lock, checkEnd_top (by
            dsimp only
            rw [hcount]
            intro h
            have := (htop (by simpa using h)).1
            omega)]
          refine ⟨_, rfl, ⟨f4.lock, f4.push, f4.pop, f4.post, by simp only [hcount, Nat.add_sub_cancel], fun h => absurd rfl h⟩,
            ⟨s4.idx, s4.val, s4.q⟩, ?_⟩
          simp only [Counts, List.isEmpty_nil, if_true]
          omega
        | cons w suf =>
          obtain ⟨m4, h4, f4, s4, c4⟩ := through_list P args ih seen
              { m with beginCount := m.beginCount + 1, post := m.post ++ [(m.q + 1, m.terms)], terms := u0 :: suf0, q := 0,
                       tot := m.tot + (u0 :: suf0).length, cnt := m.cnt + 1 } [] u0 suf0 hCs
              ⟨hr.lock, hr.push, hr.pop, rfl, rfl⟩ ⟨hs.idx, hs.val, hs.q⟩ hlen (by simp)
          have c4 : m4.cnt + (m.tot + (suf0.length + 1)) = m.cnt + 1 + m4.tot + suf0.length := c4
          have hcount : m4.beginCount = m.beginCount + 1 := f4.count
          have hpost : m4.post = m.post ++ [(m.q + 1, m.terms)] := f4.post
          have hpost' : m4.post.eraseIdx m.post.length = m.post := by
            rw [hpost]
            simp [List.eraseIdx_append_of_length_le]
          have hlen1 : (m.post ++ [(m.q + 1, m.terms)]).length = m.post.length + 1 := by simp
          dsimp only at h4
          rw [hlen1] at h4
          simp only [parseT, hne, List.isEmpty_cons, Bool.not_false, Bool.false_eq_true, if_false, if_true, exec]
          rw [step_begin_fn (by exact hcur)]
          simp only [Res.ok_bind]
          rw [step_check_fn (by exact hr.lock) (by exact hcur)]
          simp only [if_true, Res.ok_bind]
          rw [step_push (by exact hr.lock)]
          simp only [Res.ok_bind]
          rw [step_down (by exact hr.lock) (by exact hcur)]
          simp only [Res.ok_bind, exec_append]
          rw [h4]
          have hlt : ¬ m.terms.length ≤ m.q + 1 := Nat.not_le.2 (hq.2 (by simp))
          simp only [Res.ok_bind, exec]
          rw [step_pop f4.lock (q := m.q + 1) (ts := m.terms) (by rw [hpost]; simp), if_neg hlt]
          simp only [Res.ok_bind]
          rw [step_fin (by exact f4.lock), checkEnd_top (by
            dsimp only
            rw [hcount]
            intro h
            exact absurd (htop (by simpa using h)).2 (by simp))]
          refine ⟨_, rfl, ⟨f4.lock, f4.push, f4.pop, hpost', by simp only [hcount, Nat.add_sub_cancel], fun _ => ⟨rfl, rfl⟩⟩,
            ⟨s4.idx, s4.val, s4.q⟩, ?_⟩
          simp only [Counts, List.isEmpty_cons, Bool.false_eq_true, if_false]
          omega

theorem through (P : Plan au) (t : UT) : Through P t := by
  induction t using UT.ind with
  | mv k => exact through_mv P k
  | fn p args ih => exact through_fn P p args ih

/-- A whole run succeeds. -/
theorem run_through (P : Plan au) {t1 t2 : UT} (h : P.C t1 t2) {s : Subst} (hs : P.Q s) :
    ∃ m, exec au (parseTerm t1) { terms := [t2], mt := s } = .ok m ∧ P.St t1.occ m := by
  obtain ⟨m, h1, _, h2, _⟩ := through P t1 t2 [] { terms := [t2], mt := s } [] [] h ⟨rfl, rfl, rfl, rfl, rfl⟩
    ⟨by simp, by simp, hs⟩ (fun _ => ⟨rfl, rfl⟩)
  exact ⟨m, by simpa [parseTerm, parseL] using h1, by simpa using h2⟩

/-! ### The binding phase -/

variable {ar : Nat → Nat} {σ : Nat → UT}

/-- Ground, and agreeing with the instantiation. -/
def Agree (ar : Nat → Nat) (σ : Nat → UT) (s : Subst) : Prop := s.Gd ar ∧ ∀ p ∈ s, p.2 = σ p.1

theorem Agree.set {s : Subst} (h : Agree ar σ s) {k : Nat} (hk : (σ k).Gd ar) : Agree ar σ (s.set k (σ k)) := by
  refine ⟨h.1.set hk k, fun p hp => ?_⟩
  rcases Subst.mem_set hp with hp | rfl
  · exact h.2 p hp
  · rfl

theorem Agree.nil : Agree ar σ [] := ⟨Subst.Gd.nil, by simp⟩

theorem Agree.of {s : Subst} (h : s.Gd ar) (hs : Respects σ s) : Agree ar σ s :=
  ⟨h, fun p hp => by rw [hs p hp, UT.inst_ground (h.2 p hp).2]⟩

theorem Agree.bound {s : Subst} (h : Agree ar σ s) (x : Nat) : boundElse s (.mv x) (σ x) = false := by
  simp only [boundElse]
  cases hg : s.get x with
  | none => rfl
  | some v =>
    have : v = σ x := h.2 _ (Subst.get_mem hg)
    simp [this]

/-- Binding a metavariable to the term that the instantiation gives it. -/
theorem au_bind (strict : Bool) (n : Nat) {s : Subst} (h : Agree ar σ s) {x : Nat} (hx : (σ x).Gd ar) :
    addUnif strict (n + 2) (.mv x) (σ x) s = .ok (s.set x (σ x)) ∧ Agree ar σ (s.set x (σ x)) := by
  refine ⟨?_, h.set hx⟩
  simp only [addUnif, addUnifBody, h.bound x]
  have : boundElse s (σ x) (.mv x) = false := by
    obtain ⟨p, l, hp⟩ := hx.isFn
    rw [hp]; rfl
  simp only [this, Bool.or_self, Bool.false_eq_true, if_false]
  exact elimBoth_ground n (h.set hx).1

theorem computeLoop_through (strict : Bool) (au : AU) (metas : List Nat) (subs : List (Nat × UT)) (done : List Nat) (T E : Subst)
    (hsub : ∀ p ∈ subs, ∃ k, metas[p.1]? = some k ∧ p.2 = σ k ∧ p.2.Gd ar) (hT : Agree ar σ T) (hE : Agree ar σ E) :
    ∃ T', computeLoop strict au metas subs done T E = .ok (T', E) ∧ Agree ar σ T' := by
  induction subs generalizing done T with
  | nil => exact ⟨T, rfl, hT⟩
  | cons p rest ih =>
    obtain ⟨i, u⟩ := p
    obtain ⟨k, hk, hu, hg⟩ := hsub (i, u) (by simp)
    simp only at hk hu hg
    subst hu
    have hrest := fun p hp => hsub p (List.mem_cons_of_mem (i, σ k) hp)
    simp only [computeLoop, hk]
    split
    · exact ih done T hrest hT
    · have hget : T.has k = true → T.get k = some (σ k) := by
        intro h
        obtain ⟨v, hv⟩ := Subst.get_isSome (Subst.has_iff.1 h)
        have : v = σ k := hT.2 _ (Subst.get_mem hv)
        rw [hv, this]
      have hc : (strict && T.has k && decide (T.get k ≠ some (σ k)) && decide (k ∉ done)) = false := by
        cases hh : T.has k with
        | false => simp
        | true => simp [hget hh]
      simp only [hc, Bool.false_eq_true, if_false]
      split
      · exact ih _ _ hrest (hT.set hg)
      · rename_i v hv
        rw [if_pos (hE.2 _ (Subst.get_mem hv)).symm]
        exact ih _ _ hrest (hT.set hg)

theorem mergeLoop_through (strict : Bool) (n N : Nat) (rest res : Subst) (hrest : ∀ p ∈ rest, p.2 = σ p.1 ∧ p.2.Gd ar)
    (hres : Agree ar σ res) :
    ∃ r, mergeLoop (addUnif strict (n + 2)) (N + 1) rest res = .ok r ∧ Agree ar σ r := by
  induction rest generalizing res with
  | nil => exact ⟨res, rfl, hres⟩
  | cons p rest ih =>
    obtain ⟨k, v⟩ := p
    obtain ⟨hv, hg⟩ := hrest (k, v) (by simp)
    simp only at hv hg
    subst hv
    have hrest' := fun p hp => hrest p (List.mem_cons_of_mem (k, σ k) hp)
    obtain ⟨r, hr, ha⟩ := ih (res.set k (σ k)) hrest' (hres.set hg)
    refine ⟨r, ?_, ha⟩
    simp only [mergeLoop]
    split
    · rw [(au_bind strict n hres hg).1]
      exact hr
    · rw [elimBoth_ground N (hres.set hg).1]
      exact hr

theorem merge_through (strict : Bool) (n N : Nat) (s1 s2 : Subst) (h1 : Agree ar σ s1) (h2 : Agree ar σ s2) :
    ∃ r, merge (addUnif strict (n + 2)) (N + 1) s1 s2 = .ok r ∧ Agree ar σ r := by
  simp only [merge]
  split
  · exact ⟨s2, rfl, h2⟩
  · split
    · exact ⟨s1, rfl, h1⟩
    · have e : s1.foldl (fun (r : Subst) p => r.set p.1 p.2) [] = s1 := by
        rw [foldl_set s1 [] (by simpa using h1.1.1), List.nil_append]
      rw [e]
      exact mergeLoop_through strict n N s2 s1 (fun p hp => ⟨h2.2 p hp, h2.1.2 p hp⟩) h1

theorem UT.inst_args (σ : Nat → UT) (p : Nat) (l : List UT) : (UT.fn p l).inst σ = .fn p (l.map (·.inst σ)) := by
  simp [UT.inst, UT.eval, termAlg, UT.evalL_eq]

/-- A term against a ground instance of it. -/
def planRight (ar : Nat → Nat) (σ : Nat → UT) (au : AU) (s : Subst) : Plan au where
  C t u := u = t.inst σ ∧ u.Gd ar
  V k u := u = σ k ∧ u.Gd ar
  Q s' := s' = s
  fn_fn := by
    rintro p l q m ⟨h, hg⟩
    rw [UT.inst_args] at h
    injection h with h1 h2
    subst h1 h2
    refine ⟨rfl, by simp, fun e he => ?_⟩
    rw [List.zip_map_right, List.mem_map] at he
    obtain ⟨⟨a, b⟩, hab, rfl⟩ := he
    have : b = a := by
      have := List.of_mem_zip hab
      clear hg this
      induction l with
      | nil => simp at hab
      | cons c l ih =>
        simp only [List.zip_cons_cons, List.mem_cons, Prod.mk.injEq] at hab
        rcases hab with ⟨rfl, rfl⟩ | hab
        · rfl
        · exact ih hab
    subst this
    exact ⟨rfl, hg.args _ (List.mem_map.2 ⟨b, (List.of_mem_zip hab).1, rfl⟩)⟩
  fn_mv := by
    rintro p l x ⟨h, _⟩
    rw [UT.inst_args] at h
    cases h
  mv := fun h => h
  cmp := by
    rintro k a b ⟨rfl, _⟩ ⟨rfl, _⟩ s _
    exact Or.inl rfl

/-- A ground term against a term of which it is an instance. -/
def planLeft (ar : Nat → Nat) (σ : Nat → UT) (strict : Bool) (n : Nat) : Plan (addUnif strict (n + 2)) where
  C t u := t = u.inst σ ∧ t.Gd ar
  V _ _ := False
  Q s := Agree ar σ s
  fn_fn := by
    rintro p l q m ⟨h, hg⟩
    rw [UT.inst_args] at h
    injection h with h1 h2
    subst h1 h2
    refine ⟨rfl, by simp, fun e he => ?_⟩
    rw [List.zip_map_left, List.mem_map] at he
    obtain ⟨⟨a, b⟩, hab, rfl⟩ := he
    have : b = a := by
      have := List.of_mem_zip hab
      clear hg this
      induction m with
      | nil => simp at hab
      | cons c m ih =>
        simp only [List.zip_cons_cons, List.mem_cons, Prod.mk.injEq] at hab
        rcases hab with ⟨rfl, rfl⟩ | hab
        · rfl
        · exact ih hab
    subst this
    exact ⟨rfl, hg.args _ (List.mem_map.2 ⟨b, (List.of_mem_zip hab).1, rfl⟩)⟩
  fn_mv := by
    rintro p l x ⟨h, hg⟩ s hs
    have h : UT.fn p l = σ x := h
    rw [h] at hg ⊢
    exact ⟨_, au_bind strict n hs hg⟩
  mv := by
    rintro k u ⟨_, hg⟩
    simp [UT.Gd, UT.occ] at hg
  cmp := by
    rintro k a b h
    exact h.elim

theorem tryUnif_through (strict : Bool) (n N : Nat) {t1 t2 : UT} {s : Subst} (hs : Agree ar σ s)
    (h : (t2 = t1.inst σ ∧ t2.Gd ar) ∨ (t1 = t2.inst σ ∧ t1.Gd ar)) :
    ∃ r, tryUnif strict (addUnif strict (n + 2)) (N + 1) t1 t2 s = .ok r ∧ Agree ar σ r := by
  have key : ∃ m, exec (addUnif strict (n + 2)) (parseTerm t1) { terms := [t2], mt := s } = .ok m ∧
      (∀ p ∈ m.subst, ∃ k, t1.occ[p.1]? = some k ∧ p.2 = σ k ∧ p.2.Gd ar) ∧ Agree ar σ m.mt := by
    rcases h with h | h
    · obtain ⟨m, h1, h2⟩ := run_through (planRight ar σ _ s) h (s := s) rfl
      refine ⟨m, h1, fun p hp => ?_, h2.q ▸ hs⟩
      have hlt := h2.idx p hp
      exact ⟨t1.occ[p.1], by simp [hlt], h2.val p hp _ (by simp [hlt])⟩
    · obtain ⟨m, h1, h2⟩ := run_through (planLeft ar σ strict n) h (s := s) hs
      refine ⟨m, h1, fun p hp => ?_, h2.q⟩
      have hlt := h2.idx p hp
      rw [h.2.2] at hlt
      simp at hlt
  obtain ⟨m, h1, h2, h3⟩ := key
  obtain ⟨T, h4, h5⟩ := computeLoop_through strict (addUnif strict (n + 2)) t1.occ m.subst [] [] m.mt h2 Agree.nil h3
  obtain ⟨r, h6, h7⟩ := merge_through strict n N m.mt T h3 h5
  refine ⟨r, ?_, h7⟩
  simp only [tryUnif, h1, compute, h4, Res.bind, elimBoth_ground N h3.1, elimBoth_ground N h5.1, h6,
    elimBoth_ground N h7.1]

theorem addUnif_through (strict : Bool) (n : Nat) {t1 t2 : UT} {s : Subst} (hs : Agree ar σ s)
    (h : (t2 = t1.inst σ ∧ t2.Gd ar) ∨ (t1 = t2.inst σ ∧ t1.Gd ar)) :
    ∃ r, addUnif strict (n + 3) t1 t2 s = .ok r ∧ Agree ar σ r := by
  have hmv : ∀ {k : Nat} {t : UT}, (t = (UT.mv k).inst σ ∧ t.Gd ar) → t = σ k ∧ (σ k).Gd ar := by
    rintro k t ⟨h, hg⟩
    have h : t = σ k := h
    exact ⟨h, h ▸ hg⟩
  cases t1 with
  | mv x =>
    have h := hmv (h.resolve_right fun h => by simp [UT.Gd, UT.occ] at h)
    rw [h.1]
    exact ⟨_, au_bind strict (n + 1) hs h.2⟩
  | fn p l =>
    cases t2 with
    | mv y =>
      have h := hmv (h.resolve_left fun h => by simp [UT.Gd, UT.occ] at h)
      refine ⟨s.set y (σ y), ?_, hs.set h.2⟩
      simp only [addUnif, addUnifBody, h.1]
      rw [hs.bound y]
      simp only [Bool.false_eq_true, if_false]
      exact elimBoth_ground (n + 1) (hs.set h.2).1
    | fn q m =>
      obtain ⟨r, h1, h2⟩ := tryUnif_through strict n (n + 1) hs h
      refine ⟨r, ?_, h2⟩
      have e : addUnif strict (n + 3) (.fn p l) (.fn q m) s =
        (tryUnif strict (addUnif strict (n + 2)) (n + 2) (.fn p l) (.fn q m) s).bind (elimBoth (n + 2)) := rfl
      rw [e, h1]
      exact elimBoth_ground (n + 1) h2.1

/-! ### Completeness -/

/-- **C26 against ground terms**: if one of the terms, and the terms of the initial bindings, have no
metavariables, and some instantiation makes the terms equal and satisfies the bindings, then a substitution is
found. -/
theorem C26_ground_complete {t1 t2 : UT} {s : Subst} (a1 : t1.Ar ar) (a2 : t2.Ar ar) (ha : s.Ar ar)
    (hk : (s.map (·.1)).Nodup) (ht : t1.occ = [] ∨ t2.occ = []) (hs : ∀ p ∈ s, p.2.occ = [])
    (h : ∃ σ, Unifier σ t1 t2 s) : ∃ r, Unifies t1 t2 s (.ok r) := by
  obtain ⟨σ, h1, h2⟩ := h
  obtain ⟨r, hr, _⟩ := addUnif_through (ar := ar) (σ := σ) false 0 (t1 := t1) (t2 := t2) (s := s)
    (Agree.of ⟨hk, fun p hp => ⟨ha p hp, hs p hp⟩⟩ h2) (by
      rcases ht with ht | ht
      · right
        rw [UT.inst_ground ht] at h1
        exact ⟨h1, a1, ht⟩
      · left
        rw [UT.inst_ground ht] at h1
        exact ⟨h1.symm, a2, ht⟩)
  exact ⟨r, by simp, 3, hr⟩

/-- So in this case unification succeeds exactly when the problem has a solution. -/
theorem C26_ground_exact {t1 t2 : UT} {s : Subst} (a1 : t1.Ar ar) (a2 : t2.Ar ar) (ha : s.Ar ar)
    (hk : (s.map (·.1)).Nodup) (ht : t1.occ = [] ∨ t2.occ = []) (hs : ∀ p ∈ s, p.2.occ = []) :
    (∃ r, Unifies t1 t2 s (.ok r)) ↔ ∃ σ, Unifier σ t1 t2 s :=
  ⟨fun ⟨r, hr⟩ => ⟨r.fn, C25_ground_sound a1 a2 ha hk ht hs hr⟩, C26_ground_complete a1 a2 ha hk ht hs⟩

/-- **C28 for ground substitutions**: they merge exactly when some instantiation satisfies both. -/
theorem C28_ground_exact {s1 s2 : Subst} (a1 : s1.Ar ar) (a2 : s2.Ar ar) (k1 : (s1.map (·.1)).Nodup)
    (k2 : (s2.map (·.1)).Nodup) (g1 : ∀ p ∈ s1, p.2.occ = []) (g2 : ∀ p ∈ s2, p.2.occ = []) :
    (∃ r, Merges s1 s2 (.ok r)) ↔ ∃ σ, Respects σ s1 ∧ Respects σ s2 := by
  constructor
  · rintro ⟨r, hr⟩
    obtain ⟨h, h1, h2, h3⟩ := C28_ground_sound a1 a2 k1 k2 g1 g2 hr
    have hsol : r.Solved := ⟨h1, fun p hp k _ hk => by rw [h3 p hp] at hk; cases hk⟩
    exact ⟨r.fn, h _ hsol.sol⟩
  · rintro ⟨σ, h1, h2⟩
    obtain ⟨r, hr, _⟩ := merge_through (ar := ar) (σ := σ) false 0 1 s1 s2
      (Agree.of ⟨k1, fun p hp => ⟨a1 p hp, g1 p hp⟩⟩ h1) (Agree.of ⟨k2, fun p hp => ⟨a2 p hp, g2 p hp⟩⟩ h2)
    exact ⟨r, by simp, 2, hr⟩

open Sample

example : ∃ σ, Unifier σ (f [X, g Y, X]) (f [a, g b, a]) [(1, b)] := by
  refine ⟨Subst.fn [(0, a), (1, b)], by decide +kernel, fun p hp => ?_⟩
  simp only [List.mem_singleton] at hp
  subst hp
  decide +kernel

example : Unifies (f [X, X]) (f [a, b]) [] .fail := ⟨by simp, 12, by decide +kernel⟩
example : Merges [(0, a)] [(1, b), (0, b)] .fail := ⟨by simp, 12, by decide +kernel⟩

end Verif.Unif
