import Verif.Equality.SatBuildInv

/-!
# Solutions found through the SAT problem
-/

namespace Verif.Equality.Sat
open Verif.Unif Verif.Equality

/-! ### Reading off the clauses -/

theorem mapM_mem {α β : Type} {f : α → Option β} {l : List α} {ls : List β} (h : l.mapM f = some ls) :
    (∀ a ∈ l, ∃ b ∈ ls, f a = some b) ∧ ∀ b ∈ ls, ∃ a ∈ l, f a = some b := by
  induction l generalizing ls with
  | nil => simp at h; subst h; simp
  | cons a l ih =>
    simp only [List.mapM_cons] at h
    obtain ⟨b, h1, h2⟩ := Option.bind_eq_some_iff.1 h
    obtain ⟨ls', h3, h4⟩ := Option.bind_eq_some_iff.1 h2
    cases h4
    have := ih h3
    refine ⟨fun a' ha' => ?_, fun b' hb' => ?_⟩
    · rcases List.mem_cons.1 ha' with rfl | ha'
      · exact ⟨b, by simp, h1⟩
      · obtain ⟨b', hb', e⟩ := this.1 a' ha'
        exact ⟨b', by simp [hb'], e⟩
    · rcases List.mem_cons.1 hb' with rfl | hb'
      · exact ⟨a, by simp, h1⟩
      · obtain ⟨a', ha', e⟩ := this.2 b' hb'
        exact ⟨a', by simp [ha'], e⟩

theorem mapM_some {α β : Type} {f : α → Option β} {l : List α} (h : ∀ a ∈ l, ∃ b, f a = some b) : ∃ ls, l.mapM f = some ls := by
  induction l with
  | nil => exact ⟨[], by simp⟩
  | cons a l ih =>
    obtain ⟨b, hb⟩ := h a (by simp)
    obtain ⟨ls, hl⟩ := ih (fun a ha => h a (by simp [ha]))
    exact ⟨b :: ls, by simp [hb, hl]⟩

theorem mem_pairs {l : List Nat} {p : Nat × Nat} (h : p ∈ pairs l) : p.1 ∈ l ∧ p.2 ∈ l := by
  induction l with
  | nil => simp [pairs] at h
  | cons a l ih =>
    simp only [pairs, List.mem_append, List.mem_map] at h
    rcases h with ⟨b, hb, rfl⟩ | h
    · exact ⟨by simp, by simp [hb]⟩
    · exact ⟨by simp [(ih h).1], by simp [(ih h).2]⟩

theorem pairs_ne {l : List Nat} (hl : l.Nodup) {p : Nat × Nat} (h : p ∈ pairs l) : p.1 ≠ p.2 := by
  induction l with
  | nil => simp [pairs] at h
  | cons a l ih =>
    rw [List.nodup_cons] at hl
    simp only [pairs, List.mem_append, List.mem_map] at h
    rcases h with ⟨b, hb, rfl⟩ | h
    · intro e; simp only at e; exact hl.1 (e ▸ hb)
    · exact ih hl.2 h

theorem pairs_all {l : List Nat} {a b : Nat} (ha : a ∈ l) (hb : b ∈ l) (hne : a ≠ b) : (a, b) ∈ pairs l ∨ (b, a) ∈ pairs l := by
  induction l with
  | nil => simp at ha
  | cons c l ih =>
    simp only [pairs, List.mem_append, List.mem_map]
    rcases List.mem_cons.1 ha with e | ha <;> rcases List.mem_cons.1 hb with e' | hb
    · exact absurd (e.trans e'.symm) hne
    · exact Or.inl (Or.inl ⟨b, hb, by rw [e]⟩)
    · exact Or.inr (Or.inl ⟨a, ha, by rw [e']⟩)
    · rcases ih ha hb with h | h
      · exact Or.inl (Or.inr h)
      · exact Or.inr (Or.inr h)

theorem vE_symm (st : St) (n a b : Nat) : vE st n a b = vE st n b a := by
  simp only [vE]
  by_cases h : st.h.rep a < st.h.rep b
  · rw [if_pos h, if_neg (by omega)]
  · rw [if_neg h]
    by_cases h' : st.h.rep b < st.h.rep a
    · rw [if_pos h']
    · have : st.h.rep a = st.h.rep b := by omega
      rw [if_neg h', this]

theorem vE_rep {st : St} (n : Nat) {a b a' b' : Nat} (h1 : st.h.rep a = st.h.rep a') (h2 : st.h.rep b = st.h.rep b') :
    vE st n a b = vE st n a' b' := by
  simp only [vE, h1, h2]

theorem mem_termsIn {st : St} {c : Nat} {t : TR} : t ∈ termsIn st c ↔
    (∃ r ∈ st.p.funs, t = .fn r ∧ st.h.rep r.cls = st.h.rep c) ∨ ∃ e ∈ st.p.metas, t = .mv e.1 e.2 ∧ st.h.rep e.2 = st.h.rep c := by
  simp only [termsIn, List.mem_append, List.mem_map, List.mem_filter, decide_eq_true_eq]
  constructor
  · rintro (⟨r, ⟨h1, h2⟩, rfl⟩ | ⟨r, ⟨h1, h2⟩, rfl⟩)
    · exact Or.inl ⟨r, h1, rfl, h2⟩
    · exact Or.inr ⟨r, h1, rfl, h2⟩
  · rintro (⟨r, h1, rfl, h2⟩ | ⟨r, h1, rfl, h2⟩)
    · exact Or.inl ⟨r, ⟨h1, h2⟩, rfl⟩
    · exact Or.inr ⟨r, ⟨h1, h2⟩, rfl⟩

theorem mem_funsIn {st : St} {c : Nat} {r : Rec} : r ∈ funsIn st c ↔ r ∈ st.p.funs ∧ st.h.rep r.cls = st.h.rep c := by
  simp only [funsIn, List.mem_filterMap]
  constructor
  · rintro ⟨t, ht, h⟩
    rcases mem_termsIn.1 ht with ⟨r', h1, rfl, h2⟩ | ⟨e, h1, rfl, h2⟩
    · simp only [Option.some.injEq] at h; subst h; exact ⟨h1, h2⟩
    · cases h
  · rintro ⟨h1, h2⟩
    exact ⟨.fn r, mem_termsIn.2 (Or.inl ⟨r, h1, rfl, h2⟩), rfl⟩

theorem mem_metasIn {st : St} {c x : Nat} : x ∈ metasIn st c ↔ ∃ d, (x, d) ∈ st.p.metas ∧ st.h.rep d = st.h.rep c := by
  simp only [metasIn, List.mem_filterMap]
  constructor
  · rintro ⟨t, ht, h⟩
    rcases mem_termsIn.1 ht with ⟨r', h1, rfl, h2⟩ | ⟨e, h1, rfl, h2⟩
    · cases h
    · simp only [Option.some.injEq] at h; subst h; exact ⟨e.2, h1, h2⟩
  · rintro ⟨d, h1, h2⟩
    exact ⟨.mv x d, mem_termsIn.2 (Or.inr ⟨_, h1, rfl, h2⟩), rfl⟩

theorem mem_psiPairs {st : St} {a : Nat} {q : Rec × Rec} : q ∈ psiPairs st a ↔ q.1 ∈ st.p.funs ∧ st.h.rep q.1.cls = st.h.rep a ∧
    q.1.args ≠ [] ∧ q.2 ∈ st.p.funs ∧ q.2.sym = q.1.sym ∧ st.h.rep q.1.cls ≠ st.h.rep q.2.cls := by
  simp only [psiPairs, List.mem_flatMap, List.mem_filter, List.mem_map, decide_eq_true_eq, mem_funsIn]
  constructor
  · rintro ⟨r, ⟨⟨h1, h2⟩, h3⟩, s, ⟨h4, h5⟩, rfl⟩
    exact ⟨h1, h2, h3, h4, h5.1, h5.2⟩
  · rintro ⟨h1, h2, h3, h4, h5, h6⟩
    exact ⟨q.1, ⟨⟨h1, h2⟩, h3⟩, q.2, ⟨h4, h5, h6⟩, rfl⟩

/-- The clauses before those without literals are dropped. -/
def allClauses (st : St) (ecs : List Nat) (es : List Clause) : List Clause :=
  mappingClauses st ecs ++ subsClauses st ecs ++ es ++ goalClauses st (numPairs ecs) 0 st.p.goals ++ [goalClause st.p.goals.length] ++
      representedClauses st ecs ++ subtermClauses st ecs ++ transClauses st ecs ++ substClauses st ecs ++ acyclicClauses st ecs

theorem mem_all {st : St} {ecs : List Nat} {es : List Clause} {c : Clause} : c ∈ allClauses st ecs es ↔
    c ∈ mappingClauses st ecs ∨ c ∈ subsClauses st ecs ∨ c ∈ es ∨ c ∈ goalClauses st (numPairs ecs) 0 st.p.goals ∨
      c = goalClause st.p.goals.length ∨ c ∈ representedClauses st ecs ∨ c ∈ subtermClauses st ecs ∨ c ∈ transClauses st ecs ∨
      c ∈ substClauses st ecs ∨ c ∈ acyclicClauses st ecs := by
  simp only [allClauses, List.mem_append, List.mem_singleton, or_assoc]

theorem mem_build {st : St} {ecs : List Nat} {cs : List Clause} (h : build st ecs = some cs) :
    ∃ es, eClauses st ecs (numPairs ecs) = some es ∧ ∀ c, c ∈ cs ↔ c ∈ allClauses st ecs es ∧ c ≠ [] := by
  simp only [build, Option.map_eq_some_iff] at h
  obtain ⟨es, h1, rfl⟩ := h
  refine ⟨es, h1, fun c => ?_⟩
  show c ∈ (allClauses st ecs es).filter _ ↔ _
  rw [List.mem_filter]
  simp

/-- What the clauses about the equality of classes say. -/
theorem mem_eClauses {st : St} {ecs : List Nat} {N : Nat} {es : List Clause} (h : eClauses st ecs N = some es) (c : Clause) :
    c ∈ es ↔ ∃ n < N, ∃ p ∈ pairs ecs, st.h.rep p.1 ≠ st.h.rep p.2 ∧ ∃ ps, psiClauses st n p.1 p.2 = some ps ∧
      (c = [(vE st (n + 1) p.1 p.2, false), (vE st n p.1 p.2, true), (vPhi st n p.1 p.2, true), (vPsi st n p.1 p.2, true)] ∨
        c ∈ phiClauses st ecs n p.1 p.2 ∨ c ∈ ps) := by
  simp only [eClauses, Option.map_eq_some_iff] at h
  obtain ⟨ls, h1, rfl⟩ := h
  simp only [List.mem_flatten]
  constructor
  · rintro ⟨l, hl, hc⟩
    obtain ⟨n, hn, e⟩ := (mapM_mem h1).2 l hl
    simp only [Option.map_eq_some_iff] at e
    obtain ⟨ls2, e2, rfl⟩ := e
    obtain ⟨l2, hl2, hc2⟩ := List.mem_flatten.1 hc
    obtain ⟨p, hp, e3⟩ := (mapM_mem e2).2 l2 hl2
    split at e3
    · rename_i hne
      simp only [Option.map_eq_some_iff] at e3
      obtain ⟨ps, e4, rfl⟩ := e3
      simp only [List.mem_cons, List.mem_append] at hc2
      exact ⟨n, by simpa using hn, p, hp, hne, ps, e4, hc2⟩
    · cases e3; simp at hc2
  · rintro ⟨n, hn, p, hp, hne, ps, e, hc⟩
    obtain ⟨l, hl, e1⟩ := (mapM_mem h1).1 n (by simpa using hn)
    refine ⟨l, hl, ?_⟩
    simp only [Option.map_eq_some_iff] at e1
    obtain ⟨ls2, e2, rfl⟩ := e1
    obtain ⟨l2, hl2, e3⟩ := (mapM_mem e2).1 p hp
    rw [if_pos hne, e] at e3
    simp only [Option.map_some, Option.some.injEq] at e3
    refine List.mem_flatten.2 ⟨l2, hl2, ?_⟩
    rw [← e3]
    simpa only [List.mem_cons, List.mem_append] using hc

theorem mem_psiClauses {st : St} {n a b : Nat} {ps : List Clause} (h : psiClauses st n a b = some ps) (c : Clause) :
    c ∈ ps ↔ (∃ q ∈ psiPairs st a, ∃ z, zipArgs q.1.args q.2.args = some z ∧ ∃ p ∈ z, c = [(vF n q.1 q.2, false), (vE st n p.1 p.2, true)]) ∨
      c = (vPsi st n a b, false) :: (psiPairs st a).map fun q => (vF n q.1 q.2, true) := by
  simp only [psiClauses, Option.map_eq_some_iff] at h
  obtain ⟨ls, h1, rfl⟩ := h
  simp only [List.mem_append, List.mem_flatten, List.mem_singleton]
  constructor
  · rintro (⟨l, hl, hc⟩ | hc)
    · obtain ⟨q, hq, e⟩ := (mapM_mem h1).2 l hl
      simp only [Option.map_eq_some_iff] at e
      obtain ⟨z, e2, rfl⟩ := e
      obtain ⟨p, hp, rfl⟩ := List.mem_map.1 hc
      exact Or.inl ⟨q, hq, z, e2, p, hp, rfl⟩
    · exact Or.inr hc
  · rintro (⟨q, hq, z, e, p, hp, rfl⟩ | hc)
    · obtain ⟨l, hl, e1⟩ := (mapM_mem h1).1 q hq
      rw [e] at e1
      simp only [Option.map_some, Option.some.injEq] at e1
      exact Or.inl ⟨l, hl, by rw [← e1]; exact List.mem_map.2 ⟨p, hp, rfl⟩⟩
    · exact Or.inr hc

theorem zipArgs_some {l m : List Nat} (h : l.length = m.length) : zipArgs l m = some (l.zip m) := by
  induction l generalizing m with
  | nil => simp [zipArgs]
  | cons a l ih =>
    cases m with
    | nil => simp at h
    | cons b m => simp [zipArgs, ih (by simpa using h)]

/-- With fixed arities the clauses can be built. -/
theorem build_some {ar : Nat → Nat} {st : St} (h : WF ar st) (ecs : List Nat) : ∃ cs, build st ecs = some cs := by
  have hp : ∀ n a b, ∃ ps, psiClauses st n a b = some ps := by
    intro n a b
    obtain ⟨ls, e⟩ := mapM_some (l := psiPairs st a) (f := fun q => (zipArgs q.1.args q.2.args).map fun z =>
      z.map fun p => [(vF n q.1 q.2, false), (vE st n p.1 p.2, true)]) (by
        intro q hq
        obtain ⟨h1, -, -, h4, h5, -⟩ := mem_psiPairs.1 hq
        rw [zipArgs_some (by rw [h.arity _ h1, h.arity _ h4, h5])]
        exact ⟨_, rfl⟩)
    exact ⟨_, by simp only [psiClauses, e, Option.map_some]; rfl⟩
  obtain ⟨ls, e⟩ := mapM_some (l := List.range (numPairs ecs)) (f := fun n => ((pairs ecs).mapM fun p =>
    if st.h.rep p.1 ≠ st.h.rep p.2 then
      (psiClauses st n p.1 p.2).map fun ps =>
        [(vE st (n + 1) p.1 p.2, false), (vE st n p.1 p.2, true), (vPhi st n p.1 p.2, true), (vPsi st n p.1 p.2, true)] ::
          (phiClauses st ecs n p.1 p.2 ++ ps)
    else some []).map List.flatten) (by
      intro n _
      obtain ⟨l2, e2⟩ := mapM_some (l := pairs ecs) (f := fun p =>
        if st.h.rep p.1 ≠ st.h.rep p.2 then
          (psiClauses st n p.1 p.2).map fun ps =>
            [(vE st (n + 1) p.1 p.2, false), (vE st n p.1 p.2, true), (vPhi st n p.1 p.2, true), (vPsi st n p.1 p.2, true)] ::
              (phiClauses st ecs n p.1 p.2 ++ ps)
        else some []) (by
          intro p _
          obtain ⟨ps, e3⟩ := hp n p.1 p.2
          by_cases hne : st.h.rep p.1 ≠ st.h.rep p.2
          · rw [if_pos hne, e3]; exact ⟨_, rfl⟩
          · rw [if_neg hne]; exact ⟨_, rfl⟩)
      rw [e2]; exact ⟨_, rfl⟩)
  exact ⟨_, by simp only [build, eClauses, e, Option.map_some]; rfl⟩

/-- What a satisfying assignment says about classes. -/
structure Models (m : Var → Bool) (st : St) (ecs : List Nat) : Prop where
  one : ∀ x ∈ st.p.metas, ∀ p ∈ pairs ecs, m (vS st x.1 p.1) = true → m (vS st x.1 p.2) = true → False
  zero : ∀ p ∈ pairs ecs, m (vE st 0 p.1 p.2) = true →
    (∃ x ∈ metasIn st p.1, m (vS st x p.2) = true) ∨ ∃ x ∈ metasIn st p.2, m (vS st x p.1) = true
  step : ∀ n < numPairs ecs, ∀ p ∈ pairs ecs, st.h.rep p.1 ≠ st.h.rep p.2 → m (vE st (n + 1) p.1 p.2) = true →
    m (vE st n p.1 p.2) = true ∨ (∃ c ∈ ecs, m (vE st n p.1 c) = true ∧ m (vE st n c p.2) = true) ∨ m (vPsi st n p.1 p.2) = true
  psi : ∀ n < numPairs ecs, ∀ p ∈ pairs ecs, st.h.rep p.1 ≠ st.h.rep p.2 → m (vPsi st n p.1 p.2) = true →
    ∃ q ∈ psiPairs st p.1, ∀ z, zipArgs q.1.args q.2.args = some z → ∀ a ∈ z, m (vE st n a.1 a.2) = true
  goal : st.p.goals ≠ [] → ∃ g ∈ st.p.goals, ∀ p ∈ g, m (vE st (numPairs ecs) p.1 p.2) = true
  repr : ∀ c ∈ ecs, termsIn st c ≠ [] → ∃ t ∈ termsIn st c, m (vR st c t) = true
  below : ∀ c ∈ ecs, ∀ r ∈ funsIn st c, ∀ a ∈ r.args, m (vR st c (.fn r)) = true → m (vO st a c) = true
  trans : ∀ i ∈ ecs, ∀ j ∈ ecs, ∀ k ∈ ecs, st.h.rep i ≠ st.h.rep j → st.h.rep j ≠ st.h.rep k → m (vO st j i) = true →
    m (vO st k j) = true → m (vO st k i) = true
  subst : ∀ x ∈ st.p.metas, ∀ i ∈ ecs, ∀ k ∈ ecs, st.h.rep i ≠ st.h.rep x.2 → m (vS st x.1 i) = true →
    m (vR st x.2 (.mv x.1 x.2)) = true →
    (m (vO st k i) = true → m (vO st k x.2) = true) ∧ (m (vO st x.2 k) = true → m (vO st i k) = true)
  irrefl : ∀ c ∈ ecs, m (vO st c c) = false

theorem mem_goalClauses {st : St} {N i : Nat} {gs : List (List (Nat × Nat))} {c : Clause} : c ∈ goalClauses st N i gs ↔
    ∃ j, ∃ h : j < gs.length, ∃ p ∈ gs[j], c = [(Var.C (i + j), false), (vE st N p.1 p.2, true)] := by
  induction gs generalizing i with
  | nil => simp [goalClauses]
  | cons g gs ih =>
    simp only [goalClauses, List.mem_append, List.mem_map, ih]
    constructor
    · rintro (⟨p, hp, rfl⟩ | ⟨j, hj, p, hp, rfl⟩)
      · exact ⟨0, by simp, p, hp, rfl⟩
      · exact ⟨j + 1, by simpa using hj, p, hp, by rw [show i + 1 + j = i + (j + 1) by omega]⟩
    · rintro ⟨j, hj, p, hp, rfl⟩
      cases j with
      | zero => exact Or.inl ⟨p, hp, rfl⟩
      | succ j => exact Or.inr ⟨j, by simpa using hj, p, hp, by rw [show i + 1 + j = i + (j + 1) by omega]⟩

theorem models {m : Var → Bool} {st : St} {ecs : List Nat} {cs : List Clause} (hb : build st ecs = some cs) (hs : Sat m cs) :
    Models m st ecs := by
  obtain ⟨es, he, hm⟩ := mem_build hb
  have sat : ∀ c, c ∈ allClauses st ecs es → c ≠ [] → ∃ l ∈ c, m l.1 = l.2 := fun c h1 h2 => hs c ((hm c).2 ⟨h1, h2⟩)
  have psiSome : ∀ n < numPairs ecs, ∀ p ∈ pairs ecs, st.h.rep p.1 ≠ st.h.rep p.2 → ∃ ps, psiClauses st n p.1 p.2 = some ps := by
    intro n hn p hp hne
    simp only [eClauses, Option.map_eq_some_iff] at he
    obtain ⟨ls, h1, -⟩ := he
    obtain ⟨l, -, e1⟩ := (mapM_mem h1).1 n (by simpa using hn)
    simp only [Option.map_eq_some_iff] at e1
    obtain ⟨ls2, e2, -⟩ := e1
    obtain ⟨l2, -, e3⟩ := (mapM_mem e2).1 p hp
    rw [if_pos hne] at e3
    simp only [Option.map_eq_some_iff] at e3
    obtain ⟨ps, e4, -⟩ := e3
    exact ⟨ps, e4⟩
  refine ⟨?_, ?_, ?_, ?_, ?_, ?_, ?_, ?_, ?_, ?_⟩
  · intro x hx p hp h1 h2
    obtain ⟨l, hl, e⟩ := sat [(vS st x.1 p.1, false), (vS st x.1 p.2, false)]
      (mem_all.2 (Or.inl (List.mem_flatMap.2 ⟨x, hx, List.mem_map.2 ⟨p, hp, rfl⟩⟩))) (by simp)
    simp only [List.mem_cons, List.not_mem_nil, or_false] at hl
    rcases hl with rfl | rfl
    · simp [h1] at e
    · simp [h2] at e
  · intro p hp h1
    obtain ⟨l, hl, e⟩ := sat _ (mem_all.2 (Or.inr (Or.inl (List.mem_map.2 ⟨p, hp, rfl⟩)))) (by simp)
    simp only [List.mem_cons, List.mem_append, List.mem_map] at hl
    rcases hl with rfl | ⟨x, hx, rfl⟩ | ⟨x, hx, rfl⟩
    · simp [h1] at e
    · exact Or.inl ⟨x, hx, e⟩
    · exact Or.inr ⟨x, hx, e⟩
  · intro n hn p hp hne h1
    obtain ⟨ps, hps⟩ := psiSome n hn p hp hne
    obtain ⟨l, hl, e⟩ := sat _ (mem_all.2 (Or.inr (Or.inr (Or.inl ((mem_eClauses he _).2 ⟨n, hn, p, hp, hne, ps, hps, Or.inl rfl⟩))))) (by simp)
    simp only [List.mem_cons, List.not_mem_nil, or_false] at hl
    rcases hl with rfl | rfl | rfl | rfl
    · simp [h1] at e
    · exact Or.inl e
    · refine Or.inr (Or.inl ?_)
      have hphi : ∀ c, c ∈ phiClauses st ecs n p.1 p.2 → c ∈ allClauses st ecs es := fun c hc =>
        mem_all.2 (Or.inr (Or.inr (Or.inl ((mem_eClauses he _).2 ⟨n, hn, p, hp, hne, ps, hps, Or.inr (Or.inl hc)⟩))))
      obtain ⟨l2, hl2, e2⟩ := sat _ (hphi _ (by simp only [phiClauses, List.mem_append, List.mem_singleton]; exact Or.inr rfl)) (by simp)
      simp only [List.mem_cons, List.mem_map] at hl2
      rcases hl2 with rfl | ⟨c, hc, rfl⟩
      · simp only at e e2; rw [e] at e2; cases e2
      · simp only [List.mem_filter] at hc
        refine ⟨c, hc.1, ?_, ?_⟩
        · obtain ⟨l3, hl3, e3⟩ := sat [(vT st n p.1 p.2 c, false), (vE st n p.1 c, true)] (hphi _ (by
            simp only [phiClauses, List.mem_append, List.mem_flatMap, List.mem_filter]
            exact Or.inl ⟨c, hc, by simp⟩)) (by simp)
          simp only [List.mem_cons, List.not_mem_nil, or_false] at hl3
          rcases hl3 with rfl | rfl
          · simp only at e2 e3; rw [e2] at e3; cases e3
          · exact e3
        · obtain ⟨l3, hl3, e3⟩ := sat [(vT st n p.1 p.2 c, false), (vE st n c p.2, true)] (hphi _ (by
            simp only [phiClauses, List.mem_append, List.mem_flatMap, List.mem_filter]
            exact Or.inl ⟨c, hc, by simp⟩)) (by simp)
          simp only [List.mem_cons, List.not_mem_nil, or_false] at hl3
          rcases hl3 with rfl | rfl
          · simp only at e2 e3; rw [e2] at e3; cases e3
          · exact e3
    · exact Or.inr (Or.inr e)
  · intro n hn p hp hne h1
    obtain ⟨ps, hps⟩ := psiSome n hn p hp hne
    have hpsi : ∀ c, c ∈ ps → c ∈ allClauses st ecs es := fun c hc =>
      mem_all.2 (Or.inr (Or.inr (Or.inl ((mem_eClauses he _).2 ⟨n, hn, p, hp, hne, ps, hps, Or.inr (Or.inr hc)⟩))))
    obtain ⟨l, hl, e⟩ := sat _ (hpsi _ ((mem_psiClauses hps _).2 (Or.inr rfl))) (by simp)
    simp only [List.mem_cons, List.mem_map] at hl
    rcases hl with rfl | ⟨q, hq, rfl⟩
    · simp [h1] at e
    · refine ⟨q, hq, fun z hz a ha => ?_⟩
      obtain ⟨l2, hl2, e2⟩ := sat _ (hpsi _ ((mem_psiClauses hps _).2 (Or.inl ⟨q, hq, z, hz, a, ha, rfl⟩))) (by simp)
      simp only [List.mem_cons, List.not_mem_nil, or_false] at hl2
      rcases hl2 with rfl | rfl
      · simp only at e e2; rw [e] at e2; cases e2
      · exact e2
  · intro hg
    obtain ⟨l, hl, e⟩ := sat (goalClause st.p.goals.length) (mem_all.2 (by simp)) (by
      cases hgs : st.p.goals with
      | nil => exact absurd hgs hg
      | cons g gs => simp [goalClause])
    simp only [goalClause, List.mem_map, List.mem_range] at hl
    obtain ⟨i, hi, rfl⟩ := hl
    refine ⟨st.p.goals[i], List.getElem_mem hi, fun p hp => ?_⟩
    obtain ⟨l2, hl2, e2⟩ := sat [(Var.C i, false), (vE st (numPairs ecs) p.1 p.2, true)]
      (mem_all.2 (Or.inr (Or.inr (Or.inr (Or.inl (mem_goalClauses.2 ⟨i, hi, p, hp, by simp⟩)))))) (by simp)
    simp only [List.mem_cons, List.not_mem_nil, or_false] at hl2
    rcases hl2 with rfl | rfl
    · simp only at e e2; rw [e] at e2; cases e2
    · exact e2
  · intro c hc hne
    obtain ⟨l, hl, e⟩ := sat ((termsIn st c).map fun t => (vR st c t, true))
      (mem_all.2 (Or.inr (Or.inr (Or.inr (Or.inr (Or.inr (Or.inl (List.mem_map.2 ⟨c, hc, rfl⟩)))))))) (by simpa using hne)
    obtain ⟨t, ht, rfl⟩ := List.mem_map.1 hl
    exact ⟨t, ht, e⟩
  · intro c hc r hr a ha h1
    obtain ⟨l, hl, e⟩ := sat [(vR st c (.fn r), false), (vO st a c, true)]
      (mem_all.2 (Or.inr (Or.inr (Or.inr (Or.inr (Or.inr (Or.inr (Or.inl (List.mem_flatMap.2 ⟨c, hc, List.mem_flatMap.2
        ⟨r, hr, List.mem_map.2 ⟨a, ha, rfl⟩⟩⟩))))))))) (by simp)
    simp only [List.mem_cons, List.not_mem_nil, or_false] at hl
    rcases hl with rfl | rfl
    · simp [h1] at e
    · exact e
  · intro i hi j hj k hk hij hjk h1 h2
    obtain ⟨l, hl, e⟩ := sat [(vO st j i, false), (vO st k j, false), (vO st k i, true)]
      (mem_all.2 (Or.inr (Or.inr (Or.inr (Or.inr (Or.inr (Or.inr (Or.inr (Or.inl (List.mem_flatMap.2 ⟨i, hi, List.mem_flatMap.2
        ⟨j, List.mem_filter.2 ⟨hj, by simpa using hij⟩, List.mem_map.2 ⟨k, List.mem_filter.2 ⟨hk, by simpa using hjk⟩, rfl⟩⟩⟩)))))))))) (by simp)
    simp only [List.mem_cons, List.not_mem_nil, or_false] at hl
    rcases hl with rfl | rfl | rfl
    · simp [h1] at e
    · simp [h2] at e
    · exact e
  · intro x hx i hi k hk hne h1 h2
    have hmem : ∀ c, c ∈ [[(vS st x.1 i, false), (vR st x.2 (.mv x.1 x.2), false), (vO st k i, false), (vO st k x.2, true)],
        [(vS st x.1 i, false), (vR st x.2 (.mv x.1 x.2), false), (vO st x.2 k, false), (vO st i k, true)]] →
        c ∈ allClauses st ecs es := fun c hc =>
      mem_all.2 (Or.inr (Or.inr (Or.inr (Or.inr (Or.inr (Or.inr (Or.inr (Or.inr (Or.inl (List.mem_flatMap.2 ⟨x, hx, List.mem_flatMap.2
        ⟨i, List.mem_filter.2 ⟨hi, by simpa using hne⟩, List.mem_flatMap.2 ⟨k, hk, hc⟩⟩⟩))))))))))
    refine ⟨fun h3 => ?_, fun h3 => ?_⟩
    · obtain ⟨l, hl, e⟩ := sat _ (hmem _ (List.mem_cons_self ..)) (by simp)
      simp only [List.mem_cons, List.not_mem_nil, or_false] at hl
      rcases hl with rfl | rfl | rfl | rfl
      · simp [h1] at e
      · simp [h2] at e
      · simp [h3] at e
      · exact e
    · obtain ⟨l, hl, e⟩ := sat _ (hmem _ (List.mem_cons_of_mem _ (List.mem_cons_self ..))) (by simp)
      simp only [List.mem_cons, List.not_mem_nil, or_false] at hl
      rcases hl with rfl | rfl | rfl | rfl
      · simp [h1] at e
      · simp [h2] at e
      · simp [h3] at e
      · exact e
  · intro c hc
    obtain ⟨l, hl, e⟩ := sat [(vO st c c, false)]
      (mem_all.2 (Or.inr (Or.inr (Or.inr (Or.inr (Or.inr (Or.inr (Or.inr (Or.inr (Or.inr (List.mem_map.2 ⟨c, hc, rfl⟩))))))))))) (by simp)
    simp only [List.mem_cons, List.not_mem_nil, or_false] at hl
    subst hl
    exact e

/-! ### Registered literals -/

/-- Literals that are neither of a substitution nor of a representation. -/
def Other : Var → Prop
  | .S _ _ => False
  | .R _ _ => False
  | _ => True

theorem other_E (st : St) (n a b : Nat) : Other (vE st n a b) := by simp only [vE]; split <;> trivial
theorem other_Phi (st : St) (n a b : Nat) : Other (vPhi st n a b) := by simp only [vPhi]; split <;> trivial
theorem other_Psi (st : St) (n a b : Nat) : Other (vPsi st n a b) := by simp only [vPsi]; split <;> trivial
theorem other_T (st : St) (n a b c : Nat) : Other (vT st n a b c) := by simp only [vT]; split <;> trivial
theorem other_F (n : Nat) (r s : Rec) : Other (vF n r s) := by simp only [vF]; split <;> trivial

theorem lit_cases {st : St} {ecs : List Nat} {es : List Clause} (he : eClauses st ecs (numPairs ecs) = some es) {c : Clause}
    (hc : c ∈ allClauses st ecs es) {l : Lit} (hl : l ∈ c) : Other l.1 ∨
      (∃ x d i, (x, d) ∈ st.p.metas ∧ i ∈ ecs ∧ l.1 = vS st x i) ∨
      (∃ i, ∃ t ∈ termsIn st i, l.1 = vR st i t) := by
  rcases mem_all.1 hc with h | h | h | h | rfl | h | h | h | h | h
  · obtain ⟨x, hx, h⟩ := List.mem_flatMap.1 h
    obtain ⟨p, hp, rfl⟩ := List.mem_map.1 h
    simp only [List.mem_cons, List.not_mem_nil, or_false] at hl
    rcases hl with rfl | rfl
    · exact Or.inr (Or.inl ⟨x.1, x.2, p.1, hx, (mem_pairs hp).1, rfl⟩)
    · exact Or.inr (Or.inl ⟨x.1, x.2, p.2, hx, (mem_pairs hp).2, rfl⟩)
  · obtain ⟨p, hp, rfl⟩ := List.mem_map.1 h
    simp only [List.mem_cons, List.mem_append, List.mem_map] at hl
    rcases hl with rfl | ⟨x, hx, rfl⟩ | ⟨x, hx, rfl⟩
    · exact Or.inl (other_E ..)
    · obtain ⟨d, hd, -⟩ := mem_metasIn.1 hx
      exact Or.inr (Or.inl ⟨x, d, p.2, hd, (mem_pairs hp).2, rfl⟩)
    · obtain ⟨d, hd, -⟩ := mem_metasIn.1 hx
      exact Or.inr (Or.inl ⟨x, d, p.1, hd, (mem_pairs hp).1, rfl⟩)
  · refine Or.inl ?_
    obtain ⟨n, -, p, -, -, ps, hps, h⟩ := (mem_eClauses he c).1 h
    rcases h with rfl | h | h
    · simp only [List.mem_cons, List.not_mem_nil, or_false] at hl
      rcases hl with rfl | rfl | rfl | rfl
      · exact other_E ..
      · exact other_E ..
      · exact other_Phi ..
      · exact other_Psi ..
    · simp only [phiClauses, List.mem_append, List.mem_flatMap, List.mem_singleton] at h
      rcases h with ⟨d, -, h⟩ | rfl
      · simp only [List.mem_cons, List.not_mem_nil, or_false] at h
        rcases h with rfl | rfl <;> simp only [List.mem_cons, List.not_mem_nil, or_false] at hl <;> rcases hl with rfl | rfl
        · exact other_T ..
        · exact other_E ..
        · exact other_T ..
        · exact other_E ..
      · simp only [List.mem_cons, List.mem_map] at hl
        rcases hl with rfl | ⟨x, -, rfl⟩
        · exact other_Phi ..
        · exact other_T ..
    · rcases (mem_psiClauses hps c).1 h with ⟨q, -, z, -, a, -, rfl⟩ | rfl
      · simp only [List.mem_cons, List.not_mem_nil, or_false] at hl
        rcases hl with rfl | rfl
        · exact other_F ..
        · exact other_E ..
      · simp only [List.mem_cons, List.mem_map] at hl
        rcases hl with rfl | ⟨x, -, rfl⟩
        · exact other_Psi ..
        · exact other_F ..
  · obtain ⟨j, hj, p, hp, rfl⟩ := mem_goalClauses.1 h
    simp only [List.mem_cons, List.not_mem_nil, or_false] at hl
    rcases hl with rfl | rfl
    · exact Or.inl trivial
    · exact Or.inl (other_E ..)
  · simp only [goalClause, List.mem_map] at hl
    obtain ⟨i, -, rfl⟩ := hl
    exact Or.inl trivial
  · obtain ⟨i, hi, rfl⟩ := List.mem_map.1 h
    obtain ⟨t, ht, rfl⟩ := List.mem_map.1 hl
    exact Or.inr (Or.inr ⟨i, t, ht, rfl⟩)
  · obtain ⟨i, hi, h⟩ := List.mem_flatMap.1 h
    obtain ⟨r, hr, h⟩ := List.mem_flatMap.1 h
    obtain ⟨a, ha, rfl⟩ := List.mem_map.1 h
    simp only [List.mem_cons, List.not_mem_nil, or_false] at hl
    rcases hl with rfl | rfl
    · exact Or.inr (Or.inr ⟨i, .fn r, mem_termsIn.2 (Or.inl ⟨r, (mem_funsIn.1 hr).1, rfl, (mem_funsIn.1 hr).2⟩), rfl⟩)
    · exact Or.inl trivial
  · obtain ⟨i, hi, h⟩ := List.mem_flatMap.1 h
    obtain ⟨r, hr, h⟩ := List.mem_flatMap.1 h
    obtain ⟨a, ha, rfl⟩ := List.mem_map.1 h
    simp only [List.mem_cons, List.not_mem_nil, or_false] at hl
    rcases hl with rfl | rfl | rfl <;> exact Or.inl trivial
  · obtain ⟨x, hx, h⟩ := List.mem_flatMap.1 h
    obtain ⟨i, hi, h⟩ := List.mem_flatMap.1 h
    obtain ⟨k, hk, h⟩ := List.mem_flatMap.1 h
    have hs : Other (vS st x.1 i) ∨ (∃ y d j, (y, d) ∈ st.p.metas ∧ j ∈ ecs ∧ vS st x.1 i = vS st y j) ∨
        (∃ j, ∃ t ∈ termsIn st j, vS st x.1 i = vR st j t) :=
      Or.inr (Or.inl ⟨x.1, x.2, i, hx, (List.mem_filter.1 hi).1, rfl⟩)
    have hr : Other (vR st x.2 (.mv x.1 x.2)) ∨ (∃ y d j, (y, d) ∈ st.p.metas ∧ j ∈ ecs ∧ vR st x.2 (.mv x.1 x.2) = vS st y j) ∨
        (∃ j, ∃ t ∈ termsIn st j, vR st x.2 (.mv x.1 x.2) = vR st j t) :=
      Or.inr (Or.inr ⟨x.2, _, mem_termsIn.2 (Or.inr ⟨x, hx, rfl, rfl⟩), rfl⟩)
    simp only [List.mem_cons, List.not_mem_nil, or_false] at h
    rcases h with rfl | rfl <;> simp only [List.mem_cons, List.not_mem_nil, or_false] at hl <;> rcases hl with rfl | rfl | rfl | rfl
    all_goals first | exact hs | exact hr | exact Or.inl trivial
  · obtain ⟨i, hi, rfl⟩ := List.mem_map.1 h
    simp only [List.mem_singleton] at hl
    subst hl
    exact Or.inl trivial

theorem registered_S {st : St} {ecs : List Nat} {cs : List Clause} (hk : Kept st) (hn : Enum st ecs) (hb : build st ecs = some cs)
    {x c : Nat} (h : Registered cs (.S x c)) : c ∈ ecs ∧ ∃ d, (x, d) ∈ st.p.metas := by
  obtain ⟨es, he, hm⟩ := mem_build hb
  obtain ⟨cl, hcl, b, hl⟩ := h
  rcases lit_cases he ((hm cl).1 hcl).1 hl with h | ⟨y, d, i, h1, h2, h3⟩ | ⟨i, t, h1, h2⟩
  · exact absurd h (by simp [Other])
  · simp only [vS, Var.S.injEq] at h3
    have := (hk.keyRep i ((hn.2 i).1 h2)).1
    rw [h3.2, this]
    exact ⟨h2, d, h3.1 ▸ h1⟩
  · simp [vR] at h2

theorem registered_R {st : St} {ecs : List Nat} {cs : List Clause} (hb : build st ecs = some cs)
    {t : TR} {c : Nat} (h : Registered cs (.R c t)) : ∃ i, c = st.h.rep i ∧ t ∈ termsIn st i := by
  obtain ⟨es, he, hm⟩ := mem_build hb
  obtain ⟨cl, hcl, b, hl⟩ := h
  rcases lit_cases he ((hm cl).1 hcl).1 hl with h | ⟨y, d, i, h1, h2, h3⟩ | ⟨i, t', h1, h2⟩
  · exact absurd h (by simp [Other])
  · simp [vS] at h3
  · simp only [vR, Var.R.injEq] at h2
    exact ⟨i, h2.1, h2.2 ▸ h1⟩

/-! ### Soundness -/

theorem mapM_eval {D : Type} {A : Alg D} {σ val : Nat → D} {f : Nat → Option UT} (l : List Nat) (ts : List UT)
    (h : l.mapM f = some ts) (hf : ∀ a ∈ l, ∀ t, f a = some t → t.eval A σ = val a) : ts.map (UT.eval A σ) = l.map val := by
  induction l generalizing ts with
  | nil => simp at h; subst h; rfl
  | cons a l ih =>
    simp only [List.mapM_cons] at h
    obtain ⟨b, h1, h2⟩ := Option.bind_eq_some_iff.1 h
    obtain ⟨ls', h3, h4⟩ := Option.bind_eq_some_iff.1 h2
    cases h4
    simp only [List.map_cons, List.cons.injEq]
    exact ⟨hf a (by simp) b h1, ih ls' h3 (fun a ha => hf a (by simp [ha]))⟩

/-- The term of a class has the value of the class. -/
theorem translate_val {D : Type} {A : Alg D} {σ val : Nat → D} {st : St} {ecs : List Nat} {cs : List Clause} {m : Var → Bool}
    {corr : Nat → Option TR} (hg : Good A σ val st) (hb : build st ecs = some cs) (hc : IsCorr m cs corr) (k : Nat) :
    ∀ c t, translate st corr k c = some t → t.eval A σ = val c := by
  induction k with
  | zero => intro c t h; cases h
  | succ k ih =>
    intro c t h
    simp only [translate] at h
    split at h
    · cases h
    · rename_i x d hx
      cases h
      obtain ⟨i, h1, h2⟩ := registered_R hb ((hc _).1 _ hx).1
      rcases mem_termsIn.1 h2 with ⟨r, -, h3, -⟩ | ⟨e, h3, h4, h5⟩
      · cases h3
      · cases h4
        rw [UT.eval, ← hg.metas e h3, ← hg.rep e.2, h5, ← h1, hg.rep]
    · rename_i r hr
      simp only [Option.map_eq_some_iff] at h
      obtain ⟨ts, h6, rfl⟩ := h
      obtain ⟨i, h1, h2⟩ := registered_R hb ((hc _).1 _ hr).1
      rcases mem_termsIn.1 h2 with ⟨r', h3, h4, h5⟩ | ⟨e, -, h4, -⟩
      · cases h4
        rw [UT.eval, UT.evalL_eq, mapM_eval r.args ts h6 (fun a _ t ht => ih a t ht), ← hg.funs r h3, ← hg.rep r.cls, h5, ← h1, hg.rep]
      · cases h4

theorem mem_translateSub {st : St} {corr : Nat → Option TR} {sub : Nat → Option Nat} {k : Nat} {l : List (Nat × Nat)}
    {b : List (Nat × UT)} (h : translateSub st corr sub k l = some b) :
    (∀ p ∈ b, ∃ c, sub p.1 = some c ∧ translate st corr k c = some p.2) ∧
      ∀ e ∈ l, ∀ c, sub e.1 = some c → ∃ t, (e.1, t) ∈ b ∧ translate st corr k c = some t := by
  induction l generalizing b with
  | nil => simp only [translateSub] at h; cases h; simp
  | cons x l ih =>
    simp only [translateSub] at h
    split at h
    · rename_i hx
      obtain ⟨h1, h2⟩ := ih h
      refine ⟨h1, fun e he c hc => ?_⟩
      rcases List.mem_cons.1 he with rfl | he
      · rw [hx] at hc; cases hc
      · exact h2 e he c hc
    · rename_i c hx
      obtain ⟨t, e1, e2⟩ := Option.bind_eq_some_iff.1 h
      simp only [Option.map_eq_some_iff] at e2
      obtain ⟨r, e3, rfl⟩ := e2
      obtain ⟨h1, h2⟩ := ih e3
      refine ⟨fun p hp => ?_, fun e he d hd => ?_⟩
      · rcases List.mem_cons.1 hp with rfl | hp
        · exact ⟨c, hx, e1⟩
        · exact h1 p hp
      · rcases List.mem_cons.1 he with rfl | he
        · rw [hx] at hd; cases hd
          exact ⟨t, by simp, e1⟩
        · obtain ⟨t', h3, h4⟩ := h2 e he d hd
          exact ⟨t', by simp [h3], h4⟩

/-- The second class is respected wherever congruence is used. -/
def Justified (m : Var → Bool) (st : St) (ecs : List Nat) : Prop :=
  ∀ n < numPairs ecs, ∀ p ∈ pairs ecs, m (vPsi st n p.1 p.2) = true →
    ∃ q ∈ psiPairs st p.1, st.h.rep q.2.cls = st.h.rep p.2 ∧
      ∀ z, zipArgs q.1.args q.2.args = some z → ∀ a ∈ z, m (vE st n a.1 a.2) = true

/-- Classes found equal have equal values. -/
theorem e_val {ar : Nat → Nat} {D : Type} {A : Alg D} {σ val : Nat → D} {st : St} {ecs : List Nat} {m : Var → Bool}
    (hg : Good A σ val st) (hw : WF ar st) (hk : Kept st) (hn : Enum st ecs) (hm : Models m st ecs) (hj : Justified m st ecs)
    (hs : ∀ x c, (∃ d, (x, d) ∈ st.p.metas) → c ∈ ecs → (pairs ecs ≠ []) → m (.S x c) = true → σ x = val c) :
    ∀ n ≤ numPairs ecs, ∀ a b, st.h.rep a ∈ ecs → st.h.rep b ∈ ecs → m (vE st n a b) = true → val a = val b := by
  have hrep : ∀ c ∈ ecs, st.h.rep c = c := fun c hc => (hk.keyRep c ((hn.2 c).1 hc)).1
  have main : ∀ n ≤ numPairs ecs, ∀ p ∈ pairs ecs, m (vE st n p.1 p.2) = true → val p.1 = val p.2 := by
    intro n
    induction n with
    | zero =>
      intro _ p hp h
      have hpe : pairs ecs ≠ [] := fun e => by rw [e] at hp; cases hp
      rcases hm.zero p hp h with ⟨x, hx, h1⟩ | ⟨x, hx, h1⟩
      · obtain ⟨d, hd, e⟩ := mem_metasIn.1 hx
        have := hs x (st.h.rep p.2) ⟨d, hd⟩ (by rw [hrep _ (mem_pairs hp).2]; exact (mem_pairs hp).2) hpe h1
        rw [← hg.rep p.1, ← e, hg.rep, hg.metas _ hd, this, hg.rep]
      · obtain ⟨d, hd, e⟩ := mem_metasIn.1 hx
        have := hs x (st.h.rep p.1) ⟨d, hd⟩ (by rw [hrep _ (mem_pairs hp).1]; exact (mem_pairs hp).1) hpe h1
        rw [← hg.rep p.2, ← e, hg.rep, hg.metas _ hd, this, hg.rep]
    | succ n ih =>
      intro hn' p hp h
      have gen : ∀ a b, st.h.rep a ∈ ecs → st.h.rep b ∈ ecs → m (vE st n a b) = true → val a = val b := by
        intro a b ha hb h
        by_cases e : st.h.rep a = st.h.rep b
        · rw [← hg.rep a, e, hg.rep]
        · rw [← hg.rep a, ← hg.rep b]
          rw [vE_rep n (hw.idem a).symm (hw.idem b).symm] at h
          rcases pairs_all ha hb e with hp | hp
          · exact ih (by omega) _ hp h
          · rw [vE_symm] at h
            exact (ih (by omega) _ hp h).symm
      by_cases e : st.h.rep p.1 = st.h.rep p.2
      · rw [← hg.rep p.1, e, hg.rep]
      · have m1 := (mem_pairs hp).1
        have m2 := (mem_pairs hp).2
        rcases hm.step n (by omega) p hp e h with h1 | ⟨c, hc, h1, h2⟩ | h1
        · exact ih (by omega) p hp h1
        · exact (gen _ _ (by rw [hrep _ m1]; exact m1) (by rw [hrep _ hc]; exact hc) h1).trans
            (gen _ _ (by rw [hrep _ hc]; exact hc) (by rw [hrep _ m2]; exact m2) h2)
        · obtain ⟨q, hq, e2, hz⟩ := hj n (by omega) p hp h1
          obtain ⟨f1, f2, -, f4, f5, -⟩ := mem_psiPairs.1 hq
          have hlen : q.1.args.length = q.2.args.length := by rw [hw.arity _ f1, hw.arity _ f4, f5]
          have hz' := hz _ (zipArgs_some hlen)
          have hargs : q.1.args.map val = q.2.args.map val := by
            have A1 := fun a ha => hk.args _ f1 a ha
            have A2 := fun a ha => hk.args _ f4 a ha
            generalize q.1.args = l1 at hlen hz' A1
            generalize q.2.args = l2 at hlen hz' A2
            clear hz hq f1 f2 f4 f5
            induction l1 generalizing l2 with
            | nil => cases l2 <;> simp_all
            | cons x l1 ihl =>
              cases l2 with
              | nil => simp at hlen
              | cons y l2 =>
                simp only [List.map_cons, List.cons.injEq]
                refine ⟨gen x y ((hn.2 _).2 (A1 x (by simp))) ((hn.2 _).2 (A2 y (by simp))) (hz' (x, y) (by simp)), ?_⟩
                exact ihl (fun a ha => A1 a (by simp [ha])) l2 (by simpa using hlen) (fun a ha => hz' a (by simp [ha]))
                  (fun a ha => A2 a (by simp [ha]))
          rw [← hg.rep p.1, ← f2, hg.rep, hg.funs _ f1, hargs, ← f5, ← hg.funs _ f4, ← hg.rep, e2, hg.rep]
  intro n hn' a b ha hb h
  by_cases e : st.h.rep a = st.h.rep b
  · rw [← hg.rep a, e, hg.rep]
  · rw [← hg.rep a, ← hg.rep b]
    rw [vE_rep n (hw.idem a).symm (hw.idem b).symm] at h
    rcases pairs_all ha hb e with hp | hp
    · exact main n hn' _ hp h
    · rw [vE_symm] at h
      exact (main n hn' _ hp h).symm

theorem sat_sound {ar : Nat → Nat} {E : List (UT × UT)} {gs : List (List (UT × UT))} {st : St} (hr : Ready ar E gs st)
    (hgs : gs ≠ []) {ecs : List Nat} {cs : List Clause} {m : Var → Bool} {sub : Nat → Option Nat} {corr : Nat → Option TR} {k : Nat}
    {b : List (Nat × UT)} (hn : Enum st ecs) (hb : build st ecs = some cs) (hs : Sat m cs) (hsub : IsSub m cs sub)
    (hcorr : IsCorr m cs corr) (ht : translateSub st corr sub k st.p.metas = some b) (hj : Justified m st ecs) : Solved E gs b := by
  have hm := models hb hs
  have hk := hr.kept
  have hw := hr.holds.wf
  have hrep : ∀ c ∈ ecs, st.h.rep c = c := fun c hc => (hk.keyRep c ((hn.2 c).1 hc)).1
  have hne : st.p.goals ≠ [] := by
    intro e
    have := hr.goals
    rw [e] at this
    cases this
    exact hgs rfl
  obtain ⟨ps, hps, hE⟩ := hm.goal hne
  obtain ⟨g, hgm, hhas⟩ := forall₂_left hr.goals ps hps
  refine ⟨g, hgm, fun e he D A σ hsat => ?_⟩
  obtain ⟨val, good⟩ := hr.holds.sat D A σ (fun e he => hsat e (by simp [he]))
  have hbind : ∀ x c, (∃ d, (x, d) ∈ st.p.metas) → c ∈ ecs → (pairs ecs ≠ []) → m (.S x c) = true → σ x = val c := by
    rintro x c ⟨d, hd⟩ hc hpe h1
    have hreg : Registered cs (.S x c) := by
      obtain ⟨es, he', hmem⟩ := mem_build hb
      have : ∃ p ∈ pairs ecs, p.1 = c ∨ p.2 = c := by
        cases ecs with
        | nil => simp [pairs] at hpe
        | cons a l =>
          cases l with
          | nil => simp [pairs] at hpe
          | cons a' l =>
            rcases List.mem_cons.1 hc with rfl | hc'
            · exact ⟨(c, a'), by simp [pairs], Or.inl rfl⟩
            · exact ⟨(a, c), by simp only [pairs, List.mem_append, List.mem_map]; exact Or.inl ⟨c, hc', rfl⟩, Or.inr rfl⟩
      obtain ⟨p, hp, hpc⟩ := this
      refine ⟨[(vS st x p.1, false), (vS st x p.2, false)], (hmem _).2 ⟨mem_all.2 (Or.inl (List.mem_flatMap.2
        ⟨(x, d), hd, List.mem_map.2 ⟨p, hp, rfl⟩⟩)), by simp⟩, false, ?_⟩
      rcases hpc with e | e
      · have h2 : vS st x p.1 = .S x c := by rw [vS, e, hrep c hc]
        simp [h2]
      · have h2 : vS st x p.2 = .S x c := by rw [vS, e, hrep c hc]
        simp [h2]
    cases hx : sub x with
    | none => have := (hsub x).2 hx c hreg; rw [this] at h1; cases h1
    | some c' =>
      obtain ⟨r1, r2⟩ := (hsub x).1 c' hx
      have hc' := (registered_S hk hn hb r1).1
      have ecc : c' = c := by
        refine Classical.byContradiction fun hcc => ?_
        have v1 : vS st x c' = .S x c' := by rw [vS, hrep _ hc']
        have v2 : vS st x c = .S x c := by rw [vS, hrep _ hc]
        rcases pairs_all hc' hc hcc with hp | hp
        · exact hm.one (x, d) hd _ hp (by rw [v1]; exact r2) (by rw [v2]; exact h1)
        · exact hm.one (x, d) hd _ hp (by rw [v2]; exact h1) (by rw [v1]; exact r2)
      subst ecc
      obtain ⟨t, ht1, ht2⟩ := (mem_translateSub ht).2 (x, d) hd c' hx
      have := hsat (.mv x, t) (by simp only [eqsOf, List.mem_append, List.mem_map]; exact Or.inr ⟨_, ht1, rfl⟩)
      simp only [UT.eval] at this
      rw [this]
      exact translate_val good hb hcorr k c' t ht2
  have key := e_val good hw hk hn hm hj hbind (numPairs ecs) (Nat.le_refl _)
  have hall : ∀ p ∈ ps, val p.1 = val p.2 := fun p hp =>
    key p.1 p.2 ((hn.2 _).2 (hk.goals ps hps p hp).1) ((hn.2 _).2 (hk.goals ps hps p hp).2) (hE p hp)
  clear hgm hps hE
  induction hhas with
  | nil => cases he
  | @cons e0 p g ps hep _ ih =>
    rcases List.mem_cons.1 he with rfl | he'
    · rw [← has_val good _ _ hep.1, ← has_val good _ _ hep.2]
      exact hall p (by simp)
    · exact ih he' (fun p hp => hall p (by simp [hp]))

/-- Whenever two function terms with the same symbol and arguments are in different classes, there is no third class. -/
def Sole (st : St) : Prop := ∀ r ∈ st.p.funs, ∀ s ∈ st.p.funs, r.sym = s.sym → r.args ≠ [] → st.h.rep r.cls ≠ st.h.rep s.cls →
  ∀ c, (st.p.super c).isSome → c = st.h.rep r.cls ∨ c = st.h.rep s.cls

theorem justified_of_sole {st : St} {ecs : List Nat} {m : Var → Bool} (hk : Kept st) (hn : Enum st ecs) (hm : Models m st ecs)
    (h : Sole st) : Justified m st ecs := by
  intro n hlt p hp h1
  have hrep : ∀ c ∈ ecs, st.h.rep c = c := fun c hc => (hk.keyRep c ((hn.2 c).1 hc)).1
  have m1 := (mem_pairs hp).1
  have m2 := (mem_pairs hp).2
  have hne : st.h.rep p.1 ≠ st.h.rep p.2 := by rw [hrep _ m1, hrep _ m2]; exact pairs_ne hn.1 hp
  obtain ⟨q, hq, hz⟩ := hm.psi n hlt p hp hne h1
  obtain ⟨f1, f2, f3, f4, f5, f6⟩ := mem_psiPairs.1 hq
  refine ⟨q, hq, ?_, hz⟩
  rcases h q.1 f1 q.2 f4 f5.symm f3 f6 p.2 ((hn.2 _).1 m2) with e | e
  · exact absurd (by rw [hrep _ m2, e, f2]) hne
  · rw [← e, hrep _ m2]

/-- **C79, in part.** If whenever two terms with the same function symbol and arguments are in different classes there is no third
class - in particular if each function symbol with arguments only occurs in terms of one class - and there is a goal, then a reported
substitution solves a goal. What is missing is false: `C79_violated`, `C79_violated_no_goal`. -/
theorem C79_partial (ar : Nat → Nat) (E : List (UT × UT)) (gs : List (List (UT × UT))) (k : Nat) (st : St)
    (subs : List (List (Nat × UT))) (hE : ∀ e ∈ E, PairAr ar e) (hg : ∀ g ∈ gs, ∀ e ∈ g, PairAr ar e)
    (he : problem (k + 1) E gs = some st) (hgs : gs ≠ []) (hsole : Sole st) (h : Solve st subs true) : ∀ b ∈ subs, Solved E gs b := by
  have hr := ready_of ar hE hg he
  generalize hd : true = d at h
  cases h with
  | ground => cases hd
  | unsat => cases hd
  | trivial ht =>
    intro b hb
    simp only [List.mem_singleton] at hb
    subst hb
    simp only [hasTrivialGoals, List.any_eq_true, List.all_eq_true, decide_eq_true_eq] at ht
    obtain ⟨ps, hps, ht⟩ := ht
    obtain ⟨g, hgm, hhas⟩ := forall₂_left hr.goals ps hps
    refine ⟨g, hgm, fun e he D A σ hsat => ?_⟩
    obtain ⟨val, good⟩ := hr.holds.sat D A σ (fun e he => hsat e (by simp [he]))
    exact pairs_sound good hhas (fun p hp => ht p hp) e he
  | sat h1 h2 hn hb hs hsub hcorr ht =>
    intro b' hb'
    simp only [List.mem_singleton] at hb'
    subst hb'
    exact sat_sound hr hgs hn hb hs hsub hcorr ht (justified_of_sole hr.kept hn (models hb hs) hsole)

/-- **C79, in part.** More generally, a substitution read off an assignment that uses congruence only between the two classes in question
solves a goal. -/
theorem C79_justified_partial (ar : Nat → Nat) (E : List (UT × UT)) (gs : List (List (UT × UT))) (k : Nat) (st : St)
    (hE : ∀ e ∈ E, PairAr ar e) (hg : ∀ g ∈ gs, ∀ e ∈ g, PairAr ar e) (he : problem (k + 1) E gs = some st) (hgs : gs ≠ [])
    {ecs : List Nat} {cs : List Clause} {m : Var → Bool} {sub : Nat → Option Nat} {corr : Nat → Option TR} {j : Nat}
    {b : List (Nat × UT)} (hn : Enum st ecs) (hb : build st ecs = some cs) (hs : Sat m cs) (hsub : IsSub m cs sub)
    (hcorr : IsCorr m cs corr) (ht : translateSub st corr sub j st.p.metas = some b) (hj : Justified m st ecs) : Solved E gs b :=
  sat_sound (ready_of ar hE hg he) hgs hn hb hs hsub hcorr ht hj

end Verif.Equality.Sat
