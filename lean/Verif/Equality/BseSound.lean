import Verif.Equality.BseRuns
/-!
# Equality reasoning: soundness of a run in which the second side of the goal is left alone

The invariant of a run, for problems with metavariables. It is stated for classes of terms on which unification is sound.
-/

namespace Verif.Equality.Bse

open Verif.Unif Verif.Equality.LPO

variable {ar : Nat → Nat} {pr : Nat → Nat → Ordering} {au : AU}

/-- Classes of terms for the sides of the equalities and for the two sides of the goal, and of substitutions, that a run does not leave and
on which unification is sound. -/
structure Good (au : AU) (VE VS VT : UT → Prop) (SV : Subst → Prop) : Prop where
  nil : SV []
  subE : ∀ {u t : UT}, VE t → SubT u t → VE u
  subS : ∀ {u t : UT}, VS t → SubT u t → VS u
  replE : ∀ {o v t : UT}, VE v → VE t → VE (repl o v t)
  replS : ∀ {o v t : UT}, VE v → VS t → VS (repl o v t)
  rule : ∀ {a b : UT} {c r : Subst}, VE a → VE b ∨ VS b → SV c → au a b c = .ok r → SV r ∧
    ∀ (D : Type) (A : Alg D) (σ : Nat → D), Subst.Sol A σ r → Subst.Sol A σ c ∧ a.eval A σ = b.eval A σ
  goal : ∀ {a b : UT} {c r : Subst}, VS a → VT b → SV c → au a b c = .ok r → SV r ∧
    ∀ (D : Type) (A : Alg D) (σ : Nat → D), Subst.Sol A σ r → Subst.Sol A σ c ∧ a.eval A σ = b.eval A σ

variable {VE VS VT : UT → Prop} {SV : Subst → Prop}

/-- The equations of the recorded constraints hold for every solution of the substitution. -/
structure COk (SV : Subst → Prop) (c : CStr) : Prop where
  subst : SV c.subst
  eqs : ∀ a b, Con.eq a b ∈ c.all → ∀ (D : Type) (A : Alg D) (σ : Nat → D), Subst.Sol A σ c.subst → a.eval A σ = b.eval A σ

theorem appendIf_prec_ok {c c' : CStr} {a b : UT} (h : appendIf pr au c (.prec a b) = .ok (some c')) (hc : COk SV c) :
    COk SV c' ∧ c'.subst = c.subst := by
  simp only [appendIf] at h
  split at h
  · simp only [Res.ok.injEq, Option.some.injEq] at h
    subst h; exact ⟨hc, rfl⟩
  · simp only [consistentWith, Res.bind_ok] at h
    obtain ⟨r, _, h⟩ := h
    split at h
    · split at h
      · simp only [Res.ok.injEq, Option.some.injEq] at h
        subst h; exact ⟨hc, rfl⟩
      · simp at h
    · split at h
      · simp only [Res.ok.injEq, Option.some.injEq] at h
        subst h
        refine ⟨⟨hc.subst, fun a b hm => hc.eqs a b ?_⟩, rfl⟩
        simpa using hm
      · simp at h

theorem appendIf_eq_ok (hg : Good au VE VS VT SV) {c c' : CStr} {a b : UT} (ha : VE a) (hb : VE b ∨ VS b)
    (h : appendIf pr au c (.eq a b) = .ok (some c')) (hc : COk SV c) : COk SV c' ∧
    ∀ (D : Type) (A : Alg D) (σ : Nat → D), Subst.Sol A σ c'.subst → Subst.Sol A σ c.subst ∧ a.eval A σ = b.eval A σ := by
  simp only [appendIf] at h
  split at h
  · rename_i hm
    simp only [Res.ok.injEq, Option.some.injEq] at h
    subst h
    exact ⟨hc, fun D A σ hs => ⟨hs, hc.eqs a b hm D A σ hs⟩⟩
  · simp only [consistentWith] at h
    have hnil : ∀ {D : Type} {A : Alg D} {σ : Nat → D}, Subst.Sol A σ [] := by intro D A σ p hp; cases hp
    split at h
    · rename_i h1
      simp only [Res.ok.injEq, Option.some.injEq] at h
      subst h
      exact ⟨hc, fun D A σ hs => ⟨hs, ((hg.rule ha hb hg.nil h1).2 D A σ hnil).2⟩⟩
    · split at h
      · rename_i h1
        simp only [Res.ok.injEq, Option.some.injEq] at h
        subst h
        exact ⟨hc, fun D A σ hs => ⟨hs, ((hg.rule ha hb hc.subst h1).2 D A σ hnil).2⟩⟩
      · rename_i p τ h1
        obtain ⟨k1, k2⟩ := hg.rule ha hb hc.subst h1
        simp only [Res.bind_ok] at h
        obtain ⟨x, _, h⟩ := h
        split at h
        · simp only [Res.ok.injEq, Option.some.injEq] at h
          subst h
          refine ⟨⟨k1, fun a' b' hm D A σ hs => ?_⟩, fun D A σ hs => k2 D A σ hs⟩
          dsimp only at hm hs
          rcases List.mem_append.1 hm with hm | hm
          · exact hc.eqs a' b' hm D A σ (k2 D A σ hs).1
          · simp only [List.mem_singleton, Con.eq.injEq] at hm
            obtain ⟨rfl, rfl⟩ := hm
            exact (k2 D A σ hs).2
        · simp at h
      all_goals simp at h
    all_goals simp at h

theorem applyEQ_ok (hg : Good au VE VS VT SV) {c c' : CStr} {r : Rule} (hl : VE r.l) (hl' : VE r.l' ∨ VS r.l')
    (h : applyEQ pr au r c = .ok (some c')) (hc : COk SV c) : COk SV c' ∧
    ∀ (D : Type) (A : Alg D) (σ : Nat → D), Subst.Sol A σ c'.subst → Subst.Sol A σ c.subst ∧ r.l.eval A σ = r.l'.eval A σ := by
  simp only [applyEQ, Res.bind_ok] at h
  obtain ⟨o1, h1, h⟩ := h
  cases o1 with
  | none => simp at h
  | some c1 =>
    simp only [Res.bind_ok] at h
    obtain ⟨o2, h2, h⟩ := h
    cases o2 with
    | none => simp at h
    | some c2 =>
      obtain ⟨k1, e1⟩ := appendIf_prec_ok h1 hc
      obtain ⟨k2, e2⟩ := appendIf_prec_ok h2 k1
      obtain ⟨k3, e3⟩ := appendIf_eq_ok hg hl hl' h k2
      exact ⟨k3, fun D A σ hs => by rw [← e1, ← e2]; exact e3 D A σ hs⟩

/-- The invariant of a problem. -/
structure POk (VE VS VT : UT → Prop) (SV : Subst → Prop) (ep : Prob) : Prop where
  E : ∀ e ∈ ep.E, VE e.1 ∧ VE e.2
  s : VS ep.s
  t : VT ep.t
  c : COk SV ep.c

theorem pairs_mem {n : Nat} {E : List (UT × UT)} {T : Node Instr UT} (hT : tree E = some T) {l : List UT} {ps : List (UT × UT)}
    (h : Pairs au n T l ps) {q : UT × UT} (hq : q ∈ ps) : q.1 ∈ l ∧ IsSide E q.2 := by
  induction h with
  | nil => cases hq
  | mv h ih => exact ⟨List.mem_cons_of_mem _ (ih hq).1, (ih hq).2⟩
  | fn hf h ih =>
    rcases List.mem_append.1 hq with hq | hq
    · obtain ⟨u, hu, rfl⟩ := List.mem_map.1 hq
      exact ⟨by simp, finds_side hT hf hu⟩
    · exact ⟨List.mem_cons_of_mem _ (ih hq).1, (ih hq).2⟩

/-- What is known about every rule, whatever the terms are. -/
theorem rulesFor_mem {n : Nat} {ep : Prob} {s t : UT} {left : Option Nat} {sMod : Bool} {rs : List Rule}
    (h : RulesFor au n ep s t left sMod rs) {r : Rule} (hr : r ∈ rs) :
    r.left = left ∧ r.sMod = sMod ∧ r.s = s ∧ r.t = t ∧ SubT r.l' s ∧ Eqn ep.E r.l r.r := by
  obtain ⟨T, ps, hT, hp, rfl⟩ := h
  simp only [connect, List.mem_flatMap, List.mem_map, List.mem_filter, mem_eMap] at hr
  obtain ⟨q, hq, v, ⟨hv, _⟩, rfl⟩ := hr
  exact ⟨rfl, rfl, rfl, rfl, mem_subs.1 (pairs_mem hT hp hq).1, hv⟩

/-- A rule of a problem: of the first side of the goal, of the second side, or of an equality. -/
inductive RuleOf (ep : Prob) (r : Rule) : Prop where
  | fst (h : r.left = none ∧ r.sMod = true ∧ r.s = ep.s ∧ r.t = ep.t ∧ SubT r.l' ep.s ∧ Eqn ep.E r.l r.r)
  | snd (h : r.left = none ∧ r.sMod = false ∧ r.s = ep.t ∧ r.t = ep.s ∧ SubT r.l' ep.t ∧ Eqn ep.E r.l r.r)
  | eq (i : Nat) (e : UT × UT) (h : e ∈ ep.E ∧ r.left = some i ∧ (r.s = e.1 ∧ r.t = e.2 ∨ r.s = e.2 ∧ r.t = e.1) ∧
      SubT r.l' r.s ∧ Eqn ep.E r.l r.r)

theorem right_mem {n : Nat} {ep : Prob} {rs : List Rule} (h : RightRules au n ep rs) {r : Rule} (hr : r ∈ rs) : RuleOf ep r := by
  obtain ⟨a, b, ha, hb, rfl⟩ := h
  rcases List.mem_append.1 hr with hr | hr
  · exact .fst (rulesFor_mem ha hr)
  · exact .snd (rulesFor_mem hb hr)

theorem leftLoop_mem {n : Nat} {ep : Prob} {i : Nat} {es : List (UT × UT)} {rs : List Rule} (h : LeftLoop au n ep i es rs)
    (hes : ∀ e ∈ es, e ∈ ep.E) {r : Rule} (hr : r ∈ rs) : RuleOf ep r := by
  induction h with
  | nil => cases hr
  | cons ha hb h ih =>
    rename_i i e es a b rs
    have he := hes e (by simp)
    rcases List.mem_append.1 hr with hr | hr
    · rcases List.mem_append.1 hr with hr | hr
      · obtain ⟨h1, h2, h3, h4, h5, h6⟩ := rulesFor_mem ha hr
        exact .eq i e ⟨he, h1, Or.inl ⟨h3, h4⟩, h3 ▸ h5, h6⟩
      · obtain ⟨h1, h2, h3, h4, h5, h6⟩ := rulesFor_mem hb hr
        exact .eq i e ⟨he, h1, Or.inr ⟨h3, h4⟩, h3 ▸ h5, h6⟩
    · exact ih (fun e he => hes e (by simp [he])) hr

theorem left_mem {n : Nat} {ep : Prob} {i : Nat} {rs : List Rule} (h : LeftRules au n ep i rs) {r : Rule} (hr : r ∈ rs) : RuleOf ep r :=
  leftLoop_mem h (fun _ he => List.mem_of_mem_drop he) hr

theorem left_some {n : Nat} {ep : Prob} {i : Nat} {rs : List Rule} (h : LeftRules au n ep i rs) {r : Rule} (hr : r ∈ rs) : r.left ≠ none := by
  have : ∀ {i : Nat} {es : List (UT × UT)} {rs : List Rule}, LeftLoop au n ep i es rs → r ∈ rs → r.left ≠ none := by
    intro i es rs h hr
    induction h with
    | nil => cases hr
    | cons ha hb h ih =>
      rcases List.mem_append.1 hr with hr | hr
      · rcases List.mem_append.1 hr with hr | hr
        · rw [(rulesFor_mem ha hr).1]; simp
        · rw [(rulesFor_mem hb hr).1]; simp
      · exact ih hr
  exact this h hr

/-- The equalities of a problem hold. -/
def EHolds {D : Type} (A : Alg D) (σ : Nat → D) (E : List (UT × UT)) : Prop := ∀ e ∈ E, e.1.eval A σ = e.2.eval A σ

theorem Eqn.eval {D : Type} {A : Alg D} {σ : Nat → D} {E : List (UT × UT)} (h : EHolds A σ E) {l r : UT} (he : Eqn E l r) :
    l.eval A σ = r.eval A σ :=
  he.elim (fun h' => h _ h') fun h' => (h _ h').symm

/-- A rule that does not modify the second side of the goal is sound. -/
theorem next_ok (hg : Good au VE VS VT SV) {ep ep' : Prob} (hi : POk VE VS VT SV ep) {r : Rule} (hr : RuleOf ep r)
    (hk : r.left = none → r.sMod = true) (h : next pr au ep r = .ok (some ep')) : POk VE VS VT SV ep' ∧
    ∀ (D : Type) (A : Alg D) (σ : Nat → D), Subst.Sol A σ ep'.c.subst → Subst.Sol A σ ep.c.subst ∧
      (EHolds A σ ep.E → EHolds A σ ep'.E ∧ (ep'.s.eval A σ = ep'.t.eval A σ → ep.s.eval A σ = ep.t.eval A σ)) := by
  simp only [next, Res.bind_ok] at h
  obtain ⟨o, h1, h⟩ := h
  cases o with
  | none => simp at h
  | some c =>
    have hl : ∀ {l v : UT}, Eqn ep.E l v → VE l ∧ VE v := fun he => he.elim (fun h => hi.E _ h) fun h => (hi.E _ h).symm
    cases hr with
    | fst hr =>
      obtain ⟨e1, e2, e3, e4, e5, e6⟩ := hr
      obtain ⟨hc, hs⟩ := applyEQ_ok hg (hl e6).1 (Or.inr (hg.subS hi.s e5)) h1 hi.c
      simp only [e1, e2, if_true, Res.ok.injEq, Option.some.injEq] at h
      subst h
      refine ⟨⟨hi.E, e3 ▸ hg.replS (hl e6).2 (e3 ▸ hi.s), e4 ▸ hi.t, hc⟩, fun D A σ h => ?_⟩
      obtain ⟨k1, k2⟩ := hs D A σ h
      refine ⟨k1, fun hE => ⟨hE, fun hst => ?_⟩⟩
      dsimp only at hst
      rw [repl_eval (k2 ▸ e6.eval hE), e3, e4] at hst
      exact hst
    | snd hr =>
      obtain ⟨e1, e2, -⟩ := hr
      have := hk e1
      rw [e2] at this
      cases this
    | eq i e hr =>
      obtain ⟨e1, e2, e3, e5, e6⟩ := hr
      have hVs : VE r.s ∧ VE r.t := by
        rcases e3 with ⟨h, h'⟩ | ⟨h, h'⟩ <;> rw [h, h']
        · exact hi.E e e1
        · exact (hi.E e e1).symm
      obtain ⟨hc, hs⟩ := applyEQ_ok hg (hl e6).1 (Or.inl (hg.subE hVs.1 e5)) h1 hi.c
      simp only [e2, Res.ok.injEq, Option.some.injEq] at h
      subst h
      refine ⟨⟨fun q hq => ?_, hi.s, hi.t, hc⟩, fun D A σ h => ?_⟩
      · rcases List.mem_or_eq_of_mem_set hq with hq | rfl
        · exact hi.E q hq
        · split
          · exact ⟨hg.replE (hl e6).2 hVs.1, hVs.2⟩
          · exact ⟨hVs.1, hg.replE (hl e6).2 hVs.1⟩
      · obtain ⟨k1, k2⟩ := hs D A σ h
        refine ⟨k1, fun hE => ⟨fun q hq => ?_, fun hst => hst⟩⟩
        have hrep : (repl r.l' r.r r.s).eval A σ = r.s.eval A σ := repl_eval (k2 ▸ e6.eval hE) r.s
        have hst : r.s.eval A σ = r.t.eval A σ := by
          rcases e3 with ⟨h, h'⟩ | ⟨h, h'⟩ <;> rw [h, h']
          · exact hE e e1
          · exact (hE e e1).symm
        rcases List.mem_or_eq_of_mem_set hq with hq | rfl
        · exact hE q hq
        · split
          · exact hrep.trans hst
          · exact hrep.symm

/-- A condition under which, for good, no rule modifies the second side of the goal. -/
def Stable (pr : Nat → Nat → Ordering) (au : AU) (n : Nat) (K : Prob → Prop) : Prop := ∀ ep, K ep → ∀ rs r,
  (RightRules au n ep rs ∨ ∃ i, LeftRules au n ep i rs) → r ∈ rs → ∀ ep', next pr au ep r = .ok (some ep') →
    (r.left = none → r.sMod = true) ∧ K ep'

/-- Every solution of the substitution is one of the constraints, and makes the goal follow from the equalities. -/
def Proves (ep : Prob) (τ : Subst) : Prop := ∀ (D : Type) (A : Alg D) (σ : Nat → D), Subst.Sol A σ τ →
  Subst.Sol A σ ep.c.subst ∧ (EHolds A σ ep.E → ep.s.eval A σ = ep.t.eval A σ)

def Job.Sound (VE VS VT : UT → Prop) (SV : Subst → Prop) (K : Prob → Prop) (pr : Nat → Nat → Ordering) (au : AU) (n : Nat) :
    Job → List Subst → Prop
  | .prob ep _, ss => POk VE VS VT SV ep → K ep → ∀ τ ∈ ss, SV τ ∧ Proves ep τ
  | .rule ep r, ss => POk VE VS VT SV ep → K ep → (∃ rs, (RightRules au n ep rs ∨ ∃ i, LeftRules au n ep i rs) ∧ r ∈ rs) →
      ∀ τ ∈ ss, SV τ ∧ Proves ep τ

theorem check_ok (hg : Good au VE VS VT SV) {ep : Prob} (hi : POk VE VS VT SV ep) {last : Option Nat} {us : List Subst}
    (h : check pr au ep last = .ok us) : ∀ τ ∈ us, SV τ ∧ Proves ep τ := by
  intro τ hτ
  cases last with
  | some i =>
    simp only [check, Res.ok.injEq] at h
    subst h; cases hτ
  | none =>
    simp only [check, checkUnif] at h
    split at h
    · split at h
      · rename_i h1
        simp only [Res.bind_ok] at h
        obtain ⟨b, _, h⟩ := h
        cases b
        · simp only [Res.ok.injEq] at h
          subst h
          simp at hτ
        · simp only [if_true, Res.ok.injEq] at h
          subst h
          obtain rfl := List.mem_singleton.1 hτ
          refine ⟨(hg.goal hi.s hi.t hi.c.subst h1).1, fun D A σ hs => ?_⟩
          have := (hg.goal hi.s hi.t hi.c.subst h1).2 D A σ hs
          exact ⟨this.1, fun _ => this.2⟩
      · simp only [Res.ok.injEq] at h
        subst h; cases hτ
      all_goals simp at h
    · simp only [Res.ok.injEq] at h
      subst h; cases hτ
    all_goals simp at h

/-- **Soundness of a run** in which the second side of the goal is never modified. -/
theorem runs_sound (hg : Good au VE VS VT SV) {n : Nat} {K : Prob → Prop} (hK : Stable pr au n K) {j : Job} {b : Bool} {ss : List Subst}
    (h : Runs pr au n j b ss) : j.Sound VE VS VT SV K pr au n ss := by
  have grow : ∀ {ep : Prob} {us ss : List Subst}, (∀ τ ∈ us, SV τ ∧ Proves ep τ) → (∀ τ ∈ ss, SV τ ∧ Proves ep τ) →
      ∀ τ ∈ us ++ ss.foldl addSubst [], SV τ ∧ Proves ep τ := by
    intro ep us ss h1 h2 τ hτ
    rcases List.mem_append.1 hτ with h | h
    · exact h1 τ h
    · rcases foldl_addSubst_mem h with h | h
      · cases h
      · exact h2 τ h
  induction h with
  | stop h hu => exact fun hi _ => check_ok hg hi hu
  | right h hu hr hm _ ih =>
    intro hi hk
    exact grow (check_ok hg hi hu) (ih hi hk ⟨_, Or.inl hr, hm⟩)
  | left h hu hr hf hl hm _ _ ih =>
    intro hi hk
    exact grow (check_ok hg hi hu) (ih hi hk ⟨_, Or.inr ⟨_, hl⟩, hm⟩)
  | none h hu hr hf hl hf' _ _ => exact fun hi _ => check_ok hg hi hu
  | refused h => intro _ _ _ τ hτ; cases hτ
  | applied h _ ih =>
    rintro hi hk ⟨rs, hrs, hm⟩ τ hτ
    obtain ⟨k1, k2⟩ := hK _ hk rs _ hrs hm _ h
    have hr : RuleOf _ _ := hrs.elim (fun h => right_mem h hm) fun ⟨i, h⟩ => left_mem h hm
    obtain ⟨n1, n2⟩ := next_ok hg hi hr k1 h
    refine ⟨(ih n1 k2 τ hτ).1, fun D A σ hs => ?_⟩
    obtain ⟨s1, s2⟩ := (ih n1 k2 τ hτ).2 D A σ hs
    obtain ⟨t1, t2⟩ := n2 D A σ s1
    exact ⟨t1, fun hE => (t2 hE).2 (s2 (t2 hE).1)⟩

/-! ### Classes of terms -/

theorem subT_ar {u t : UT} (h : SubT u t) (ht : t.Ar ar) : u.Ar ar := by
  induction h with
  | refl => exact ht
  | arg ha _ ih => exact ih (UT.ArL_iff.1 ht.2 _ ha)

theorem repl_ar {o v t : UT} (hv : v.Ar ar) (ht : t.Ar ar) : (repl o v t).Ar ar := by
  induction t using UT.ind with
  | mv x =>
    simp only [repl]
    split
    · exact hv
    · exact ht
  | fn p l ih =>
    simp only [repl]
    split
    · exact hv
    · refine ⟨by rw [replL_length]; exact ht.1, UT.ArL_iff.2 fun a ha => ?_⟩
      have hl := UT.ArL_iff.1 ht.2
      rcases replL_cases o v l with e | ⟨pre, b, post, e1, e2, _, _⟩
      · rw [e] at ha; exact hl a ha
      · rw [e2] at ha
        rcases List.mem_append.1 ha with ha | ha
        · exact hl a (by rw [e1]; simp [ha])
        · rcases List.mem_cons.1 ha with rfl | ha
          · exact ih b (by rw [e1]; simp) (hl b (by rw [e1]; simp))
          · exact hl a (by rw [e1]; simp [ha])

theorem ground_snd (n : Nat) {a b : UT} {c r : Subst} (ha : a.Ar ar) (hb : b.Ar ar) (hg : a.Gd ar ∨ b.Gd ar) (hc : c.Gd ar)
    (h : addUnif false n a b c = .ok r) : r.Gd ar ∧
    ∀ (D : Type) (A : Alg D) (σ : Nat → D), Subst.Sol A σ r → Subst.Sol A σ c ∧ a.eval A σ = b.eval A σ := by
  obtain ⟨h1, h2⟩ := ground_agree (ar := ar) n a b c r hg hc h
  exact ⟨h2, fun D A σ hs => (addUnif_spec.{0} ar true n a b c r ha hb hc.1 hc.arity h1).snd rfl A σ hs⟩

/-- The code, when only one side of the goal has metavariables. -/
theorem good_fst (n : Nat) : Good (addUnif false n) (UT.Gd ar) (UT.Ar ar) (UT.Gd ar) (Subst.Gd ar) where
  nil := Subst.Gd.nil
  subE h hs := hs.gd h
  subS h hs := subT_ar hs h
  replE hv ht := repl_gd hv ht
  replS hv ht := repl_ar hv.1 ht
  rule ha hb hc h := ground_snd n ha.1 (hb.elim (fun h => h.1) id) (Or.inl ha) hc h
  goal ha hb hc h := ground_snd n ha hb.1 (Or.inr hb) hc h

theorem good_snd (n : Nat) : Good (addUnif false n) (UT.Gd ar) (UT.Gd ar) (UT.Ar ar) (Subst.Gd ar) where
  nil := Subst.Gd.nil
  subE h hs := hs.gd h
  subS h hs := hs.gd h
  replE hv ht := repl_gd hv ht
  replS hv ht := repl_gd hv ht
  rule ha hb hc h := ground_snd n ha.1 (hb.elim (fun h => h.1) fun h => h.1) (Or.inl ha) hc h
  goal ha hb hc h := ground_snd n ha.1 hb (Or.inl ha) hc h

/-- With unification that never loses a binding, all terms. -/
theorem good_strict (n : Nat) : Good (addUnif true n) (UT.Ar ar) (UT.Ar ar) (UT.Ar ar) (fun s => s.keys.Nodup ∧ s.Ar ar) where
  nil := ⟨by simp [Subst.keys], fun p hp => by cases hp⟩
  subE h hs := subT_ar hs h
  subS h hs := subT_ar hs h
  replE hv ht := repl_ar hv ht
  replS hv ht := repl_ar hv ht
  rule ha hb hc h := by
    have sp := addUnif_spec.{0} ar true n _ _ _ _ ha (hb.elim id id) hc.1 hc.2 h
    exact ⟨⟨sp.solved.1, sp.ar⟩, fun D A σ hs => sp.snd rfl A σ hs⟩
  goal ha hb hc h := by
    have sp := addUnif_spec.{0} ar true n _ _ _ _ ha hb hc.1 hc.2 h
    exact ⟨⟨sp.solved.1, sp.ar⟩, fun D A σ hs => sp.snd rfl A σ hs⟩

end Verif.Equality.Bse
