import Verif.Equality.BseProps
/-!
# Equality reasoning: soundness and completeness

C69: a goal that is answered follows from the equalities. C70: a ground goal that follows from the equalities is answered.
-/

namespace Verif.Equality.Bse

open Verif.Unif Verif.Equality.LPO

variable {ar : Nat → Nat} {pr : Nat → Nat → Ordering}

/-! ### C69 -/

/-- The substitution makes the goal follow from the equalities: in every interpretation, metavariables being fixed elements, in which the
bindings and the equalities hold, the goal holds. -/
def Justified (E : List (UT × UT)) (s t : UT) (τ : Subst) : Prop := ∀ (D : Type) (A : Alg D) (σ : Nat → D), Subst.Sol A σ τ →
  (∀ e ∈ E, e.1.eval A σ = e.2.eval A σ) → s.eval A σ = t.eval A σ

/-- A problem as the module builds it: well-formed terms, no constraints yet. -/
def Fresh (ar : Nat → Nat) (ep : Prob) : Prop := (∀ e ∈ ep.E, e.1.Ar ar ∧ e.2.Ar ar) ∧ ep.s.Ar ar ∧ ep.t.Ar ar ∧ ep.c = {}

/-- The full property. -/
def C69_statement : Prop := ∀ (ar : Nat → Nat) (name : Names) (n : Nat) (ep : Prob) (ss : List Subst), Fresh ar ep →
  Launch (compareWith name) (addUnification n) n ep ss → ∀ τ ∈ ss, Justified ep.E ep.s ep.t τ

/-- Identifiers named by one letter. -/
def nm : Names := fun p => [p]

def ka : UT := .fn 0 []
def kb : UT := .fn 1 []
def kc : UT := .fn 2 []
def kd : UT := .fn 3 []

/-- The constant of number `p` and all other arities. -/
def arS : Nat → Nat := fun p => if p = 10 then 3 else if p = 9 then 1 else 0

theorem const_gd {p : Nat} (h : arS p = 0) : (UT.fn p []).Gd arS := gd_fn.2 ⟨by simp [h], by simp⟩

theorem launch_of_derivesB {n k : Nat} {ep : Prob} {b : Bool} (hg : GroundProblem ar ep) (h : derivesB (compareWith nm) k ep none = some b)
    {ss : List Subst} (hl : Launch (compareWith nm) (addUnification (n + 3)) (n + 3) ep ss) : (ss ≠ [] ↔ b = true) ∧ ∀ σ ∈ ss, σ = [] := by
  have h1 := launch_ground (C38_precedence nm) hg.g hl
  exact ⟨h1.1.trans (derivesB_spec (C38_precedence nm) k ep none b hg.g h).symm, h1.2⟩

/-- **C69 fails.** From `b = c` the goal `a = c` is answered with the empty substitution in every run: when the second side of the goal is
rewritten, the new goal is made of its old and its new form (`c = b` here), and the first side is forgotten. -/
theorem C69_violated (n : Nat) : (∃ ss, Launch (compareWith nm) (addUnification (n + 3)) (n + 3) ⟨[(kb, kc)], ka, kc, {}⟩ ss) ∧
    (∀ ss, Launch (compareWith nm) (addUnification (n + 3)) (n + 3) ⟨[(kb, kc)], ka, kc, {}⟩ ss → [] ∈ ss) ∧
    ¬ Entails [(kb, kc)] ka kc := by
  have hg : GroundProblem arS ⟨[(kb, kc)], ka, kc, {}⟩ :=
    ⟨by simpa using ⟨const_gd rfl, const_gd rfl⟩, const_gd rfl, const_gd rfl, rfl⟩
  refine ⟨C71_answers nm n hg, fun ss h => ?_, fun h => ?_⟩
  · obtain ⟨h1, h2⟩ := launch_of_derivesB (k := 3) (b := true) hg (by decide +kernel) h
    obtain ⟨x, hx⟩ := List.exists_mem_of_ne_nil _ (h1.2 rfl)
    exact h2 x hx ▸ hx
  · have := h Bool (fun p _ => decide (p = 0)) (fun _ => false) (by simp [UT.eval, kb, kc])
    simp [UT.eval, ka, kc] at this

/-- The same for the whole call: a branch with `b = c` and `a ≠ c`, which has a model, is closed. -/
theorem C69_violated_solve (n : Nat) : (∃ b res, Solve (compareWith nm) (addUnification (n + 3)) (n + 3) [(kb, kc)] [[(ka, kc)]] [] b res) ∧
    (∀ b res, Solve (compareWith nm) (addUnification (n + 3)) (n + 3) [(kb, kc)] [[(ka, kc)]] [] b res → b = true) ∧
    ∃ (A : Alg Bool) (σ : Nat → Bool), kb.eval A σ = kc.eval A σ ∧ ka.eval A σ ≠ kc.eval A σ := by
  have hg : GroundProblem arS ⟨[(kb, kc)], ka, kc, {}⟩ :=
    ⟨by simpa using ⟨const_gd rfl, const_gd rfl⟩, const_gd rfl, const_gd rfl, rfl⟩
  have hG : GroundGoals arS [(kb, kc)] [[(ka, kc)]] := ⟨hg.1, by simpa using ⟨const_gd rfl, const_gd rfl⟩⟩
  refine ⟨solve_total (C38_precedence nm) n hG [], fun b res h => ?_, fun p _ => decide (p = 0), fun _ => false, by
    simp [UT.eval, ka, kb, kc]⟩
  refine (solve_ground (C38_precedence nm) hG (by simp) h).2.2 ⟨_, List.mem_singleton.2 rfl, fun e he => ?_⟩
  obtain rfl := List.mem_singleton.1 he
  exact (derivesB_spec (C38_precedence nm) 3 _ none true hg.g (by decide +kernel)).1 rfl

theorem C69_statement_false : ¬ C69_statement := fun h => by
  obtain ⟨⟨ss, h1⟩, h2, h3⟩ := C69_violated 0
  refine h3 fun D A σ hE => h arS nm 3 _ ss ?_ h1 [] (h2 ss h1) D A σ (fun p hp => by cases hp) hE
  simp [Fresh, UT.Ar, UT.ArL, ka, kb, kc, arS]

/-- A second cause: unification loses a binding (C25). Without any equality the goal `f(g(Y), X, Y) = f(X, g(a), b)` is answered, though no
instance of it holds in the algebra of terms. -/
theorem C69_violated_binding : ∃ (s t : UT) (ss : List Subst), Fresh arS ⟨[], s, t, {}⟩ ∧
    Launch (compareWith nm) (addUnification 12) 12 ⟨[], s, t, {}⟩ ss ∧ ss ≠ [] ∧ ∀ σ, s.eval termAlg σ ≠ t.eval termAlg σ := by
  refine ⟨.fn 10 [.fn 9 [.mv 1], .mv 0, .mv 1], .fn 10 [.mv 0, .fn 9 [ka], kb], [[(0, .fn 9 [ka]), (1, ka)]],
    by simp [Fresh, UT.Ar, UT.ArL, ka, kb, arS], ⟨_, .none (rs := []) (ls := []) (f := fun _ => []) (g := fun _ => [])
      (by decide +kernel) (by decide +kernel) ?_ (by simp) .nil (by simp)⟩, by simp, fun σ h => ?_⟩
  · have hemp : ∀ (au : AU) (n : Nat) (l : List UT), ∃ ps, Pairs au n (Node.empty : Node Instr UT) l ps := by
      intro au n l
      induction l with
      | nil => exact ⟨[], .nil⟩
      | cons a l ih =>
        obtain ⟨ps, h⟩ := ih
        cases a with
        | mv x => exact ⟨ps, .mv h⟩
        | fn p args => exact ⟨_, .fn (.ok (m' := { terms := [.fn p args] }) (own := []) (outs := []) (outs' := []) rfl rfl rfl
            (fun i h1 => by simp at h1) (List.Perm.refl _)) h⟩
    have hr : ∀ (s t : UT) (left : Option Nat) (sMod : Bool), RulesFor (addUnification 12) 12
        ⟨[], .fn 10 [.fn 9 [.mv 1], .mv 0, .mv 1], .fn 10 [.mv 0, .fn 9 [ka], kb], {}⟩ s t left sMod [] := by
      intro s t left sMod
      obtain ⟨ps, h⟩ := hemp (addUnification 12) 12 (subs s)
      exact ⟨_, ps, rfl, h, by simp [connect, eMap]⟩
    exact ⟨[], [], hr _ _ _ _, hr _ _ _ _, rfl⟩
  · simp only [UT.eval, UT.evalL, termAlg, ka, kb, UT.fn.injEq, List.cons.injEq, true_and, and_true] at h
    obtain ⟨h1, h2, h3⟩ := h
    rw [← h1, h3] at h2
    simp at h2

/-- **C69, what holds** for a goal `s = X` with a metavariable as its second side and no other metavariable: every answer is justified. -/
theorem C69_meta_partial (name : Names) (n : Nat) {ep : Prob} {x : Nat} (hE : ∀ e ∈ ep.E, e.1.Gd ar ∧ e.2.Gd ar) (hs : ep.s.Gd ar)
    (ht : ep.t = .mv x) (hc : ep.c = {}) {ss : List Subst} (h : Launch (compareWith name) (addUnification n) n ep ss) :
    ∀ τ ∈ ss, Justified ep.E ep.s ep.t τ := by
  have hK : Stable (compareWith name) (addUnification n) n fun ep => ep.t = .mv x := by
    intro ep ht rs r hrs hm ep' hn
    have hr : RuleOf ep r := hrs.elim (fun h => right_mem h hm) fun ⟨i, h⟩ => left_mem h hm
    have hsm : r.left = none → r.sMod = true := by
      intro hl
      rcases hrs with ⟨a, b, ha, hb, rfl⟩ | ⟨i, h⟩
      · rcases List.mem_append.1 hm with hm | hm
        · exact (rulesFor_mem ha hm).2.1
        · obtain ⟨T, ps, _, hps, rfl⟩ := hb
          rw [ht, subs] at hps
          cases hps with
          | mv h =>
            cases h
            simp [connect] at hm
      · exact absurd hl (left_some h hm)
    refine ⟨hsm, ?_⟩
    simp only [next, Res.bind_ok] at hn
    obtain ⟨o, _, hn⟩ := hn
    cases o with
    | none => simp at hn
    | some c =>
      cases hr with
      | fst h =>
        simp only [h.1, h.2.1, if_true, Res.ok.injEq, Option.some.injEq] at hn
        subst hn
        exact h.2.2.2.1.trans ht
      | snd h => exact absurd (hsm h.1) (by simp [h.2.1])
      | eq i e h =>
        simp only [h.2.1, Res.ok.injEq, Option.some.injEq] at hn
        subst hn
        exact ht
  obtain ⟨b, h⟩ := h
  have hi : POk (UT.Gd ar) (UT.Gd ar) (UT.Ar ar) (Subst.Gd ar) ep :=
    ⟨hE, hs, by rw [ht]; trivial, by rw [hc]; exact ⟨Subst.Gd.nil, by simp⟩⟩
  intro τ hτ D A σ h1 h2
  exact ((runs_sound (good_snd n) hK h hi ht τ hτ).2 D A σ h1).2 h2

theorem applyS_gd (σ : Subst) {t : UT} (ht : t.Gd ar) : applyS σ t = t := by
  unfold applyS
  induction σ with
  | nil => rfl
  | cons p σ ih =>
    rw [List.foldl_cons, UT.sub_of_not_mem t (by rw [ht.2]; simp)]
    exact ih

/-- The ground constraints that were recorded hold. -/
structure Rec (ar : Nat → Nat) (pr : Nat → Nat → Ordering) (c : CStr) : Prop where
  prec : ∀ u v, Con.prec u v ∈ c.all → u.Gd ar → v.Gd ar → Gt pr v u
  eq : ∀ u v, Con.eq u v ∈ c.all → u.Gd ar → v.Gd ar → u = v

theorem rec_prec {au : AU} (hp : Linear pr) {c c' : CStr} {a b : UT} (hc : Rec ar pr c) (h : appendIf pr au c (.prec a b) = .ok (some c')) :
    Rec ar pr c' ∧ (a.Gd ar → b.Gd ar → Gt pr b a) := by
  simp only [appendIf] at h
  split at h
  · rename_i hm
    simp only [Res.ok.injEq, Option.some.injEq] at h
    subst h
    exact ⟨hc, fun ha hb => hc.prec a b hm ha hb⟩
  · simp only [consistentWith, Res.bind_ok] at h
    obtain ⟨r, h1, h⟩ := h
    have hgd : a.Gd ar → b.Gd ar → r.1.2 = true ∧ (r.1.1 = true ↔ Gt pr b a) := by
      intro ha hb
      obtain ⟨ok, k1, k2⟩ := checkLPO_gd hp ha hb
      rw [applyC, applyS_gd _ ha, applyS_gd _ hb, k1] at h1
      obtain rfl := Res.ok.inj h1
      exact ⟨rfl, k2⟩
    split at h
    · split at h
      · rename_i h2
        simp only [Res.ok.injEq, Option.some.injEq] at h
        subst h
        exact ⟨hc, fun ha hb => (hgd ha hb).2.1 h2⟩
      · simp at h
    · rename_i hn
      split at h
      · simp only [Res.ok.injEq, Option.some.injEq] at h
        subst h
        refine ⟨⟨fun u v hm hu hv => ?_, fun u v hm hu hv => hc.eq u v (by simpa using hm) hu hv⟩, fun ha hb => absurd (hgd ha hb).1 hn⟩
        dsimp only at hm
        rcases List.mem_append.1 hm with hm | hm
        · exact hc.prec u v hm hu hv
        · simp only [List.mem_singleton, Con.prec.injEq] at hm
          obtain ⟨rfl, rfl⟩ := hm
          exact absurd (hgd hu hv).1 hn
      · simp at h

theorem rec_eq {au : AU} (hg : GAU ar au) {c c' : CStr} {a b : UT} (hc : Rec ar pr c) (h : appendIf pr au c (.eq a b) = .ok (some c')) :
    Rec ar pr c' ∧ (a.Gd ar → b.Gd ar → a = b) := by
  simp only [appendIf] at h
  split at h
  · rename_i hm
    simp only [Res.ok.injEq, Option.some.injEq] at h
    subst h
    exact ⟨hc, fun ha hb => hc.eq a b hm ha hb⟩
  · have hgd : a.Gd ar → b.Gd ar → a = b := by
      intro ha hb
      refine Classical.byContradiction fun e => ?_
      simp only [consistentWith, hg a b ha hb, if_neg e] at h
      simp at h
    refine ⟨?_, hgd⟩
    simp only [consistentWith] at h
    split at h
    · simp only [Res.ok.injEq, Option.some.injEq] at h
      subst h; exact hc
    · split at h
      · simp only [Res.ok.injEq, Option.some.injEq] at h
        subst h; exact hc
      · simp only [Res.bind_ok] at h
        obtain ⟨x, _, h⟩ := h
        split at h
        · simp only [Res.ok.injEq, Option.some.injEq] at h
          subst h
          refine ⟨fun u v hm hu hv => hc.prec u v (by simpa using hm) hu hv, fun u v hm hu hv => ?_⟩
          dsimp only at hm
          rcases List.mem_append.1 hm with hm | hm
          · exact hc.eq u v hm hu hv
          · simp only [List.mem_singleton, Con.eq.injEq] at hm
            obtain ⟨rfl, rfl⟩ := hm
            exact hgd hu hv
        · simp at h
      all_goals simp at h
    all_goals simp at h

theorem rec_applyEQ {au : AU} (hp : Linear pr) (hg : GAU ar au) {c c' : CStr} {r : Rule} (hc : Rec ar pr c)
    (h : applyEQ pr au r c = .ok (some c')) : Rec ar pr c' ∧ (r.r.Gd ar → r.l.Gd ar → Gt pr r.l r.r) ∧ (r.l.Gd ar → r.l'.Gd ar → r.l = r.l') := by
  simp only [applyEQ, Res.bind_ok] at h
  obtain ⟨o1, h1, h⟩ := h
  cases o1 with
  | none => simp at h
  | some c1 =>
    simp only [Res.bind_ok] at h
    obtain ⟨o2, h2, h⟩ := h
    cases o2 with
    | none => simp at h
    | some c2 =>
      have k1 := rec_prec hp hc h1
      have k2 := rec_prec hp k1.1 h2
      have k3 := rec_eq hg k2.1 h
      exact ⟨k3.1, k1.2, k3.2⟩

/-- The condition for the second side of the goal to be left alone: no sub-term of it equals, by the equalities, a smaller ground term. -/
def Minimal (ar : Nat → Nat) (pr : Nat → Nat → Ordering) (E : List (UT × UT)) (t : UT) : Prop :=
  ∀ l r, SubT l t → r.Gd ar → Entails E l r → ¬ Gt pr l r

theorem minimal_sound (name : Names) (n : Nat) {ep : Prob} (hE : ∀ e ∈ ep.E, e.1.Gd ar ∧ e.2.Gd ar) (hs : ep.s.Ar ar)
    (ht : ep.t.Gd ar) (hmin : Minimal ar (compareWith name) ep.E ep.t) (hc : ep.c = {}) {ss : List Subst}
    (h : Launch (compareWith name) (addUnification (n + 3)) (n + 3) ep ss) : ∀ τ ∈ ss, τ.Gd ar ∧ Justified ep.E ep.s ep.t τ := by
  obtain ⟨E0, s0, t0, c0⟩ := ep
  dsimp only at hE hs ht hmin hc ⊢
  subst hc
  let K : Prob → Prop := fun ep => ep.t = t0 ∧ (∀ e ∈ ep.E, (e.1.Gd ar ∧ e.2.Gd ar) ∧ Entails E0 e.1 e.2) ∧ Rec ar (compareWith name) ep.c
  have hK : Stable (compareWith name) (addUnification (n + 3)) (n + 3) K := by
    rintro ep ⟨k1, k2, k3⟩ rs r hrs hm ep' hn
    have hr : RuleOf ep r := hrs.elim (fun h => right_mem h hm) fun ⟨i, h⟩ => left_mem h hm
    have hq : ∀ {l v : UT}, Eqn ep.E l v → (l.Gd ar ∧ v.Gd ar) ∧ Entails E0 l v := fun he =>
      he.elim (fun h => k2 _ h) fun h => ⟨(k2 _ h).1.symm, fun D A σ hh => ((k2 _ h).2 D A σ hh).symm⟩
    simp only [next, Res.bind_ok] at hn
    obtain ⟨o, hap, hn⟩ := hn
    cases o with
    | none => simp at hn
    | some c =>
      obtain ⟨r1, r2, r3⟩ := rec_applyEQ (C38_precedence name) (gau n) k3 hap
      cases hr with
      | fst h =>
        simp only [h.1, h.2.1, if_true, Res.ok.injEq, Option.some.injEq] at hn
        subst hn
        exact ⟨fun _ => h.2.1, h.2.2.2.1.trans k1, k2, r1⟩
      | snd h =>
        exfalso
        obtain ⟨e1, e2, e3, e4, e5, e6⟩ := h
        obtain ⟨⟨g1, g2⟩, g3⟩ := hq e6
        rw [k1] at e5
        have := r3 g1 (e5.gd ht)
        exact hmin r.l r.r (this ▸ e5) g2 g3 (r2 g2 g1)
      | eq i e h =>
        obtain ⟨e1, e2, e3, e5, e6⟩ := h
        simp only [e2, Res.ok.injEq, Option.some.injEq] at hn
        subst hn
        refine ⟨fun h => absurd h (by simp [e2]), k1, fun q hq' => ?_, r1⟩
        obtain ⟨⟨g1, g2⟩, g3⟩ := hq e6
        have hst : (r.s.Gd ar ∧ r.t.Gd ar) ∧ Entails E0 r.s r.t := by
          rcases e3 with ⟨h, h'⟩ | ⟨h, h'⟩ <;> rw [h, h']
          · exact hq (Or.inl e1)
          · exact hq (Or.inr e1)
        have hl := r3 g1 (e5.gd hst.1.1)
        have hrep : Entails E0 (repl r.l' r.r r.s) r.s := fun D A σ hh => repl_eval (hl ▸ g3 D A σ hh) r.s
        have hgd : (repl r.l' r.r r.s).Gd ar := repl_gd g2 hst.1.1
        rcases List.mem_or_eq_of_mem_set hq' with hq' | rfl
        · exact k2 q hq'
        · split
          · exact ⟨⟨hgd, hst.1.2⟩, fun D A σ hh => (hrep D A σ hh).trans (hst.2 D A σ hh)⟩
          · exact ⟨⟨hst.1.1, hgd⟩, fun D A σ hh => (hrep D A σ hh).symm⟩
  obtain ⟨b, h⟩ := h
  have hi : POk (UT.Gd ar) (UT.Ar ar) (UT.Gd ar) (Subst.Gd ar) ⟨E0, s0, t0, {}⟩ := ⟨hE, hs, ht, ⟨Subst.Gd.nil, by simp⟩⟩
  have hk : K ⟨E0, s0, t0, {}⟩ := ⟨rfl, fun e he => ⟨hE e he, fun D A σ hh => hh e he⟩, ⟨by simp, by simp⟩⟩
  intro τ hτ
  obtain ⟨h1, h2⟩ := runs_sound (good_fst (n + 3)) hK h hi hk τ hτ
  exact ⟨h1, fun D A σ hs hE => (h2 D A σ hs).2 hE⟩

/-- **C69, what holds** for equalities and a second side without metavariables, the second side being minimal; the first side is arbitrary. -/
theorem C69_minimal_partial (name : Names) (n : Nat) {ep : Prob} (hE : ∀ e ∈ ep.E, e.1.Gd ar ∧ e.2.Gd ar) (hs : ep.s.Ar ar)
    (ht : ep.t.Gd ar) (hmin : Minimal ar (compareWith name) ep.E ep.t) (hc : ep.c = {}) {ss : List Subst}
    (h : Launch (compareWith name) (addUnification (n + 3)) (n + 3) ep ss) : ∀ τ ∈ ss, Justified ep.E ep.s ep.t τ :=
  fun τ hτ => (minimal_sound name n hE hs ht hmin hc h τ hτ).2

/-! Several goals, as for an atom and a negated atom with the same symbol. -/

theorem eval_applyS {D : Type} {A : Alg D} {ρ : Nat → D} (σ : Subst) (h : Subst.Sol A ρ σ) (t : UT) : (applyS σ t).eval A ρ = t.eval A ρ := by
  unfold applyS
  induction σ generalizing t with
  | nil => rfl
  | cons p σ ih =>
    rw [List.foldl_cons, ih fun q hq => h q (by simp [hq])]
    exact UT.eval_sub (h p (by simp)) t

theorem ar_applyS (σ : Subst) (h : σ.Ar ar) {t : UT} (ht : t.Ar ar) : (applyS σ t).Ar ar := by
  unfold applyS
  induction σ generalizing t with
  | nil => exact ht
  | cons p σ ih => exact ih (fun q hq => h q (by simp [hq])) (UT.Ar_sub (h p (by simp)) _ ht)

theorem mergeAll_sound {n : Nat} {σ : Subst} (hσ : σ.Gd ar) {l out : List Subst} (hl : ∀ τ ∈ l, τ.Gd ar)
    (h : mergeAll (addUnif false n) n σ l = .ok out) : ∀ ρ ∈ out, ρ.Gd ar ∧ ∃ τ ∈ l, ∀ (D : Type) (A : Alg D) (s : Nat → D),
      Subst.Sol A s ρ → Subst.Sol A s σ ∧ Subst.Sol A s τ := by
  induction l generalizing out with
  | nil =>
    simp only [mergeAll, Res.ok.injEq] at h
    subst h
    simp
  | cons τ l ih =>
    simp only [mergeAll] at h
    split at h
    · simp at h
    · split at h
      · rename_i ρ hm
        simp only [Res.bind_ok] at h
        obtain ⟨rs, h1, h⟩ := h
        simp only [Res.ok.injEq] at h
        subst h
        have hτ := hl τ (by simp)
        obtain ⟨m1, m2⟩ := merge_ground (ar := ar) (ground_agree n) n σ τ ρ hσ hτ hm
        intro ρ' hρ
        rcases List.mem_cons.1 hρ with rfl | hρ
        · have hb : AUBase ar (addUnif true n) := fun t1 t2 s r a1 a2 hk ha h =>
            ⟨(addUnif_spec.{0} ar true n t1 t2 s r a1 a2 hk ha h).solved.1, (addUnif_spec.{0} ar true n t1 t2 s r a1 a2 hk ha h).ar⟩
          have hs : AUSound.{0} ar (addUnif true n) := fun t1 t2 s r a1 a2 hk ha h =>
            (addUnif_spec.{0} ar true n t1 t2 s r a1 a2 hk ha h).snd rfl
          have sp := Verif.Unif.merge_spec.{0} (ar := ar) hb n σ τ ρ' hσ.1 hτ.1 hσ.arity hτ.arity m1
          exact ⟨m2, τ, by simp, fun D A s h => sp.2.2.1 hs A s h⟩
        · obtain ⟨k1, τ', k2, k3⟩ := ih (fun τ hτ => hl τ (by simp [hτ])) h1 ρ' hρ
          exact ⟨k1, τ', by simp [k2], k3⟩
      all_goals simp at h

/-- The goals for which the single answers are justified. -/
def MinGoal (ar : Nat → Nat) (name : Names) (E : List (UT × UT)) (g : UT × UT) : Prop :=
  g.1.Ar ar ∧ g.2.Gd ar ∧ Minimal ar (compareWith name) E g.2

theorem manage_sound (name : Names) (n : Nat) {E : List (UT × UT)} (hE : ∀ e ∈ E, e.1.Gd ar ∧ e.2.Gd ar) {g : UT × UT}
    (hg : MinGoal ar name E g) {sl out : List Subst} (hsl : ∀ σ ∈ sl, σ.Gd ar)
    (h : Manage (compareWith name) (addUnification (n + 3)) (n + 3) ⟨E, g.1, g.2, {}⟩ sl out) :
    ∀ ρ ∈ out, ρ.Gd ar ∧ Justified E g.1 g.2 ρ ∧ (sl = [] ∨ ∃ σ ∈ sl, ∀ (D : Type) (A : Alg D) (s : Nat → D), Subst.Sol A s ρ → Subst.Sol A s σ) := by
  unfold Manage at h
  split at h
  · rename_i e
    have e : sl = [] := by simpa using e
    intro ρ hρ
    obtain ⟨h1, h2⟩ := minimal_sound name n (ep := ⟨E, g.1, g.2, {}⟩) hE hg.1 hg.2.1 hg.2.2 rfl h ρ hρ
    exact ⟨h1, h2, Or.inl e⟩
  · suffices key : ∀ ρ ∈ out, ρ.Gd ar ∧ Justified E g.1 g.2 ρ ∧
        ∃ σ ∈ sl, ∀ (D : Type) (A : Alg D) (s : Nat → D), Subst.Sol A s ρ → Subst.Sol A s σ from
      fun ρ hρ => ⟨(key ρ hρ).1, (key ρ hρ).2.1, Or.inr (key ρ hρ).2.2⟩
    rename_i e
    clear e
    induction h with
    | nil => simp
    | @cons σ l ss out rest h hm hr ih =>
      have hσ := hsl σ (by simp)
      have happ : Prob.applyS σ ⟨E, g.1, g.2, {}⟩ = ⟨E, applyS σ g.1, g.2, {}⟩ := by
        have hmap : E.map (fun e => (applyS σ e.1, applyS σ e.2)) = E := by
          conv => rhs; rw [← List.map_id E]
          refine List.map_congr_left fun e he => ?_
          rw [applyS_gd σ (hE e he).1, applyS_gd σ (hE e he).2]
          rfl
        simp only [Prob.applyS, hmap, applyS_gd σ hg.2.1]
      rw [happ] at h
      have hl := minimal_sound name n (ep := ⟨E, applyS σ g.1, g.2, {}⟩) hE (ar_applyS σ hσ.arity hg.1) hg.2.1 hg.2.2 rfl h
      intro ρ hρ
      rcases List.mem_append.1 hρ with hρ | hρ
      · obtain ⟨k1, τ, k2, k3⟩ := mergeAll_sound hσ (fun τ hτ => (hl τ hτ).1) hm ρ hρ
        refine ⟨k1, fun D A s hs hEs => ?_, σ, by simp, fun D A s hs => (k3 D A s hs).1⟩
        have := (hl τ k2).2 D A s (k3 D A s hs).2 hEs
        rwa [eval_applyS σ (k3 D A s hs).1] at this
      · obtain ⟨k1, k2, σ', k3, k4⟩ := ih (fun σ hσ => hsl σ (by simp [hσ])) ρ hρ
        exact ⟨k1, k2, σ', by simp [k3], k4⟩

theorem goalList_sound (name : Names) (n : Nat) {E : List (UT × UT)} (hE : ∀ e ∈ E, e.1.Gd ar ∧ e.2.Gd ar) {gs : List (UT × UT)}
    (hgs : ∀ g ∈ gs, MinGoal ar name E g) {sl : List Subst} (hsl : ∀ σ ∈ sl, σ.Gd ar) {res : Option (List Subst)}
    (h : GoalList (compareWith name) (addUnification (n + 3)) (n + 3) E gs sl res) : ∀ ss, res = some ss → ∀ ρ ∈ ss, ρ.Gd ar ∧
      (∀ g ∈ gs, Justified E g.1 g.2 ρ) ∧ (sl = [] ∨ ∃ σ ∈ sl, ∀ (D : Type) (A : Alg D) (s : Nat → D), Subst.Sol A s ρ → Subst.Sol A s σ) := by
  induction h with
  | @done sl =>
    rintro ss e ρ hρ
    cases e
    exact ⟨hsl ρ hρ, by simp, Or.inr ⟨ρ, hρ, fun _ _ _ h => h⟩⟩
  | @step g gs sl out res h hne hr ih =>
    intro ss e ρ hρ
    have hm := manage_sound name n hE (hgs g (by simp)) hsl h
    obtain ⟨k1, k2, k3⟩ := ih (fun g hg => hgs g (by simp [hg])) (fun σ hσ => (hm σ hσ).1) ss e ρ hρ
    obtain ⟨σ, hσ, k4⟩ := k3.resolve_left hne
    obtain ⟨m1, m2, m3⟩ := hm σ hσ
    refine ⟨k1, fun g' hg' => ?_, m3.imp id fun ⟨σ', h1, h2⟩ => ⟨σ', h1, fun D A s hs => h2 D A s (k4 D A s hs)⟩⟩
    rcases List.mem_cons.1 hg' with rfl | hg'
    · exact fun D A s hs hEs => m2 D A s (k4 D A s hs) hEs
    · exact k2 g' hg'
  | stuck => intro ss e; cases e

/-- **C69, what holds** for all goals of a branch, under the same conditions: every substitution `Solve` returns makes all goals of one of the lists
follow. -/
theorem C69_solve_partial (name : Names) (n : Nat) {E : List (UT × UT)} (hE : ∀ e ∈ E, e.1.Gd ar ∧ e.2.Gd ar) {gss : List (List (UT × UT))}
    (hg : ∀ gs ∈ gss, ∀ g ∈ gs, MinGoal ar name E g) {b : Bool} {res : List Subst}
    (h : Solve (compareWith name) (addUnification (n + 3)) (n + 3) E gss [] b res) :
    ∀ ρ ∈ res, ∃ gs ∈ gss, ∀ g ∈ gs, Justified E g.1 g.2 ρ := by
  have key : ∀ {gss : List (List (UT × UT))} {acc res : List Subst} {b : Bool}, (∀ gs ∈ gss, ∀ g ∈ gs, MinGoal ar name E g) →
      Solve (compareWith name) (addUnification (n + 3)) (n + 3) E gss acc b res →
      ∀ ρ ∈ res, ρ ∈ acc ∨ ∃ gs ∈ gss, ∀ g ∈ gs, Justified E g.1 g.2 ρ := by
    intro gss acc res b hg h
    induction h with
    | done => exact fun ρ hρ => Or.inl hρ
    | @yes g gs acc ss res b h hr ih =>
      intro ρ hρ
      rcases ih (fun gs hgs => hg gs (by simp [hgs])) ρ hρ with h1 | ⟨gs', h1, h2⟩
      · rcases foldl_addSubst_mem h1 with h1 | h1
        · exact Or.inl h1
        · exact Or.inr ⟨g, by simp, (goalList_sound name n hE (hg g (by simp)) (by simp) h ss rfl ρ h1).2.1⟩
      · exact Or.inr ⟨gs', by simp [h1], h2⟩
    | @no g gs acc res b h hr ih =>
      intro ρ hρ
      rcases ih (fun gs hgs => hg gs (by simp [hgs])) ρ hρ with h1 | ⟨gs', h1, h2⟩
      · exact Or.inl h1
      · exact Or.inr ⟨gs', by simp [h1], h2⟩
  intro ρ hρ
  exact (key hg h ρ hρ).resolve_left (by simp)

/-! ### C70 -/

/-- The full property. -/
def C70_statement : Prop := ∀ (ar : Nat → Nat) (name : Names) (n : Nat) (ep : Prob) (ss : List Subst), GroundProblem ar ep →
  Entails ep.E ep.s ep.t → Launch (compareWith name) (addUnification (n + 3)) (n + 3) ep ss → ss ≠ []

/-- **C70 fails.** From `b = d` and `a = d` the goal `b = a` gets no answer in any run. Rewriting the second side of an equality replaces the
equality by the trivial consequence that its old and its new form are equal: `b = d` becomes `d = a`, and `b` is lost. -/
theorem C70_violated (n : Nat) : (∃ ss, Launch (compareWith nm) (addUnification (n + 3)) (n + 3) ⟨[(kb, kd), (ka, kd)], kb, ka, {}⟩ ss) ∧
    (∀ ss, Launch (compareWith nm) (addUnification (n + 3)) (n + 3) ⟨[(kb, kd), (ka, kd)], kb, ka, {}⟩ ss → ss = []) ∧
    Entails [(kb, kd), (ka, kd)] kb ka := by
  have hg : GroundProblem arS ⟨[(kb, kd), (ka, kd)], kb, ka, {}⟩ :=
    ⟨by simpa using ⟨⟨const_gd rfl, const_gd rfl⟩, const_gd rfl, const_gd rfl⟩, const_gd rfl, const_gd rfl, rfl⟩
  refine ⟨C71_answers nm n hg, fun ss h => ?_, fun D A σ h => ?_⟩
  · have := (launch_of_derivesB (k := 4) (b := false) hg (by decide +kernel) h).1
    exact Classical.byContradiction fun e => absurd (this.1 e) (by simp)
  · exact (h (kb, kd) (by simp)).trans (h (ka, kd) (by simp)).symm

theorem C70_statement_false : ¬ C70_statement := fun h => by
  obtain ⟨⟨ss, h1⟩, h2, h3⟩ := C70_violated 0
  refine h arS nm 0 _ ss ?_ h3 h1 (h2 ss h1)
  exact ⟨by simpa using ⟨⟨const_gd rfl, const_gd rfl⟩, const_gd rfl, const_gd rfl⟩, const_gd rfl, const_gd rfl, rfl⟩

/-- No equality rewrites a sub-term to a smaller one. -/
def Irred (pr : Nat → Nat → Ordering) (E : List (UT × UT)) (u : UT) : Prop := ∀ l r, SubT l u → Eqn E l r → ¬ Gt pr l r

/-- The equalities, read from the bigger to the smaller side, give unique normal forms. -/
def Convergent (ar : Nat → Nat) (pr : Nat → Nat → Ordering) (E : List (UT × UT)) : Prop :=
  ∀ u v, u.Gd ar → v.Gd ar → Irred pr E u → Irred pr E v → Entails E u v → u = v

theorem eqn_entails {E : List (UT × UT)} {l r : UT} (h : Eqn E l r) : Entails E l r :=
  fun _ _ _ hE => h.elim (fun h => hE _ h) fun h => (hE _ h).symm

theorem reducible {E : List (UT × UT)} {u : UT} (h : ¬ Irred pr E u) : ∃ l r, SubT l u ∧ Eqn E l r ∧ Gt pr l r := by
  refine Classical.byContradiction fun hc => h fun l r h1 h2 h3 => hc ⟨l, r, h1, h2, h3⟩

theorem normal_form (hp : Linear pr) {S : List Nat} {E : List (UT × UT)} (hE : ∀ e ∈ E, Term ar S e.1 ∧ Term ar S e.2) {u : UT} (hu : Term ar S u) :
    ∃ v, Term ar S v ∧ Irred pr E v ∧ Entails E u v ∧ (v = u ∨ Gt pr u v) := by
  have hacc := below_acc hp hu.2
  induction hacc with
  | intro u _ ih =>
    by_cases hi : Irred pr E u
    · exact ⟨u, hu, hi, fun _ _ _ _ => rfl, Or.inl rfl⟩
    · obtain ⟨l, r, h1, h2, h3⟩ := reducible hi
      have hr : Term ar S r := h2.elim (fun h => (hE _ h).2) fun h => (hE _ h).1
      have hn : Term ar S (repl l r u) := ⟨repl_gd hr.1 hu.1, over_repl hr.2 hu.2⟩
      have hgt := repl_gt hp h3 h1
      obtain ⟨v, v1, v2, v3, v4⟩ := ih _ ⟨hgt, hn.2⟩ hn
      refine ⟨v, v1, v2, fun D A σ hh => ?_, Or.inr ?_⟩
      · rw [← v3 D A σ hh, repl_eval (eqn_entails h2 D A σ hh)]
      · rcases v4 with rfl | v4
        · exact hgt
        · exact Gt.trans hp hgt v4

theorem derives_convergent (hp : Linear pr) {S : List Nat} {E : List (UT × UT)} (hE : ∀ e ∈ E, Term ar S e.1 ∧ Term ar S e.2)
    (hcv : Convergent ar pr E) {t : UT} (ht : Term ar S t) (hti : Irred pr E t) {s : UT} (hs : Term ar S s) (h : Entails E s t) (last : Option Nat) :
    Derives pr ⟨E, s, t, {}⟩ last := by
  have hacc := below_acc hp hs.2
  induction hacc generalizing last with
  | intro s _ ih =>
    by_cases e : s = t
    · exact .stop e
    · have hsi : ¬ Irred pr E s := fun hi => e (hcv s t hs.1 ht.1 hi hti h)
      obtain ⟨l, r, h1, h2, h3⟩ := reducible hsi
      have hr : Term ar S r := h2.elim (fun h => (hE _ h).2) fun h => (hE _ h).1
      have hn : Term ar S (repl l r s) := ⟨repl_gd hr.1 hs.1, over_repl hr.2 hs.2⟩
      have hgt := repl_gt hp h3 h1
      have hst : Gt pr s t := by
        obtain ⟨v, v1, v2, v3, v4⟩ := normal_form hp hE hs
        obtain rfl := hcv v t v1.1 ht.1 v2 hti fun D A σ hh => (v3 D A σ hh).symm.trans (h D A σ hh)
        exact v4.resolve_left fun h => e h.symm
      refine .right (r := ⟨none, l, r, l, s, t, true⟩) (Or.inl ⟨rfl, rfl, rfl, rfl, rfl, h1, h2, Or.inr rfl⟩) ⟨h3, hst⟩ ?_
      refine ih _ ⟨hgt, hn.2⟩ hn (fun D A σ hh => ?_) _
      rw [repl_eval (eqn_entails h2 D A σ hh)]
      exact h D A σ hh

theorem exists_over_list {l : List UT} (h : ∀ a ∈ l, a.Gd ar) : ∃ S, ∀ a ∈ l, Over S a := over_list fun a ha => exists_over a (h a ha).2

/-- If the equalities are convergent, a term in normal form is minimal. -/
theorem minimal_of_convergent (hp : Linear pr) {E : List (UT × UT)} (hE : ∀ e ∈ E, e.1.Gd ar ∧ e.2.Gd ar) (hcv : Convergent ar pr E) {t : UT}
    (ht : t.Gd ar) (hti : Irred pr E t) : Minimal ar pr E t := by
  intro l r hl hr he hgt
  obtain ⟨S, hS⟩ := exists_over_list (ar := ar) (l := r :: E.flatMap fun e => [e.1, e.2]) (by
    intro a ha
    rcases List.mem_cons.1 ha with rfl | ha
    · exact hr
    · obtain ⟨e, h1, h2⟩ := List.mem_flatMap.1 ha
      simp only [List.mem_cons, List.not_mem_nil, or_false] at h2
      rcases h2 with rfl | rfl
      · exact (hE e h1).1
      · exact (hE e h1).2)
  obtain ⟨v, v1, v2, v3, v4⟩ := normal_form (S := S) hp (E := E) (fun e h => ⟨⟨(hE e h).1, hS _ (List.mem_cons_of_mem _ (List.mem_flatMap.2 ⟨e, h, by simp⟩))⟩,
    ⟨(hE e h).2, hS _ (List.mem_cons_of_mem _ (List.mem_flatMap.2 ⟨e, h, by simp⟩))⟩⟩) (u := r) ⟨hr, hS r (by simp)⟩
  obtain rfl := hcv l v (hl.gd ht) v1.1 (fun l' r' h' => hti l' r' (h'.trans hl)) v2 fun D A σ hh => (he D A σ hh).trans (v3 D A σ hh)
  rcases v4 with rfl | v4
  · exact Gt.irrefl hp _ hgt
  · exact Gt.asymm hp hgt v4

/-- **C70, what holds**: if the equalities are convergent and the second side of the goal is in normal form, every run answers. -/
theorem C70_partial (name : Names) (n : Nat) {ep : Prob} (hg : GroundProblem ar ep) (hcv : Convergent ar (compareWith name) ep.E)
    (ht : Irred (compareWith name) ep.E ep.t) (he : Entails ep.E ep.s ep.t) {ss : List Subst}
    (h : Launch (compareWith name) (addUnification (n + 3)) (n + 3) ep ss) : ss ≠ [] := by
  have hS : ∃ S, ∀ a ∈ ep.pairs.flatMap (fun q => [q.1, q.2]), Over S a := by
    refine over_list fun a ha => exists_over a ?_
    obtain ⟨q, hq, ha⟩ := List.mem_flatMap.1 ha
    have : q.1.Gd ar ∧ q.2.Gd ar := by
      rcases List.mem_cons.1 hq with rfl | hq
      · exact ⟨hg.2.1, hg.2.2.1⟩
      · exact hg.1 q hq
    simp only [List.mem_cons, List.not_mem_nil, or_false] at ha
    rcases ha with rfl | rfl
    · exact this.1.2
    · exact this.2.2
  obtain ⟨S, hS⟩ := hS
  have hT : ∀ q ∈ ep.pairs, Over S q.1 ∧ Over S q.2 := fun q hq =>
    ⟨hS _ (List.mem_flatMap.2 ⟨q, hq, by simp⟩), hS _ (List.mem_flatMap.2 ⟨q, hq, by simp⟩)⟩
  refine (launch_ground (C38_precedence name) hg.g h).1.2 ?_
  obtain ⟨E, s, t, c⟩ := ep
  obtain ⟨g1, g2, g3, g4⟩ := hg
  dsimp only at g1 g2 g3 g4 he ht hcv ⊢
  subst g4
  have hst := hT (s, t) (by simp [Prob.pairs])
  exact derives_convergent (C38_precedence name) (S := S)
    (fun e he => ⟨⟨(g1 e he).1, (hT e (by simp [Prob.pairs, he])).1⟩, ⟨(g1 e he).2, (hT e (by simp [Prob.pairs, he])).2⟩⟩)
    hcv ⟨g3, hst.2⟩ ht ⟨g2, hst.1⟩ he none

/-- Both together: for such goals the answers are exactly the consequences. -/
theorem C70_exact_partial (name : Names) (n : Nat) {ep : Prob} (hg : GroundProblem ar ep) (hcv : Convergent ar (compareWith name) ep.E)
    (ht : Irred (compareWith name) ep.E ep.t) {ss : List Subst} (h : Launch (compareWith name) (addUnification (n + 3)) (n + 3) ep ss) :
    ss ≠ [] ↔ Entails ep.E ep.s ep.t := by
  refine ⟨fun hne => ?_, fun he => C70_partial name n hg hcv ht he h⟩
  obtain ⟨τ, hτ⟩ := List.exists_mem_of_ne_nil _ hne
  have := C69_minimal_partial name n hg.1 hg.2.1.1 hg.2.2.1 (minimal_of_convergent (C38_precedence name) hg.1 hcv hg.2.2.1 ht) hg.2.2.2 h τ hτ
  obtain rfl := (launch_ground (C38_precedence name) hg.g h).2 τ hτ
  exact fun D A σ hE => this D A σ (fun p hp => by cases hp) hE

/-! ### The hypotheses are met -/

/-- The algebra of terms in which `b` is `a`. -/
def algBA : Alg UT := fun p ds => if p = 1 then ka else .fn p ds

theorem sample_gt : Gt (compareWith nm) kb ka := .big (by decide) (by simp)

theorem sample_eval {ar : Nat → Nat} (har : ar 1 = 0) {u : UT} (hu : u.Gd ar) (h : Irred (compareWith nm) [(kb, ka)] u) : u.eval algBA (fun _ => ka) = u := by
  induction u using UT.ind with
  | mv x => simp [UT.Gd, UT.occ] at hu
  | fn p l ih =>
    obtain ⟨h1, h2⟩ := gd_fn.1 hu
    by_cases e : p = 1
    · subst e
      have : l = [] := List.length_eq_zero_iff.1 (h1.trans har)
      subst this
      exact absurd sample_gt (h kb ka .refl (Or.inl (by simp)))
    · have : ∀ m : List UT, (∀ a ∈ m, a.eval algBA (fun _ => ka) = a) → UT.evalL algBA (fun _ => ka) m = m := by
        intro m hm
        induction m with
        | nil => rfl
        | cons a m ih => rw [UT.evalL, hm a (by simp), ih fun b hb => hm b (by simp [hb])]
      rw [UT.eval, this l fun a ha => ih a ha (h2 a ha) fun l' r hs => h l' r (.arg ha hs), algBA, if_neg e]

/-- `b = a` is convergent. -/
theorem sample_convergent {ar : Nat → Nat} (har : ar 1 = 0) : Convergent ar (compareWith nm) [(kb, ka)] := by
  intro u v hu hv iu iv h
  have := h UT algBA (fun _ => ka) (by simp [UT.eval, algBA, ka, kb, UT.evalL])
  rwa [sample_eval har hu iu, sample_eval har hv iv] at this

theorem sample_irred : Irred (compareWith nm) [(kb, ka)] (.fn 9 [ka]) := by
  intro l r hs he hgt
  have hl : l = kb ∨ l = ka ∧ r = kb := by
    rcases he with he | he
    · exact Or.inl (by simpa using (Prod.ext_iff.1 (List.mem_singleton.1 he)).1)
    · have := Prod.ext_iff.1 (List.mem_singleton.1 he)
      exact Or.inr ⟨this.2, this.1⟩
  rcases hl with rfl | ⟨rfl, rfl⟩
  · have := mem_subs.2 hs
    revert this
    decide
  · exact Gt.asymm (C38_precedence nm) hgt sample_gt

/-- From `b = a` the goal `g(b) = g(a)` is answered. -/
example (n : Nat) {ss : List Subst} (h : Launch (compareWith nm) (addUnification (n + 3)) (n + 3) ⟨[(kb, ka)], .fn 9 [kb], .fn 9 [ka], {}⟩ ss) :
    ss ≠ [] := by
  refine C70_partial (ar := arS) nm n ⟨by simpa using ⟨const_gd rfl, const_gd rfl⟩, gd_fn.2 ⟨rfl, by simp only [List.mem_singleton, forall_eq]; exact const_gd rfl⟩,
    gd_fn.2 ⟨rfl, by simp only [List.mem_singleton, forall_eq]; exact const_gd rfl⟩, rfl⟩ (sample_convergent rfl) sample_irred (fun D A σ hE => ?_) h
  simp only [UT.eval, UT.evalL, hE (kb, ka) (by simp)]

/-- `C69_minimal_partial` applies to `g(X) = g(a)`, from `b = a`. -/
example : Minimal arS (compareWith nm) [(kb, ka)] (.fn 9 [ka]) :=
  minimal_of_convergent (C38_precedence nm) (by simpa using ⟨const_gd rfl, const_gd rfl⟩) (sample_convergent rfl)
    (gd_fn.2 ⟨rfl, by simp only [List.mem_singleton, forall_eq]; exact const_gd rfl⟩) sample_irred

/-- `C69_solve_partial` applies to the two goals `g(X) = g(a)` and `X = g(a)`, from `b = a`. -/
example : ∀ g ∈ [((.fn 9 [.mv 0] : UT), (.fn 9 [ka] : UT)), (.mv 0, .fn 9 [ka])], MinGoal arS nm [(kb, ka)] g := by
  have hg : (UT.fn 9 [ka]).Gd arS := gd_fn.2 ⟨rfl, by simp only [List.mem_singleton, forall_eq]; exact const_gd rfl⟩
  have hm : Minimal arS (compareWith nm) [(kb, ka)] (.fn 9 [ka]) :=
    minimal_of_convergent (C38_precedence nm) (by simpa using ⟨const_gd rfl, const_gd rfl⟩) (sample_convergent rfl) hg sample_irred
  intro g hgm
  simp only [List.mem_cons, List.not_mem_nil, or_false] at hgm
  rcases hgm with rfl | rfl
  · exact ⟨⟨rfl, trivial, trivial⟩, hg, hm⟩
  · exact ⟨trivial, hg, hm⟩

theorem rulesFor_nil {n : Nat} {ep : Prob} (hE : ∀ e ∈ ep.E, e.1.Gd ar ∧ e.2.Gd ar) {s t : UT} (hs : s.Gd ar) {left : Option Nat} {sMod : Bool}
    (h : rulesL ep.E s t left sMod = []) : RulesFor (addUnif false (n + 1)) (n + 1) ep s t left sMod [] := by
  obtain ⟨rs, hr⟩ := rulesFor_total (n := n) (au := addUnif false (n + 1)) (t := t) (left := left) (sMod := sMod) hE hs
  have : rs = [] := List.eq_nil_iff_forall_not_mem.2 fun r hm => by
    have := mem_rulesL.2 ((rulesFor_gd hE hs hr r).1 hm)
    rw [h] at this
    cases this
  exact this ▸ hr

/-- `C69_meta_partial` is about real answers: from `b = a` the goal `b = X` is answered with `X ↦ b` and `X ↦ a`. -/
example : Launch (compareWith nm) (addUnification 12) 12 ⟨[(kb, ka)], kb, .mv 0, {}⟩ [[(0, kb)], [(0, ka)]] := by
  have hE : ∀ e ∈ [(kb, ka)], e.1.Gd arS ∧ e.2.Gd arS := by simpa using ⟨const_gd rfl, const_gd rfl⟩
  have hmv : ∀ (ep : Prob) (t : UT), ep.E = [(kb, ka)] → RulesFor (addUnification 12) 12 ep (.mv 0) t none false [] := by
    intro ep t h
    obtain ⟨T, hT, -⟩ := tree_built ep.E
    exact ⟨T, [], hT, .mv .nil, rfl⟩
  have hleft : ∀ (ep : Prob), ep.E = [(kb, ka)] → LeftRules (addUnification 12) 12 ep 0 [] := by
    intro ep h
    unfold LeftRules
    rw [h]
    exact .cons (a := []) (b := []) (rs := []) (rulesFor_nil (ar := arS) (h ▸ hE) (const_gd rfl) (by rw [h]; decide +kernel))
      (rulesFor_nil (ar := arS) (h ▸ hE) (const_gd rfl) (by rw [h]; decide +kernel)) .nil
  obtain ⟨a1, ha1⟩ := rulesFor_total (n := 11) (au := addUnification 12) (ep := ⟨[(kb, ka)], kb, .mv 0, {}⟩) (s := kb) (t := .mv 0)
    (left := none) (sMod := true) (ar := arS) hE (const_gd rfl)
  obtain ⟨a2, ha2⟩ := rulesFor_total (n := 11) (au := addUnification 12)
    (ep := ⟨[(kb, ka)], ka, .mv 0, { all := [.prec (.mv 0) kb], prec := [.prec (.mv 0) kb] }⟩) (s := ka) (t := .mv 0)
    (left := none) (sMod := true) (ar := arS) hE (const_gd rfl)
  have hm1 := (rulesFor_gd (ar := arS) hE (const_gd rfl) ha1 ⟨none, kb, ka, kb, kb, .mv 0, true⟩).2 (mem_rulesL.1 (by decide +kernel))
  have hm2 : ∀ r ∈ a2, r = ⟨none, ka, kb, ka, ka, .mv 0, true⟩ := by
    intro r hr
    have := mem_rulesL.2 ((rulesFor_gd (ar := arS) hE (const_gd rfl) ha2 r).1 hr)
    have e : rulesL [(kb, ka)] ka (.mv 0) none true = [⟨none, ka, kb, ka, ka, .mv 0, true⟩] := by decide +kernel
    exact List.mem_singleton.1 (e ▸ (show r ∈ rulesL [(kb, ka)] ka (.mv 0) none true from this))
  refine ⟨true, .right (us := [[(0, kb)]]) (ss := [[(0, ka)]]) (by decide +kernel) (by decide +kernel) ⟨a1, [], ha1, hmv _ _ rfl, rfl⟩
    (r := ⟨none, kb, ka, kb, kb, .mv 0, true⟩) (by simpa using hm1) (.applied
      (ep' := ⟨[(kb, ka)], ka, .mv 0, { all := [.prec (.mv 0) kb], prec := [.prec (.mv 0) kb] }⟩) rfl ?_)⟩
  refine .none (us := [[(0, ka)]]) (rs := a2 ++ []) (ls := []) (f := fun _ => []) (g := fun _ => []) (by decide +kernel) (by decide +kernel)
    ⟨a2, [], ha2, hmv _ _ rfl, rfl⟩ (fun r hr => ?_) (hleft _ rfl) (by simp)
  rw [hm2 r (by simpa using hr)]
  exact .refused rfl

end Verif.Equality.Bse
