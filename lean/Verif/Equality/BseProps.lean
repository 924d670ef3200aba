import Verif.Equality.BseSound
/-!
# Equality reasoning on ground problems: the properties

C71: on ground problems every run ends, and the answer does not depend on the schedule.
-/

namespace Verif.Equality.Bse

open Verif.Unif Verif.Equality.LPO

variable {ar : Nat → Nat} {pr : Nat → Nat → Ordering}

/-! ### The answer to a ground problem can be computed -/

def rulesL (E : List (UT × UT)) (s t : UT) (left : Option Nat) (sMod : Bool) : List Rule :=
  connect E s t left sMod ((subs s).map fun l => (l, l))

theorem mem_rulesL {E : List (UT × UT)} {s t : UT} {left : Option Nat} {sMod : Bool} {r : Rule} :
    r ∈ rulesL E s t left sMod ↔ IsRule E s t left sMod r := by
  simp only [rulesL, connect, List.mem_flatMap, List.mem_map, List.mem_filter, mem_eMap]
  constructor
  · rintro ⟨_, ⟨l, hl, rfl⟩, v, ⟨hv, hn⟩, rfl⟩
    refine ⟨rfl, rfl, rfl, rfl, rfl, mem_subs.1 hl, hv, ?_⟩
    simpa using hn
  · rintro ⟨h1, h2, h3, h4, h5, h6, h7, h8⟩
    refine ⟨_, ⟨r.l, mem_subs.2 h6, rfl⟩, r.r, ⟨h7, by simpa using h8⟩, ?_⟩
    cases r
    simp_all

def leftL (E : List (UT × UT)) (begin : Nat) : List Rule :=
  (List.range E.length).flatMap fun i => if begin ≤ i then
    match E[i]? with
    | some e => rulesL E e.1 e.2 (some i) true ++ rulesL E e.2 e.1 (some i) false
    | none => []
  else []

theorem mem_leftL {ep : Prob} {begin : Nat} {r : Rule} : r ∈ leftL ep.E begin ↔ IsLeft ep begin r := by
  simp only [leftL, List.mem_flatMap, List.mem_range, IsLeft]
  constructor
  · rintro ⟨i, hi, h⟩
    split at h
    · rename_i hb
      split at h
      · rename_i e he
        rw [List.mem_append, mem_rulesL, mem_rulesL] at h
        exact ⟨i, e, hb, he, h⟩
      · cases h
    · cases h
  · rintro ⟨i, e, hb, he, h⟩
    obtain ⟨hi, _⟩ := List.getElem?_eq_some_iff.1 he
    refine ⟨i, hi, ?_⟩
    rw [if_pos hb]
    simp only [he, List.mem_append, mem_rulesL]
    exact h

def gtB (pr : Nat → Nat → Ordering) (a b : UT) : Bool :=
  match checkLPO pr (.prec b a) with
  | .ok r => r.1.1
  | _ => false

theorem gtB_iff (hp : Linear pr) {a b : UT} (ha : a.Gd ar) (hb : b.Gd ar) : gtB pr a b = true ↔ Gt pr a b := by
  obtain ⟨ok, h1, h2⟩ := checkLPO_gd hp hb ha
  simp only [gtB, h1]
  exact h2

def anyO : List (Option Bool) → Option Bool
  | [] => some false
  | some true :: _ => some true
  | some false :: l => anyO l
  | none :: _ => none

/-- The answer to a ground problem; `none` when the bound is too small. -/
def derivesB (pr : Nat → Nat → Ordering) : Nat → Prob → Option Nat → Option Bool
  | 0, _, _ => none
  | k + 1, ep, last =>
    if ep.s = ep.t then some true
    else anyO (((rulesL ep.E ep.s ep.t none true ++ rulesL ep.E ep.t ep.s none false ++ leftL ep.E (last.getD 0)).filter
      fun r => gtB pr r.l r.r && gtB pr r.s r.t).map fun r => derivesB pr k (stepG ep r) r.left)

theorem anyO_true {l : List (Option Bool)} (h : anyO l = some true) : some true ∈ l := by
  induction l with
  | nil => simp [anyO] at h
  | cons o l ih =>
    match o, h with
    | some true, _ => simp
    | some false, h => exact List.mem_cons_of_mem _ (ih h)
    | none, h => simp [anyO] at h

theorem anyO_false {l : List (Option Bool)} (h : anyO l = some false) : ∀ o ∈ l, o = some false := by
  induction l with
  | nil => simp
  | cons o l ih =>
    match o, h with
    | some true, h => simp [anyO] at h
    | some false, h =>
      intro o ho
      rcases List.mem_cons.1 ho with rfl | ho
      · rfl
      · exact ih h o ho
    | none, h => simp [anyO] at h

theorem derivesB_spec (hp : Linear pr) : ∀ (k : Nat) (ep : Prob) (last : Option Nat) (b : Bool), GProb ar ep →
    derivesB pr k ep last = some b → (b = true ↔ Derives pr ep last)
  | 0, _, _, _, _, h => by simp [derivesB] at h
  | k + 1, ep, last, b, hg, h => by
    simp only [derivesB] at h
    split at h
    · rename_i e
      simp only [Option.some.injEq] at h
      exact ⟨fun _ => .stop e, fun _ => h.symm⟩
    · rename_i e
      have hdec : ∀ r, AnyRule ep r → ((gtB pr r.l r.r && gtB pr r.s r.t) = true ↔ Dec pr r) := by
        intro r hr
        obtain ⟨h1, h2, h3, h4, -⟩ := hr.gd hg
        rw [Bool.and_eq_true, gtB_iff hp h1 h2, gtB_iff hp h3 h4, Dec]
      cases b with
      | true =>
        refine ⟨fun _ => ?_, fun _ => rfl⟩
        obtain ⟨r, hr, h⟩ := List.mem_map.1 (anyO_true h)
        obtain ⟨hr, hd⟩ := List.mem_filter.1 hr
        rw [List.mem_append, List.mem_append, mem_rulesL, mem_rulesL, mem_leftL] at hr
        rcases hr with hr | hr
        · have ha : AnyRule ep r := Or.inl hr
          exact .right hr ((hdec r ha).1 hd) ((derivesB_spec hp k _ _ _ (stepG_gd hg ha) h).1 rfl)
        · exact .left hr ((hdec r hr.any).1 hd) ((derivesB_spec hp k _ _ _ (stepG_gd hg hr.any) h).1 rfl)
      | false =>
        have hall := anyO_false h
        have hno : ∀ r, (IsRight ep r ∨ IsLeft ep (last.getD 0) r) → Dec pr r → ¬ Derives pr (stepG ep r) r.left := by
          intro r hr hd hdr
          have ha : AnyRule ep r := hr.elim Or.inl fun h => h.any
          have := hall _ (List.mem_map.2 ⟨r, List.mem_filter.2 ⟨?_, (hdec r ha).2 hd⟩, rfl⟩)
          · have := (derivesB_spec hp k _ _ _ (stepG_gd hg ha) this).2 hdr
            simp at this
          · rw [List.mem_append, List.mem_append, mem_rulesL, mem_rulesL, mem_leftL]
            exact hr
        refine ⟨fun h => by simp at h, fun hd => ?_⟩
        cases hd with
        | stop h => exact absurd h e
        | right hr hd h => exact absurd h (hno _ (Or.inl hr) hd)
        | left hr hd h => exact absurd h (hno _ (Or.inr hr) hd)

/-! ### C71: ground problems -/

/-- The order of the identifiers of a run: by name, then by number (`C38_precedence`). -/
abbrev Names := Nat → List Nat

/-- A problem without metavariables and without constraints, as the module builds it from a branch without metavariables. -/
def GroundProblem (ar : Nat → Nat) (ep : Prob) : Prop := (∀ e ∈ ep.E, e.1.Gd ar ∧ e.2.Gd ar) ∧ ep.s.Gd ar ∧ ep.t.Gd ar ∧ ep.c = {}

theorem GroundProblem.g {ep : Prob} (h : GroundProblem ar ep) : GProb ar ep := ⟨h.1, h.2.1, h.2.2.1, h.2.2.2⟩

/-- A goroutine working on the second problem is started, through a rule, by one working on the first. -/
def Spawns (name : Names) (n : Nat) (ep ep' : Prob) : Prop :=
  ∃ rs r, (RightRules (addUnification n) n ep rs ∨ ∃ i, LeftRules (addUnification n) n ep i rs) ∧ r ∈ rs ∧
    next (compareWith name) (addUnification n) ep r = .ok (some ep')

theorem spawns_gd {name : Names} {n : Nat} {ep ep' : Prob} (hg : GProb ar ep) (h : Spawns name (n + 3) ep ep') :
    Starts (compareWith name) ep' ep ∧ GProb ar ep' := by
  obtain ⟨rs, r, hrs, hm, hn⟩ := h
  have ha : AnyRule ep r := by
    rcases hrs with h | ⟨i, h⟩
    · exact Or.inl ((right_gd hg h r).1 hm)
    · exact ((left_gd hg h r).1 hm).any
  rcases next_gd (C38_precedence name) (gau n) hg ha with ⟨hd, e⟩ | ⟨_, e⟩
  · obtain rfl : ep' = stepG ep r := Option.some.inj (Res.ok.inj (hn.symm.trans e))
    exact ⟨⟨r, ha, hd, rfl⟩, stepG_gd hg ha⟩
  · exact absurd (hn.symm.trans e) (by simp)

/-- **C71.** On a ground problem no sequence of goroutines starting each other goes on for ever. -/
theorem C71_ends (name : Names) (n : Nat) (f : Nat → Prob) (h0 : GroundProblem ar (f 0)) : ∃ i, ¬ Spawns name (n + 3) (f i) (f (i + 1)) := by
  refine Classical.byContradiction fun hc => ?_
  have hs : ∀ i, Spawns name (n + 3) (f i) (f (i + 1)) := fun i => Classical.byContradiction fun h => hc ⟨i, h⟩
  have hg : ∀ i, GProb ar (f i) := by
    intro i
    induction i with
    | zero => exact h0.g
    | succ i ih => exact (spawns_gd ih (hs i)).2
  have key : ∀ ep, Acc (Starts (compareWith name)) ep → ∀ i, f i = ep → False := by
    intro ep hacc
    induction hacc with
    | intro ep _ ih =>
      rintro i rfl
      exact ih _ (spawns_gd (hg i) (hs i)).1 (i + 1) rfl
  exact key _ (starts_acc (C38_precedence name) h0.g) 0 rfl

/-- **C71.** Every ground problem gets an answer: no call panics, runs out of depth or waits for ever. -/
theorem C71_answers (name : Names) (n : Nat) {ep : Prob} (hg : GroundProblem ar ep) :
    ∃ ss, Launch (compareWith name) (addUnification (n + 3)) (n + 3) ep ss := by
  obtain ⟨b, ss, h⟩ := runs_total (C38_precedence name) n hg.g none
  exact ⟨ss, b, h⟩

/-- **C71.** The answer to a ground problem does not depend on which goroutine answers first, nor on the order of the answers of the index. -/
theorem C71_schedule (name : Names) (n n' : Nat) {ep : Prob} (hg : GroundProblem ar ep) {ss ss' : List Subst}
    (h : Launch (compareWith name) (addUnification (n + 3)) (n + 3) ep ss)
    (h' : Launch (compareWith name) (addUnification (n' + 3)) (n' + 3) ep ss') : (ss = [] ↔ ss' = []) ∧ ∀ σ ∈ ss, σ = [] := by
  have h1 := launch_ground (C38_precedence name) hg.g h
  have h2 := launch_ground (C38_precedence name) hg.g h'
  have := h1.1.trans h2.1.symm
  exact ⟨not_iff_not.1 this, h1.2⟩

/-- The equalities and the goals of a branch without metavariables. -/
def GroundGoals (ar : Nat → Nat) (E : List (UT × UT)) (gs : List (List (UT × UT))) : Prop :=
  (∀ e ∈ E, e.1.Gd ar ∧ e.2.Gd ar) ∧ ∀ g ∈ gs, ∀ e ∈ g, e.1.Gd ar ∧ e.2.Gd ar

theorem applyS_nil_prob {ep : Prob} (h : ep.c = {}) : ep.applyS [] = ep := by
  cases ep
  simp only at h
  subst h
  simp [Prob.applyS, applyS_nil]

theorem mergeAll_nil (au : AU) (n : Nat) {l : List Subst} (h : ∀ σ ∈ l, σ = []) : mergeAll au n [] l = .ok l := by
  induction l with
  | nil => rfl
  | cons τ l ih =>
    simp [mergeAll, sameKey, merge, ih fun σ hσ => h σ (by simp [hσ]), Res.bind]

theorem under_ground (hp : Linear pr) {n : Nat} {ep : Prob} (hg : GProb ar ep) {sl out : List Subst} (hs : ∀ σ ∈ sl, σ = [])
    (h : Under pr (addUnif false (n + 3)) (n + 3) ep sl out) : (∀ σ ∈ out, σ = []) ∧ (sl ≠ [] → (out ≠ [] ↔ Derives pr ep none)) := by
  induction h with
  | nil => exact ⟨by simp, fun h => absurd rfl h⟩
  | @cons σ l ss out rest h hm hr ih =>
    obtain rfl := hs σ (by simp)
    rw [applyS_nil_prob hg.c] at h
    obtain ⟨h1, h2⟩ := launch_ground hp hg h
    rw [mergeAll_nil _ _ h2] at hm
    obtain rfl := Res.ok.inj hm
    obtain ⟨i1, i2⟩ := ih fun σ hσ => hs σ (by simp [hσ])
    refine ⟨fun σ hσ => (List.mem_append.1 hσ).elim (h2 σ) (i1 σ), fun _ => ⟨fun hne => ?_, fun hd => ?_⟩⟩
    · by_cases e : ss = []
      · subst e
        by_cases e' : l = []
        · subst e'
          cases hr
          simp at hne
        · exact (i2 e').1 (by simpa using hne)
      · exact h1.1 e
    · have := h1.2 hd
      simp [this]

theorem under_total (hp : Linear pr) (n : Nat) {ep : Prob} (hg : GProb ar ep) {sl : List Subst} (hs : ∀ σ ∈ sl, σ = []) :
    ∃ out, Under pr (addUnif false (n + 3)) (n + 3) ep sl out := by
  induction sl with
  | nil => exact ⟨[], .nil⟩
  | cons σ l ih =>
    obtain rfl := hs σ (by simp)
    obtain ⟨rest, hr⟩ := ih fun σ hσ => hs σ (by simp [hσ])
    obtain ⟨b, ss, h⟩ := runs_total hp n hg none
    have h2 := (launch_ground hp hg ⟨b, h⟩).2
    exact ⟨_, .cons (by rw [applyS_nil_prob hg.c]; exact ⟨b, h⟩) (mergeAll_nil _ _ h2) hr⟩

theorem manage_ground (hp : Linear pr) {n : Nat} {ep : Prob} (hg : GProb ar ep) {sl out : List Subst} (hs : ∀ σ ∈ sl, σ = [])
    (h : Manage pr (addUnif false (n + 3)) (n + 3) ep sl out) : (∀ σ ∈ out, σ = []) ∧ (out ≠ [] ↔ Derives pr ep none) := by
  unfold Manage at h
  split at h
  · have := launch_ground hp hg h
    exact ⟨this.2, this.1⟩
  · rename_i e
    have := under_ground hp hg hs h
    exact ⟨this.1, this.2 (by simpa using e)⟩

theorem goalList_ground (hp : Linear pr) {n : Nat} {E : List (UT × UT)} (hE : ∀ e ∈ E, e.1.Gd ar ∧ e.2.Gd ar) {gs : List (UT × UT)}
    (hgs : ∀ e ∈ gs, e.1.Gd ar ∧ e.2.Gd ar) {sl : List Subst} (hs : ∀ σ ∈ sl, σ = []) {res : Option (List Subst)}
    (h : GoalList pr (addUnif false (n + 3)) (n + 3) E gs sl res) : (∀ ss, res = some ss → ∀ σ ∈ ss, σ = []) ∧
    (res.isSome = true ↔ ∀ e ∈ gs, Derives pr ⟨E, e.1, e.2, {}⟩ none) := by
  induction h with
  | done => exact ⟨fun ss e => by cases e; exact hs, by simp⟩
  | @step g gs sl out res h hne hr ih =>
    have hG : GProb ar ⟨E, g.1, g.2, {}⟩ := ⟨hE, (hgs g (by simp)).1, (hgs g (by simp)).2, rfl⟩
    obtain ⟨h1, h2⟩ := manage_ground hp hG hs h
    obtain ⟨i1, i2⟩ := ih (fun e he => hgs e (by simp [he])) h1
    refine ⟨i1, i2.trans ?_⟩
    simp [h2.1 hne]
  | @stuck g gs sl h =>
    have hG : GProb ar ⟨E, g.1, g.2, {}⟩ := ⟨hE, (hgs g (by simp)).1, (hgs g (by simp)).2, rfl⟩
    obtain ⟨_, h2⟩ := manage_ground hp hG hs h
    refine ⟨fun ss e => (by cases e), fun e => absurd e (by simp), fun e => ?_⟩
    exact absurd (h2.2 (e g (by simp))) (by simp)

theorem goalList_total (hp : Linear pr) (n : Nat) {E : List (UT × UT)} (hE : ∀ e ∈ E, e.1.Gd ar ∧ e.2.Gd ar) {gs : List (UT × UT)}
    (hgs : ∀ e ∈ gs, e.1.Gd ar ∧ e.2.Gd ar) {sl : List Subst} (hs : ∀ σ ∈ sl, σ = []) :
    ∃ res, GoalList pr (addUnif false (n + 3)) (n + 3) E gs sl res := by
  induction gs generalizing sl with
  | nil => exact ⟨_, .done⟩
  | cons g gs ih =>
    have hG : GProb ar ⟨E, g.1, g.2, {}⟩ := ⟨hE, (hgs g (by simp)).1, (hgs g (by simp)).2, rfl⟩
    have : ∃ out, Manage pr (addUnif false (n + 3)) (n + 3) ⟨E, g.1, g.2, {}⟩ sl out := by
      unfold Manage
      split
      · obtain ⟨b, ss, h⟩ := runs_total hp n hG none
        exact ⟨ss, b, h⟩
      · exact under_total hp n hG hs
    obtain ⟨out, h⟩ := this
    by_cases e : out = []
    · subst e
      exact ⟨_, .stuck h⟩
    · obtain ⟨res, hr⟩ := ih (fun e he => hgs e (by simp [he])) (manage_ground hp hG hs h).1
      exact ⟨res, .step h e hr⟩

/-- What `Solve` answers on a branch without metavariables. -/
theorem solve_ground (hp : Linear pr) {n : Nat} {E : List (UT × UT)} {gs : List (List (UT × UT))} (hg : GroundGoals ar E gs)
    {acc res : List Subst} {b : Bool} (ha : ∀ σ ∈ acc, σ = []) (h : Solve pr (addUnif false (n + 3)) (n + 3) E gs acc b res) :
    (∀ σ ∈ res, σ = []) ∧ (b = true ↔ ∃ g ∈ gs, ∀ e ∈ g, Derives pr ⟨E, e.1, e.2, {}⟩ none) := by
  induction h with
  | done => exact ⟨ha, by simp⟩
  | @yes g gs acc ss res b h hr ih =>
    obtain ⟨h1, h2⟩ := goalList_ground hp hg.1 (hg.2 g (by simp)) (by simp) h
    obtain ⟨i1, _⟩ := ih ⟨hg.1, fun g hg' => hg.2 g (by simp [hg'])⟩ fun σ hσ => (foldl_addSubst_mem hσ).elim (ha σ) (h1 ss rfl σ)
    exact ⟨i1, fun _ => ⟨g, by simp, h2.1 rfl⟩, fun _ => rfl⟩
  | @no g gs acc res b h hr ih =>
    obtain ⟨_, h2⟩ := goalList_ground hp hg.1 (hg.2 g (by simp)) (by simp) h
    obtain ⟨i1, i2⟩ := ih ⟨hg.1, fun g hg' => hg.2 g (by simp [hg'])⟩ ha
    refine ⟨i1, i2.trans ?_⟩
    have : ¬ ∀ e ∈ g, Derives pr ⟨E, e.1, e.2, {}⟩ none := fun h => by simpa using h2.2 h
    simp only [List.mem_cons, exists_eq_or_imp, this, false_or]

theorem solve_total (hp : Linear pr) (n : Nat) {E : List (UT × UT)} {gs : List (List (UT × UT))} (hg : GroundGoals ar E gs)
    (acc : List Subst) : ∃ b res, Solve pr (addUnif false (n + 3)) (n + 3) E gs acc b res := by
  induction gs generalizing acc with
  | nil => exact ⟨_, _, .done⟩
  | cons g gs ih =>
    obtain ⟨r, h⟩ := goalList_total hp n hg.1 (hg.2 g (by simp)) (sl := []) (by simp)
    have hg' : GroundGoals ar E gs := ⟨hg.1, fun g hg' => hg.2 g (by simp [hg'])⟩
    cases r with
    | none =>
      obtain ⟨b, res, hr⟩ := ih hg' acc
      exact ⟨b, res, .no h hr⟩
    | some ss =>
      obtain ⟨b, res, hr⟩ := ih hg' (ss.foldl addSubst acc)
      exact ⟨true, res, .yes h hr⟩

/-- **C71.** The same for all goals of a branch: `Solve` answers, the answer is the same in every run, and its only substitution is the empty
one. -/
theorem C71_solve (name : Names) (n : Nat) {E : List (UT × UT)} {gs : List (List (UT × UT))} (hg : GroundGoals ar E gs) :
    ∃ b, (∃ res, Solve (compareWith name) (addUnification (n + 3)) (n + 3) E gs [] b res) ∧
      ∀ n' b' res, Solve (compareWith name) (addUnification (n' + 3)) (n' + 3) E gs [] b' res → b' = b ∧ ∀ σ ∈ res, σ = [] := by
  obtain ⟨b, res, h⟩ := solve_total (C38_precedence name) n hg []
  refine ⟨b, ⟨res, h⟩, fun n' b' res' h' => ?_⟩
  have h1 := solve_ground (C38_precedence name) hg (by simp) h
  have h2 := solve_ground (C38_precedence name) hg (by simp) h'
  exact ⟨Bool.eq_iff_iff.2 (h2.2.trans h1.2.symm), h2.1⟩

end Verif.Equality.Bse
