import Verif.Equality.BseGround
import Verif.Equality.LPOWf
/-!
# Equality reasoning on ground problems: what a run answers

On a ground problem every schedule gives the same answer, described by `Derives`, and every goroutine ends.
-/

namespace Verif.Equality.Bse

open Verif.Unif Verif.Equality.LPO

variable {ar : Nat → Nat} {pr : Nat → Nat → Ordering}

/-- The answer to a ground problem: the sides are equal, or a decreasing rule leads to a problem with a positive answer. -/
inductive Derives (pr : Nat → Nat → Ordering) : Prob → Option Nat → Prop where
  | stop {ep : Prob} {last : Option Nat} (h : ep.s = ep.t) : Derives pr ep last
  | right {ep : Prob} {last : Option Nat} {r : Rule} (hr : IsRight ep r) (hd : Dec pr r) (h : Derives pr (stepG ep r) r.left) :
      Derives pr ep last
  | left {ep : Prob} {last : Option Nat} {r : Rule} (hr : IsLeft ep (last.getD 0) r) (hd : Dec pr r) (h : Derives pr (stepG ep r) r.left) :
      Derives pr ep last

def Job.Answer (ar : Nat → Nat) (pr : Nat → Nat → Ordering) : Job → Bool → Prop
  | .prob ep last, b => GProb ar ep → (b = true ↔ Derives pr ep last)
  | .rule ep r, b => GProb ar ep → AnyRule ep r → (b = true ↔ Dec pr r ∧ Derives pr (stepG ep r) r.left)

/-- The flag of the answer. -/
theorem runs_answer (hp : Linear pr) {n : Nat} {j : Job} {b : Bool} {ss : List Subst} (h : Runs pr (addUnif false (n + 3)) (n + 3) j b ss) :
    j.Answer ar pr b := by
  induction h with
  | stop h hu => exact fun _ => ⟨fun _ => .stop h, fun _ => rfl⟩
  | right h hu hr hm _ ih =>
    intro hg
    have hR := (right_gd hg hr _).1 hm
    have := (ih hg (Or.inl hR)).1 rfl
    exact ⟨fun _ => .right hR this.1 this.2, fun _ => rfl⟩
  | left h hu hr hf hl hm _ _ ih =>
    intro hg
    have hL := (left_gd hg hl _).1 hm
    have := (ih hg hL.any).1 rfl
    exact ⟨fun _ => .left hL this.1 this.2, fun _ => rfl⟩
  | none h hu hr hf hl hf' ih1 ih2 =>
    intro hg
    rw [check_gd (gau n) hg, if_neg fun e => h e.1] at hu
    obtain rfl : _ = _ := (Res.ok.inj hu).symm
    refine ⟨fun h => by simp at h, fun hd => ?_⟩
    exfalso
    cases hd with
    | stop e => exact h e
    | right hR hd hc =>
      have := (ih1 _ ((right_gd hg hr _).2 hR) hg (Or.inl hR)).2 ⟨hd, hc⟩
      simp at this
    | left hL hd hc =>
      have := (ih2 _ ((left_gd hg hl _).2 hL) hg hL.any).2 ⟨hd, hc⟩
      simp at this
  | refused h =>
    intro hg ha
    rcases next_gd hp (gau n) hg ha with ⟨_, e⟩ | ⟨hd, _⟩
    · rw [e] at h; simp at h
    · exact ⟨fun h => by simp at h, fun h => absurd h.1 hd⟩
  | applied h _ ih =>
    intro hg ha
    rcases next_gd hp (gau n) hg ha with ⟨hd, e⟩ | ⟨_, e⟩
    · rw [e] at h
      obtain rfl := Option.some.inj (Res.ok.inj h)
      rw [ih (stepG_gd hg ha)]
      exact ⟨fun h => ⟨hd, h⟩, fun h => h.2⟩
    · rw [e] at h; simp at h

theorem addSubst_mem {l : List Subst} {s x : Subst} (h : x ∈ addSubst l s) : x ∈ l ∨ x = s := by
  unfold addSubst at h
  split at h
  · exact Or.inl h
  · simpa using h

theorem addSubst_keep {l : List Subst} {s x : Subst} (h : x ∈ l) : x ∈ addSubst l s := by
  unfold addSubst
  split
  · exact h
  · simp [h]

theorem foldl_addSubst_mem {ss l : List Subst} {x : Subst} (h : x ∈ ss.foldl addSubst l) : x ∈ l ∨ x ∈ ss := by
  induction ss generalizing l with
  | nil => exact Or.inl h
  | cons s ss ih =>
    rcases ih h with h | h
    · rcases addSubst_mem h with h | h
      · exact Or.inl h
      · exact Or.inr (by simp [h])
    · exact Or.inr (by simp [h])

theorem foldl_addSubst_keep {ss l : List Subst} {x : Subst} (h : x ∈ l) : x ∈ ss.foldl addSubst l := by
  induction ss generalizing l with
  | nil => exact h
  | cons s ss ih => exact ih (addSubst_keep h)

theorem foldl_addSubst_ne {ss : List Subst} (h : ss ≠ []) (l : List Subst) : ss.foldl addSubst l ≠ [] := by
  cases ss with
  | nil => exact absurd rfl h
  | cons s ss =>
    have : ∃ x, x ∈ addSubst l s := by
      unfold addSubst
      split
      · rename_i h
        obtain ⟨x, hx, _⟩ := List.any_eq_true.1 h
        exact ⟨x, hx⟩
      · exact ⟨s, by simp⟩
    obtain ⟨x, hx⟩ := this
    exact List.ne_nil_of_mem (foldl_addSubst_keep (l := addSubst l s) hx)

/-- Only the empty substitution, at least once for a positive answer. -/
def Trivial (b : Bool) (ss : List Subst) : Prop := (∀ σ ∈ ss, σ = []) ∧ (b = true ↔ ss ≠ [])

def Job.Substs (ar : Nat → Nat) : Job → Bool → List Subst → Prop
  | .prob ep last, b, ss => GProb ar ep → (last ≠ none → ep.s ≠ ep.t) → Trivial b ss
  | .rule ep r, b, ss => GProb ar ep → AnyRule ep r → ep.s ≠ ep.t → Trivial b ss

/-- The substitutions of the answer. -/
theorem runs_substs (hp : Linear pr) {n : Nat} {j : Job} {b : Bool} {ss : List Subst} (h : Runs pr (addUnif false (n + 3)) (n + 3) j b ss) :
    j.Substs ar b ss := by
  have us_nil : ∀ {ep : Prob} {last : Option Nat} {us : List Subst}, ep.s ≠ ep.t → GProb ar ep →
      check pr (addUnif false (n + 3)) ep last = .ok us → us = [] := by
    intro ep last us h hg hu
    rw [check_gd (gau n) hg, if_neg fun e => h e.1] at hu
    exact (Res.ok.inj hu).symm
  have grow : ∀ {us ss : List Subst}, us = [] → Trivial true ss → Trivial true (us ++ ss.foldl addSubst []) := by
    rintro us ss rfl ⟨h1, h2⟩
    refine ⟨fun σ hσ => ?_, fun _ => ?_, fun _ => rfl⟩
    · rcases foldl_addSubst_mem (l := []) (by simpa using hσ) with h | h
      · cases h
      · exact h1 σ h
    · simpa using foldl_addSubst_ne (h2.1 rfl) []
  induction h with
  | stop h hu =>
    intro hg hl
    rename_i ep last us
    rw [check_gd (gau n) hg] at hu
    have : last = Option.none := Classical.byContradiction fun hn => hl hn h
    rw [if_pos ⟨h, this⟩] at hu
    obtain rfl := (Res.ok.inj hu)
    exact ⟨by simp, by simp⟩
  | right h hu hr hm _ ih =>
    intro hg _
    exact grow (us_nil h hg hu) (ih hg (Or.inl ((right_gd hg hr _).1 hm)) h)
  | left h hu hr hf hl hm _ _ ih =>
    intro hg _
    exact grow (us_nil h hg hu) (ih hg ((left_gd hg hl _).1 hm).any h)
  | none h hu hr hf hl hf' _ _ =>
    intro hg _
    obtain rfl := us_nil h hg hu
    exact ⟨by simp, by simp⟩
  | refused h => exact fun _ _ _ => ⟨by simp, by simp⟩
  | applied h _ ih =>
    intro hg ha hne
    rcases next_gd hp (gau n) hg ha with ⟨hd, e⟩ | ⟨_, e⟩
    · rw [e] at h
      obtain rfl := Option.some.inj (Res.ok.inj h)
      refine ih (stepG_gd hg ha) fun hl => ?_
      unfold stepG
      split
      · exact hne
      · rename_i e; exact absurd e hl
    · rw [e] at h; simp at h

/-- What `launchEqualityReasoningProblem` returns for a ground problem. -/
theorem launch_ground (hp : Linear pr) {n : Nat} {ep : Prob} (hg : GProb ar ep) {ss : List Subst}
    (h : Launch pr (addUnif false (n + 3)) (n + 3) ep ss) : (ss ≠ [] ↔ Derives pr ep none) ∧ ∀ σ ∈ ss, σ = [] := by
  obtain ⟨b, h⟩ := h
  have h1 := runs_answer (ar := ar) hp h hg
  obtain ⟨h2, h3⟩ := runs_substs (ar := ar) hp h hg (by simp)
  exact ⟨by rw [← h3, h1], h2⟩

/-! ### Termination -/

/-- What a rule does to the pair it modifies. -/
inductive PairStep (pr : Nat → Nat → Ordering) : UT × UT → UT × UT → Prop where
  | fst {x y x' : UT} (h : Gt pr x y) (h' : Gt pr x x') : PairStep pr (x', y) (x, y)
  | snd {x y y' : UT} (h : Gt pr y x) (h' : Gt pr y y') : PairStep pr (y, y') (x, y)

theorem gt_total (hp : Linear pr) {a b : UT} (ha : a.Gd ar) (hb : b.Gd ar) : Gt pr a b ∨ a = b ∨ Gt pr b a := by
  obtain ⟨o, _, h⟩ := ordered_of hp (gd_fixed ha).1 (gd_fixed hb).1 (gd_fixed ha).2 (gd_fixed hb).2
  rw [er_id, er_id] at h
  rcases h with ⟨_, h⟩ | ⟨_, h⟩ | ⟨_, h⟩
  · exact Or.inr (Or.inl h)
  · exact Or.inr (Or.inr h)
  · exact Or.inl h

/-- Ground terms over these symbols. -/
def Term (ar : Nat → Nat) (S : List Nat) (t : UT) : Prop := t.Gd ar ∧ Over S t

theorem pair_acc (hp : Linear pr) {S : List Nat} {z : UT} (hz : Acc (Below pr S) z) : ∀ x y : UT, Term ar S x → Term ar S y →
    (x = z ∨ Gt pr z x) → (y = z ∨ Gt pr z y) →
    Acc (fun q' q => PairStep pr q' q ∧ Term ar S q'.1 ∧ Term ar S q'.2) (x, y) := by
  induction hz with
  | intro z _ ih =>
    have hsmall : ∀ a b : UT, Term ar S a → Term ar S b → Gt pr z a → Gt pr z b →
        Acc (fun q' q => PairStep pr q' q ∧ Term ar S q'.1 ∧ Term ar S q'.2) (a, b) := by
      intro a b ha hb h1 h2
      rcases gt_total hp ha.1 hb.1 with h | h | h
      · exact ih a ⟨h1, ha.2⟩ a b ha hb (Or.inl rfl) (Or.inr h)
      · exact ih a ⟨h1, ha.2⟩ a b ha hb (Or.inl rfl) (Or.inl h.symm)
      · exact ih b ⟨h2, hb.2⟩ a b ha hb (Or.inr h) (Or.inl rfl)
    have htr : ∀ {a b : UT}, (a = z ∨ Gt pr z a) → Gt pr a b → Gt pr z b := by
      rintro a b (rfl | h) h'
      · exact h'
      · exact Gt.trans hp h h'
    intro x y hx hy hxz hyz
    refine Acc.intro _ ?_
    rintro ⟨x', y'⟩ ⟨hs, hx', hy'⟩
    cases hs with
    | fst h h' => exact hsmall _ _ hx' hy' (htr hxz h') (htr hxz h)
    | snd h h' =>
      refine Acc.intro _ ?_
      rintro ⟨x2, y2⟩ ⟨hs2, hx2, hy2⟩
      cases hs2 with
      | fst h2 h2' => exact hsmall _ _ hx2 hy2 (htr hyz h2') (htr hyz h2)
      | snd h2 h2' => exact (Gt.asymm hp h' h2).elim

/-- Lists of which one element decreases. -/
theorem list_acc {α : Type} {R : α → α → Prop} : ∀ l : List α, (∀ a ∈ l, Acc R a) →
    Acc (fun l' l => ∃ i a b, l[i]? = some a ∧ R b a ∧ l' = l.set i b) l := by
  intro l
  induction l with
  | nil =>
    intro _
    refine Acc.intro _ ?_
    rintro l' ⟨i, a, b, h, _⟩
    simp at h
  | cons a l ih =>
    intro h
    have ha := h a (by simp)
    have hl := ih fun b hb => h b (by simp [hb])
    clear ih h
    induction ha generalizing l with
    | intro a hin iha =>
      induction hl with
      | intro l hlin ihl =>
        refine Acc.intro _ ?_
        rintro l' ⟨i, c, b, h, hR, rfl⟩
        cases i with
        | zero =>
          simp only [List.length_cons, Nat.zero_lt_succ, List.getElem?_eq_getElem, List.getElem_cons_zero, Option.some.injEq] at h
          subst h
          exact iha b hR l (Acc.intro l hlin)
        | succ i =>
          simp only [List.getElem?_cons_succ] at h
          exact ihl _ ⟨i, c, b, h, hR, rfl⟩

/-- All pairs of a problem, the goal first. -/
def Prob.pairs (ep : Prob) : List (UT × UT) := (ep.s, ep.t) :: ep.E

theorem over_repl {S : List Nat} {o v t : UT} (hv : Over S v) (ht : Over S t) : Over S (repl o v t) := by
  induction ht with
  | @fn p l h ha ih =>
    simp only [repl]
    split
    · exact hv
    · refine .fn h fun a hm => ?_
      rcases replL_cases o v l with e | ⟨pre, b, post, e1, e2, _, _⟩
      · rw [e] at hm; exact ha a hm
      · rw [e2] at hm
        rcases List.mem_append.1 hm with hm | hm
        · exact ha a (by rw [e1]; simp [hm])
        · rcases List.mem_cons.1 hm with rfl | hm
          · exact ih b (by rw [e1]; simp)
          · exact ha a (by rw [e1]; simp [hm])

/-- A step from one goroutine to one it starts. -/
def Starts (pr : Nat → Nat → Ordering) (ep' ep : Prob) : Prop := ∃ r, AnyRule ep r ∧ Dec pr r ∧ ep' = stepG ep r

theorem step_pairs (hp : Linear pr) {S : List Nat} {ep : Prob} (hg : GProb ar ep) (hS : ∀ q ∈ ep.pairs, Over S q.1 ∧ Over S q.2) {r : Rule}
    (ha : AnyRule ep r) (hd : Dec pr r) : (∀ q ∈ (stepG ep r).pairs, Over S q.1 ∧ Over S q.2) ∧
    ∃ i a b, ep.pairs[i]? = some a ∧ (PairStep pr b a ∧ Term ar S b.1 ∧ Term ar S b.2) ∧ (stepG ep r).pairs = ep.pairs.set i b := by
  have hg' := stepG_gd hg ha
  obtain ⟨-, -, -, -, -, hsub, heq⟩ := ha.gd hg
  have hr : Over S r.r := by
    rcases heq with h | h
    · exact (hS _ (List.mem_cons_of_mem _ h)).2
    · exact (hS _ (List.mem_cons_of_mem _ h)).1
  have hgt := repl_gt hp hd.1 hsub
  have hov : Over S r.s → Over S (repl r.l r.r r.s) := fun h => over_repl hr h
  have main : ∃ i a b, ep.pairs[i]? = some a ∧ PairStep pr b a ∧ (Over S b.1 ∧ Over S b.2) ∧ (stepG ep r).pairs = ep.pairs.set i b := by
    rcases ha with (h | h) | ⟨i, e, _, he, h | h⟩
    · obtain ⟨h1, h2, h3, h4, -⟩ := h
      have hs := hS (ep.s, ep.t) (by simp [Prob.pairs])
      refine ⟨0, (ep.s, ep.t), (repl r.l r.r r.s, r.t), rfl, ?_, ⟨hov (h3 ▸ hs.1), h4 ▸ hs.2⟩, by simp [stepG, h1, h2, Prob.pairs]⟩
      rw [← h3, ← h4]
      exact .fst hd.2 hgt
    · obtain ⟨h1, h2, h3, h4, -⟩ := h
      have hs := hS (ep.s, ep.t) (by simp [Prob.pairs])
      refine ⟨0, (ep.s, ep.t), (r.s, repl r.l r.r r.s), rfl, ?_, ⟨h3 ▸ hs.2, hov (h3 ▸ hs.2)⟩, by simp [stepG, h1, h2, Prob.pairs]⟩
      rw [← h3, ← h4]
      exact .snd hd.2 hgt
    · obtain ⟨h1, h2, h3, h4, -⟩ := h
      have hs := hS e (List.mem_cons_of_mem _ (List.mem_of_getElem? he))
      refine ⟨i + 1, e, (repl r.l r.r r.s, r.t), by simpa [Prob.pairs] using he, ?_, ⟨hov (h3 ▸ hs.1), h4 ▸ hs.2⟩, by simp [stepG, h1, h2, Prob.pairs]⟩
      have : e = (r.s, r.t) := by rw [h3, h4]
      rw [this]
      exact .fst hd.2 hgt
    · obtain ⟨h1, h2, h3, h4, -⟩ := h
      have hs := hS e (List.mem_cons_of_mem _ (List.mem_of_getElem? he))
      refine ⟨i + 1, e, (r.s, repl r.l r.r r.s), by simpa [Prob.pairs] using he, ?_, ⟨h3 ▸ hs.2, hov (h3 ▸ hs.2)⟩, by simp [stepG, h1, h2, Prob.pairs]⟩
      have : e = (r.t, r.s) := by rw [h3, h4]
      rw [this]
      exact .snd hd.2 hgt
  obtain ⟨i, a, b, h1, h2, h3, h4⟩ := main
  have hmem : ∀ q ∈ (stepG ep r).pairs, Over S q.1 ∧ Over S q.2 := by
    intro q hq
    rw [h4] at hq
    rcases List.mem_or_eq_of_mem_set hq with hq | rfl
    · exact hS q hq
    · exact h3
  refine ⟨hmem, i, a, b, h1, ⟨h2, ?_⟩, h4⟩
  have hb : b ∈ (stepG ep r).pairs := by
    rw [h4]
    obtain ⟨hi, _⟩ := List.getElem?_eq_some_iff.1 h1
    exact List.mem_set hi b
  have hgd : ∀ q ∈ (stepG ep r).pairs, q.1.Gd ar ∧ q.2.Gd ar := by
    intro q hq
    rcases List.mem_cons.1 hq with rfl | hq
    · exact ⟨hg'.s, hg'.t⟩
    · exact hg'.E q hq
  exact ⟨⟨(hgd b hb).1, h3.1⟩, ⟨(hgd b hb).2, h3.2⟩⟩

/-- Ground problems start only finitely many goroutines in a row. -/
theorem starts_acc (hp : Linear pr) {ep : Prob} (hg : GProb ar ep) : Acc (Starts pr) ep := by
  have hS : ∃ S, ∀ q ∈ ep.pairs, Over S q.1 ∧ Over S q.2 := by
    have : ∃ S, ∀ a ∈ ep.pairs.flatMap (fun q => [q.1, q.2]), Over S a := by
      refine over_list fun a ha => exists_over a ?_
      obtain ⟨q, hq, ha⟩ := List.mem_flatMap.1 ha
      have : q.1.Gd ar ∧ q.2.Gd ar := by
        rcases List.mem_cons.1 hq with rfl | hq
        · exact ⟨hg.s, hg.t⟩
        · exact hg.E q hq
      simp only [List.mem_cons, List.not_mem_nil, or_false] at ha
      rcases ha with rfl | rfl
      · exact this.1.2
      · exact this.2.2
    obtain ⟨S, hS⟩ := this
    exact ⟨S, fun q hq => ⟨hS _ (List.mem_flatMap.2 ⟨q, hq, by simp⟩), hS _ (List.mem_flatMap.2 ⟨q, hq, by simp⟩)⟩⟩
  obtain ⟨S, hS⟩ := hS
  have hacc := list_acc (R := fun q' q => PairStep pr q' q ∧ Term ar S q'.1 ∧ Term ar S q'.2) ep.pairs fun q hq => by
    have hgd : q.1.Gd ar ∧ q.2.Gd ar := by
      rcases List.mem_cons.1 hq with rfl | hq
      · exact ⟨hg.s, hg.t⟩
      · exact hg.E q hq
    have t1 : Term ar S q.1 := ⟨hgd.1, (hS q hq).1⟩
    have t2 : Term ar S q.2 := ⟨hgd.2, (hS q hq).2⟩
    rcases gt_total hp hgd.1 hgd.2 with h | h | h
    · exact pair_acc hp (below_acc hp t1.2) q.1 q.2 t1 t2 (Or.inl rfl) (Or.inr h)
    · exact pair_acc hp (below_acc hp t1.2) q.1 q.2 t1 t2 (Or.inl rfl) (Or.inl h.symm)
    · exact pair_acc hp (below_acc hp t2.2) q.1 q.2 t1 t2 (Or.inr h) (Or.inl rfl)
  generalize hl : ep.pairs = l at hacc
  induction hacc generalizing ep with
  | intro l _ ih =>
    refine Acc.intro _ ?_
    rintro ep' ⟨r, ha, hd, rfl⟩
    obtain ⟨h1, h2⟩ := step_pairs hp hg hS ha hd
    exact ih _ (hl ▸ h2) (stepG_gd hg ha) h1 rfl

/-- A ground problem gets an answer. -/
theorem runs_total (hp : Linear pr) (n : Nat) {ep : Prob} (hg : GProb ar ep) (last : Option Nat) :
    ∃ b ss, Runs pr (addUnif false (n + 3)) (n + 3) (.prob ep last) b ss := by
  have hacc := starts_acc hp hg
  induction hacc generalizing last with
  | intro ep _ ih =>
    have hrule : ∀ r, AnyRule ep r → ∃ b ss, Runs pr (addUnif false (n + 3)) (n + 3) (.rule ep r) b ss := by
      intro r ha
      rcases next_gd hp (gau n) hg ha with ⟨hd, e⟩ | ⟨_, e⟩
      · obtain ⟨b, ss, h⟩ := ih _ ⟨r, ha, hd, rfl⟩ (stepG_gd hg ha) r.left
        exact ⟨b, ss, .applied e h⟩
      · exact ⟨false, [], .refused e⟩
    have hu := check_gd (pr := pr) (gau n) hg last
    by_cases e : ep.s = ep.t
    · exact ⟨true, _, .stop e hu⟩
    · obtain ⟨rs, hr⟩ := right_total (n := n + 2) (au := addUnif false (n + 3)) hg
      obtain ⟨ls, hl⟩ := left_total (n := n + 2) (au := addUnif false (n + 3)) hg (last.getD 0)
      have h1 : ∀ r ∈ rs, ∃ b ss, Runs pr (addUnif false (n + 3)) (n + 3) (.rule ep r) b ss :=
        fun r h => hrule r (Or.inl ((right_gd hg hr r).1 h))
      have h2 : ∀ r ∈ ls, ∃ b ss, Runs pr (addUnif false (n + 3)) (n + 3) (.rule ep r) b ss :=
        fun r h => hrule r ((left_gd hg hl r).1 h).any
      by_cases c1 : ∃ r ∈ rs, ∃ ss, Runs pr (addUnif false (n + 3)) (n + 3) (.rule ep r) true ss
      · obtain ⟨r, hm, ss, h⟩ := c1
        exact ⟨true, _, .right e hu hr hm h⟩
      · have f1 : ∀ r, ∃ ss, r ∈ rs → Runs pr (addUnif false (n + 3)) (n + 3) (.rule ep r) false ss := by
          intro r
          by_cases hm : r ∈ rs
          · obtain ⟨b, ss, h⟩ := h1 r hm
            cases b with
            | false => exact ⟨ss, fun _ => h⟩
            | true => exact absurd ⟨r, hm, ss, h⟩ c1
          · exact ⟨[], fun h => absurd h hm⟩
        by_cases c2 : ∃ r ∈ ls, ∃ ss, Runs pr (addUnif false (n + 3)) (n + 3) (.rule ep r) true ss
        · obtain ⟨r, hm, ss, h⟩ := c2
          exact ⟨true, _, .left (f := fun r => (f1 r).choose) e hu hr (fun r hr => (f1 r).choose_spec hr) hl hm h⟩
        · have f2 : ∀ r, ∃ ss, r ∈ ls → Runs pr (addUnif false (n + 3)) (n + 3) (.rule ep r) false ss := by
            intro r
            by_cases hm : r ∈ ls
            · obtain ⟨b, ss, h⟩ := h2 r hm
              cases b with
              | false => exact ⟨ss, fun _ => h⟩
              | true => exact absurd ⟨r, hm, ss, h⟩ c2
            · exact ⟨[], fun h => absurd h hm⟩
          exact ⟨_, _, .none (f := fun r => (f1 r).choose) (g := fun r => (f2 r).choose) e hu hr (fun r hr => (f1 r).choose_spec hr)
            hl (fun r hr => (f2 r).choose_spec hr)⟩

end Verif.Equality.Bse
