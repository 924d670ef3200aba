import Verif.Equality.Bse
import Verif.Equality.Congruence
/-!
# Equality reasoning on ground problems: what a step does

Lemmas on problems without metavariables: unification is equality, every pair of terms is comparable, so that the constraints stay
empty and a rule is accepted exactly when it decreases both the term it rewrites with and the side it is applied to.
-/

namespace Verif.Equality.Bse

open Verif.Unif Verif.Equality.LPO

variable {ar : Nat → Nat} {pr : Nat → Nat → Ordering} {au : AU}

/-! ### Unification of ground terms -/

/-- On ground terms unification is equality. -/
def GAU (ar : Nat → Nat) (au : AU) : Prop := ∀ a b : UT, a.Gd ar → b.Gd ar → au a b [] = if a = b then .ok [] else .fail

theorem gau (n : Nat) : GAU ar (addUnif false (n + 3)) := by
  intro a b ha hb
  by_cases e : a = b
  · subst e
    rw [if_pos rfl]
    obtain ⟨r, h1, h2⟩ := addUnif_through (ar := ar) (σ := UT.mv) false n (s := []) Agree.nil (Or.inl ⟨(UT.inst_mv a).symm, ha⟩)
    rw [h1]
    cases r with
    | nil => rfl
    | cons p r =>
      have h3 := h2.2 p (by simp)
      have h4 := h2.1.2 p (by simp)
      rw [h3] at h4
      simp [UT.Gd, UT.occ] at h4
  · rw [if_neg e]
    obtain ⟨p, l, rfl⟩ := ha.isFn
    obtain ⟨q, m, rfl⟩ := hb.isFn
    have key : tryUnif false (addUnif false (n + 2)) (n + 2) (.fn p l) (.fn q m) [] = .fail ∨
        tryUnif false (addUnif false (n + 2)) (n + 2) (.fn p l) (.fn q m) [] = .ok [] := by
      simp only [tryUnif, parseTerm, parseL, List.append_nil]
      rcases runs (au := addUnif false (n + 2)) (.fn p l) ha (.fn q m) [] { terms := [.fn q m] } [] [] hb ⟨rfl, rfl, rfl, rfl, rfl⟩ with
        h | ⟨m', h, _, h1, h2⟩
      · exact Or.inl (by rw [show exec (addUnif false (n + 2)) (parseT 0 [] (![].isEmpty) (.fn p l)) { terms := [.fn q m] } = .fail from h]; rfl)
      · refine Or.inr ?_
        rw [show exec (addUnif false (n + 2)) (parseT 0 [] (![].isEmpty) (.fn p l)) { terms := [.fn q m] } = .ok m' from h]
        simp only [Res.bind, h1, h2]
        exact compute_nil (n + 1) _
    have e2 : addUnif false (n + 3) (.fn p l) (.fn q m) [] =
      (tryUnif false (addUnif false (n + 2)) (n + 2) (.fn p l) (.fn q m) []).bind (elimBoth (n + 2)) := rfl
    rcases key with h | h
    · rw [e2, h]; rfl
    · exfalso
      have h3 : addUnif false (n + 3) (.fn p l) (.fn q m) [] = .ok [] := by
        rw [e2, h]
        exact elimBoth_ground (ar := ar) (n + 1) Subst.Gd.nil
      exact e (strict_diff (ar := ar) (n + 3) _ _ _ _ ha hb Subst.Gd.nil (ground_agree (ar := ar) (n + 3) _ _ _ _ (Or.inl ha) Subst.Gd.nil h3).1)

/-! ### Terms -/

/-- Spec: subterms, the term itself included. -/
inductive SubT (u : UT) : UT → Prop where
  | refl : SubT u u
  | arg {a : UT} {p : Nat} {l : List UT} (ha : a ∈ l) (h : SubT u a) : SubT u (.fn p l)

theorem mem_addNew {l : List UT} {t u : UT} : u ∈ addNew l t ↔ u ∈ l ∨ u = t := by
  unfold addNew
  split
  · rename_i h
    exact ⟨Or.inl, fun h' => h'.elim id fun e => e ▸ h⟩
  · simp

theorem mem_foldl_addNew {m l : List UT} {u : UT} : u ∈ m.foldl addNew l ↔ u ∈ l ∨ u ∈ m := by
  induction m generalizing l with
  | nil => simp
  | cons a m ih => simp only [List.foldl_cons, ih, mem_addNew, List.mem_cons, or_assoc]

theorem mem_subsL {l acc : List UT} {u : UT} : u ∈ subsL acc l ↔ u ∈ acc ∨ ∃ a ∈ l, u ∈ subs a := by
  induction l generalizing acc with
  | nil => simp [subsL]
  | cons a l ih => simp only [subsL, ih, mem_foldl_addNew, List.mem_cons, exists_eq_or_imp, or_assoc]

theorem mem_subs {t u : UT} : u ∈ subs t ↔ SubT u t := by
  induction t using UT.ind with
  | mv x =>
    simp only [subs, List.mem_singleton]
    exact ⟨fun h => h ▸ .refl, fun h => by cases h; rfl⟩
  | fn p l ih =>
    simp only [subs, mem_subsL, List.mem_singleton]
    constructor
    · rintro (rfl | ⟨a, ha, h⟩)
      · exact .refl
      · exact .arg ha ((ih a ha).1 h)
    · intro h
      cases h with
      | refl => exact Or.inl rfl
      | arg ha h => exact Or.inr ⟨_, ha, (ih _ ha).2 h⟩

theorem SubT.gd {u t : UT} (h : SubT u t) (ht : t.Gd ar) : u.Gd ar := by
  induction h with
  | refl => exact ht
  | arg ha _ ih => exact ih (ht.args _ ha)

theorem SubT.trans {u v t : UT} (h1 : SubT u v) (h2 : SubT v t) : SubT u t := by
  induction h2 with
  | refl => exact h1
  | arg ha _ ih => exact .arg ha ih

theorem gd_fn {p : Nat} {l : List UT} : (UT.fn p l).Gd ar ↔ l.length = ar p ∧ ∀ a ∈ l, a.Gd ar := by
  constructor
  · intro h
    exact ⟨h.1.1, h.args⟩
  · rintro ⟨h1, h2⟩
    refine ⟨⟨h1, UT.ArL_iff.2 fun a ha => (h2 a ha).1⟩, ?_⟩
    show UT.occL l = []
    apply List.eq_nil_iff_forall_not_mem.2
    intro i hi
    obtain ⟨a, ha, hi⟩ := UT.mem_occL.1 hi
    rw [(h2 a ha).2] at hi
    cases hi

theorem replL_length (o v : UT) : ∀ l, (replL o v l).length = l.length
  | [] => rfl
  | a :: l => by
    simp only [replL]
    split
    · rfl
    · simp [replL_length o v l]

/-- What replacement does to a list of arguments: nothing, or one argument changes. -/
theorem replL_cases (o v : UT) : ∀ l, replL o v l = l ∨
    ∃ pre a post, l = pre ++ a :: post ∧ replL o v l = pre ++ repl o v a :: post ∧ repl o v a ≠ a ∧ ∀ b ∈ pre, repl o v b = b
  | [] => Or.inl rfl
  | a :: l => by
    simp only [replL]
    split
    · rename_i h
      exact Or.inr ⟨[], a, l, rfl, rfl, h, by simp⟩
    · rename_i h
      rcases replL_cases o v l with e | ⟨pre, b, post, e1, e2, e3, e4⟩
      · exact Or.inl (by rw [e])
      · refine Or.inr ⟨a :: pre, b, post, by rw [e1]; rfl, by rw [e2]; rfl, e3, ?_⟩
        intro c hc
        rcases List.mem_cons.1 hc with rfl | hc
        · exact Classical.not_not.1 h
        · exact e4 c hc

theorem repl_gd {o v t : UT} (hv : v.Gd ar) (ht : t.Gd ar) : (repl o v t).Gd ar := by
  induction t using UT.ind with
  | mv x => simp [UT.Gd, UT.occ] at ht
  | fn p l ih =>
    simp only [repl]
    split
    · exact hv
    · rw [gd_fn] at ht ⊢
      refine ⟨by rw [replL_length]; exact ht.1, fun a ha => ?_⟩
      rcases replL_cases o v l with e | ⟨pre, b, post, e1, e2, _, _⟩
      · rw [e] at ha; exact ht.2 a ha
      · rw [e2] at ha
        rcases List.mem_append.1 ha with ha | ha
        · exact ht.2 a (by rw [e1]; simp [ha])
        · rcases List.mem_cons.1 ha with rfl | ha
          · exact ih b (by rw [e1]; simp) (ht.2 b (by rw [e1]; simp))
          · exact ht.2 a (by rw [e1]; simp [ha])

theorem repl_eval {D : Type u} {A : Alg D} {σ : Nat → D} {o v : UT} (h : o.eval A σ = v.eval A σ) (t : UT) :
    (repl o v t).eval A σ = t.eval A σ := by
  induction t using UT.ind with
  | mv x =>
    simp only [repl]
    split
    · rename_i e; rw [e, h]
    · rfl
  | fn p l ih =>
    simp only [repl]
    split
    · rename_i e; rw [e, h]
    · simp only [UT.eval]
      congr 1
      rcases replL_cases o v l with e | ⟨pre, b, post, e1, e2, _, _⟩
      · rw [e]
      · rw [e2]
        have hb := ih b (by rw [e1]; simp)
        conv => rhs; rw [e1]
        simp only [UT.evalL_eq, List.map_append, List.map_cons, hb]

theorem repl_self {o v : UT} : repl o v o = v := by
  cases o <;> simp [repl]

theorem replL_fix {o v : UT} {l : List UT} (h : replL o v l = l) : ∀ a ∈ l, repl o v a = a := by
  induction l with
  | nil => simp
  | cons c l ih =>
    simp only [replL] at h
    split at h
    · rename_i hc; exact absurd (List.cons.inj h).1 hc
    · rename_i hc
      intro a ha
      rcases List.mem_cons.1 ha with rfl | ha
      · exact Classical.not_not.1 hc
      · exact ih (List.cons.inj h).2 a ha

theorem repl_ne {o v t : UT} (hne : v ≠ o) (h : SubT o t) : repl o v t ≠ t := by
  induction h with
  | refl => rw [repl_self]; exact hne
  | arg ha _ ih =>
    simp only [repl]
    split
    · rename_i e; rw [e]; exact hne
    · intro e
      exact ih (replL_fix (UT.fn.inj e).2 _ ha)

theorem repl_cases {o v : UT} (h : Gt pr o v) (t : UT) : repl o v t = t ∨ Gt pr t (repl o v t) := by
  induction t using UT.ind with
  | mv x =>
    simp only [repl]
    split
    · rename_i e; rw [e]; exact Or.inr h
    · exact Or.inl rfl
  | fn p l ih =>
    simp only [repl]
    split
    · rename_i e; rw [e]; exact Or.inr h
    · rcases replL_cases o v l with e | ⟨pre, b, post, e1, e2, e3, _⟩
      · exact Or.inl (by rw [e])
      · rw [e2]
        refine Or.inr ?_
        have := (ih b (by rw [e1]; simp)).resolve_left e3
        rw [e1]
        exact Gt.mono this p pre post

/-- Replacing an occurring term by a smaller one makes the term smaller. -/
theorem repl_gt (hp : Linear pr) {o v t : UT} (h : Gt pr o v) (hs : SubT o t) : Gt pr t (repl o v t) :=
  (repl_cases h t).resolve_left (repl_ne (fun e => Gt.irrefl hp o (by rw [e] at h; exact h)) hs)

/-! ### Constraints -/

theorem gd_fixed {t : UT} (h : t.Gd ar) : Fixed ar id t ∧ Ground t := ⟨h.1, h.2⟩

theorem code_id : LPO.code pr id = pr := rfl

/-- Ground terms are comparable, and the answer is the ordering. -/
theorem checkLPO_gd (hp : Linear pr) {a b : UT} (ha : a.Gd ar) (hb : b.Gd ar) :
    ∃ ok, checkLPO pr (.prec a b) = .ok ((ok, true), .prec a b) ∧ (ok = true ↔ Gt pr b a) := by
  obtain ⟨o, ⟨r, h1, h2, h3⟩, h4⟩ := ordered_of hp (gd_fixed ha).1 (gd_fixed hb).1 (gd_fixed ha).2 (gd_fixed hb).2
  rw [code_id] at h1
  refine ⟨decide (r.order > 0), by simp [checkLPO, h1, Res.bind, h2], ?_⟩
  rw [decide_eq_true_eq, h3]
  rw [er_id, er_id] at h4
  rcases h4 with ⟨rfl, h⟩ | ⟨rfl, h⟩ | ⟨rfl, h⟩
  · subst h; exact ⟨fun h => by omega, fun h => absurd h (Gt.irrefl hp _)⟩
  · exact ⟨fun _ => h, fun _ => by decide⟩
  · exact ⟨fun h => by omega, fun h' => (Gt.asymm hp h h').elim⟩

theorem applyS_nil (t : UT) : applyS [] t = t := rfl

theorem appendIf_prec (hp : Linear pr) {a b : UT} (ha : a.Gd ar) (hb : b.Gd ar) :
    (Gt pr b a ∧ appendIf pr au {} (.prec a b) = .ok (some {})) ∨ (¬ Gt pr b a ∧ appendIf pr au {} (.prec a b) = .ok none) := by
  obtain ⟨ok, h1, h2⟩ := checkLPO_gd hp ha hb
  have : appendIf pr au {} (.prec a b) = .ok (if ok then some {} else none) := by
    simp [appendIf, consistentWith, applyC, applyS_nil, h1, Res.bind]
  rw [this]
  cases ok
  · exact Or.inr ⟨fun h => by simp [h] at h2, rfl⟩
  · exact Or.inl ⟨h2.1 rfl, rfl⟩

theorem appendIf_eq (hg : GAU ar au) {a : UT} (ha : a.Gd ar) : appendIf pr au {} (.eq a a) = .ok (some {}) := by
  simp [appendIf, consistentWith, hg a a ha ha]

/-- The constraints of a rule on a ground problem: consistent exactly when both sides decrease; nothing is recorded. -/
theorem applyEQ_gd (hp : Linear pr) (hg : GAU ar au) {r : Rule} (hl : r.l.Gd ar) (hr : r.r.Gd ar) (hs : r.s.Gd ar) (ht : r.t.Gd ar)
    (he : r.l' = r.l) : ((Gt pr r.l r.r ∧ Gt pr r.s r.t) ∧ applyEQ pr au r {} = .ok (some {})) ∨
      (¬ (Gt pr r.l r.r ∧ Gt pr r.s r.t) ∧ applyEQ pr au r {} = .ok none) := by
  rcases appendIf_prec (au := au) hp hr hl with ⟨h1, e1⟩ | ⟨h1, e1⟩
  · rcases appendIf_prec (au := au) hp ht hs with ⟨h2, e2⟩ | ⟨h2, e2⟩
    · refine Or.inl ⟨⟨h1, h2⟩, ?_⟩
      simp only [applyEQ, e1, e2, Res.bind, he, appendIf_eq hg hl]
    · exact Or.inr ⟨fun h => h2 h.2, by simp only [applyEQ, e1, e2, Res.bind]⟩
  · exact Or.inr ⟨fun h => h1 h.1, by simp only [applyEQ, e1, Res.bind]⟩

/-! ### Rules -/

/-- Ground problems, as they are built: without constraints. -/
structure GProb (ar : Nat → Nat) (ep : Prob) : Prop where
  E : ∀ e ∈ ep.E, e.1.Gd ar ∧ e.2.Gd ar
  s : ep.s.Gd ar
  t : ep.t.Gd ar
  c : ep.c = {}

/-- Spec: `l = r` or `r = l` is one of the equalities. -/
def Eqn (E : List (UT × UT)) (l r : UT) : Prop := (l, r) ∈ E ∨ (r, l) ∈ E

theorem mem_eMap {E : List (UT × UT)} {l r : UT} : r ∈ eMap E l ↔ Eqn E l r := by
  have key : ∀ e : UT × UT, (r ∈ if e.1 = e.2 then (if e.1 = l then [e.1] else [])
      else (if e.1 = l then [e.2] else []) ++ (if e.2 = l then [e.1] else [])) ↔ e = (l, r) ∨ e = (r, l) := by
    rintro ⟨a, b⟩
    simp only [Prod.mk.injEq]
    by_cases h1 : a = b
    · subst h1
      by_cases h2 : a = l
      · subst h2; simp [eq_comm]
      · simp [h2]
    · rw [if_neg h1]
      by_cases h2 : a = l
      · subst h2
        have : ¬ b = a := fun h => h1 h.symm
        simp [this, eq_comm]
      · by_cases h3 : b = l
        · subst h3; simp [h1, eq_comm]
        · simp [h2, h3]
  simp only [eMap, List.mem_flatMap, Eqn, key]
  constructor
  · rintro ⟨e, he, rfl | rfl⟩
    · exact Or.inl he
    · exact Or.inr he
  · rintro (h | h)
    · exact ⟨_, h, Or.inl rfl⟩
    · exact ⟨_, h, Or.inr rfl⟩

theorem Eqn.side {E : List (UT × UT)} {l r : UT} (h : Eqn E l r) : IsSide E l :=
  h.elim (fun h => ⟨_, h, Or.inl rfl⟩) fun h => ⟨_, h, Or.inr rfl⟩

theorem Eqn.gd {E : List (UT × UT)} (hE : ∀ e ∈ E, e.1.Gd ar ∧ e.2.Gd ar) {l r : UT} (h : Eqn E l r) : l.Gd ar ∧ r.Gd ar :=
  h.elim (fun h => hE _ h) fun h => (hE _ h).symm

/-- The rules for one side: every subterm that is a side of an equality, with the other side. -/
def IsRule (E : List (UT × UT)) (s t : UT) (left : Option Nat) (sMod : Bool) (r : Rule) : Prop :=
  r.left = left ∧ r.sMod = sMod ∧ r.s = s ∧ r.t = t ∧ r.l' = r.l ∧ SubT r.l s ∧ Eqn E r.l r.r ∧ (sameEq s t r.l r.r = false ∨ left = none)

theorem pairs_gd {n : Nat} {E : List (UT × UT)} (hE : ∀ e ∈ E, e.1.Gd ar ∧ e.2.Gd ar) {T : Node Instr UT} (hT : tree E = some T)
    {l : List UT} (hl : ∀ q ∈ l, q.Gd ar) {ps : List (UT × UT)} (h : Pairs (addUnif false (n + 1)) (n + 1) T l ps) (q : UT × UT) :
    q ∈ ps ↔ q.1 = q.2 ∧ q.1 ∈ l ∧ IsSide E q.1 := by
  induction h with
  | nil => simp
  | mv h ih => exact absurd (hl _ (List.mem_cons_self ..)) (by simp [UT.Gd, UT.occ])
  | fn hf h ih =>
    rename_i p args l out ps
    rw [List.mem_append, ih fun q hq => hl q (by simp [hq]), List.mem_map]
    have hfd := finds_gd hE hT (hl (.fn p args) (by simp)) hf
    constructor
    · rintro (⟨u, hu, rfl⟩ | ⟨h1, h2, h3⟩)
      · obtain ⟨rfl, hs⟩ := (hfd u).1 hu
        exact ⟨rfl, by simp, hs⟩
      · exact ⟨h1, by simp [h2], h3⟩
    · rintro ⟨h1, h2, h3⟩
      rcases List.mem_cons.1 h2 with e | h2
      · refine Or.inl ⟨.fn p args, (hfd _).2 ⟨rfl, e ▸ h3⟩, ?_⟩
        rw [← e]
        exact Prod.ext rfl h1
      · exact Or.inr ⟨h1, h2, h3⟩

theorem rulesFor_gd {n : Nat} {ep : Prob} (hE : ∀ e ∈ ep.E, e.1.Gd ar ∧ e.2.Gd ar) {s t : UT} (hs : s.Gd ar)
    {left : Option Nat} {sMod : Bool} {rs : List Rule} (h : RulesFor (addUnif false (n + 1)) (n + 1) ep s t left sMod rs) (r : Rule) :
    r ∈ rs ↔ IsRule ep.E s t left sMod r := by
  obtain ⟨T, ps, hT, hp, rfl⟩ := h
  have hps := pairs_gd hE hT (fun q hq => (mem_subs.1 hq).gd hs) hp
  simp only [connect, List.mem_flatMap, List.mem_map, List.mem_filter, mem_eMap, Bool.or_eq_true, Bool.not_eq_true',
    Option.isNone_iff_eq_none]
  constructor
  · rintro ⟨⟨l', l⟩, hq, v, ⟨hv, hc⟩, rfl⟩
    obtain ⟨h1, h2, -⟩ := (hps _).1 hq
    dsimp only at h1 h2 hv hc
    subst h1
    exact ⟨rfl, rfl, rfl, rfl, rfl, mem_subs.1 h2, hv, hc⟩
  · rintro ⟨h1, h2, h3, h4, h5, h6, h7, h8⟩
    refine ⟨(r.l', r.l), (hps _).2 ⟨h5, by rw [h5]; exact mem_subs.2 h6, by rw [h5]; exact h7.side⟩, r.r, ⟨h7, h8⟩, ?_⟩
    rw [← h1, ← h2, ← h3, ← h4]

theorem pairs_total {n : Nat} {E : List (UT × UT)} (hE : ∀ e ∈ E, e.1.Gd ar ∧ e.2.Gd ar) {T : Node Instr UT} (hT : tree E = some T)
    {l : List UT} (hl : ∀ q ∈ l, q.Gd ar) : ∃ ps, Pairs au (n + 1) T l ps := by
  induction l with
  | nil => exact ⟨[], .nil⟩
  | cons a l ih =>
    obtain ⟨ps, h⟩ := ih fun q hq => hl q (by simp [hq])
    obtain ⟨p, args, rfl⟩ := (hl a (by simp)).isFn
    obtain ⟨out, ho⟩ := finds_gd_total (n := n) (au := au) hE hT (hl (.fn p args) (by simp))
    exact ⟨_, .fn ho h⟩

theorem rulesFor_total {n : Nat} {ep : Prob} (hE : ∀ e ∈ ep.E, e.1.Gd ar ∧ e.2.Gd ar) {s t : UT} (hs : s.Gd ar)
    {left : Option Nat} {sMod : Bool} : ∃ rs, RulesFor au (n + 1) ep s t left sMod rs := by
  obtain ⟨T, hT, -, -⟩ := tree_built ep.E
  obtain ⟨ps, hp⟩ := pairs_total (n := n) (au := au) hE hT fun q hq => (mem_subs.1 hq).gd hs
  exact ⟨_, T, ps, hT, hp, rfl⟩

/-- The right rules of a ground problem. -/
def IsRight (ep : Prob) (r : Rule) : Prop := IsRule ep.E ep.s ep.t none true r ∨ IsRule ep.E ep.t ep.s none false r

/-- The left rules of a ground problem, from an equality on. -/
def IsLeft (ep : Prob) (begin : Nat) (r : Rule) : Prop := ∃ i e, begin ≤ i ∧ ep.E[i]? = some e ∧
  (IsRule ep.E e.1 e.2 (some i) true r ∨ IsRule ep.E e.2 e.1 (some i) false r)

theorem right_gd {n : Nat} {ep : Prob} (hg : GProb ar ep) {rs : List Rule} (h : RightRules (addUnif false (n + 1)) (n + 1) ep rs) (r : Rule) :
    r ∈ rs ↔ IsRight ep r := by
  obtain ⟨a, b, ha, hb, rfl⟩ := h
  rw [List.mem_append, rulesFor_gd hg.E hg.s ha, rulesFor_gd hg.E hg.t hb, IsRight]

theorem leftLoop_gd {n : Nat} {ep : Prob} (hg : GProb ar ep) {i : Nat} {es : List (UT × UT)} {rs : List Rule}
    (h : LeftLoop (addUnif false (n + 1)) (n + 1) ep i es rs) (hes : es = ep.E.drop i) (r : Rule) : r ∈ rs ↔ IsLeft ep i r := by
  induction h with
  | nil =>
    rename_i i
    have : ep.E.length ≤ i := List.drop_eq_nil_iff.1 hes.symm
    refine ⟨fun h => absurd h (by simp), ?_⟩
    rintro ⟨j, e, hj, he, -⟩
    have := (List.getElem?_eq_some_iff.1 he).1
    omega
  | cons ha hb h ih =>
    rename_i i e es a b rs
    have hi : i < ep.E.length := by
      rcases Nat.lt_or_ge i ep.E.length with h | h
      · exact h
      · rw [List.drop_eq_nil_iff.2 h] at hes; cases hes
    rw [List.drop_eq_getElem_cons hi] at hes
    obtain ⟨he, hes⟩ := List.cons.inj hes
    have hm : e ∈ ep.E := he ▸ List.getElem_mem hi
    rw [List.mem_append, List.mem_append, rulesFor_gd hg.E (hg.E e hm).1 ha, rulesFor_gd hg.E (hg.E e hm).2 hb, ih hes]
    constructor
    · rintro (h | ⟨j, e', hj, h⟩)
      · exact ⟨i, e, Nat.le_refl _, by rw [he]; exact List.getElem?_eq_getElem hi, h⟩
      · exact ⟨j, e', by omega, h⟩
    · rintro ⟨j, e', hj, he', h⟩
      by_cases hji : j = i
      · subst hji
        rw [List.getElem?_eq_getElem hi, ← he] at he'
        cases he'
        exact Or.inl h
      · exact Or.inr ⟨j, e', by omega, he', h⟩

theorem left_gd {n : Nat} {ep : Prob} (hg : GProb ar ep) {i : Nat} {rs : List Rule}
    (h : LeftRules (addUnif false (n + 1)) (n + 1) ep i rs) (r : Rule) : r ∈ rs ↔ IsLeft ep i r :=
  leftLoop_gd hg h rfl r

theorem right_total {n : Nat} {ep : Prob} (hg : GProb ar ep) : ∃ rs, RightRules au (n + 1) ep rs := by
  obtain ⟨a, ha⟩ := rulesFor_total (n := n) (au := au) (t := ep.t) (left := none) (sMod := true) hg.E hg.s
  obtain ⟨b, hb⟩ := rulesFor_total (n := n) (au := au) (t := ep.s) (left := none) (sMod := false) hg.E hg.t
  exact ⟨_, a, b, ha, hb, rfl⟩

theorem left_total {n : Nat} {ep : Prob} (hg : GProb ar ep) (i : Nat) : ∃ rs, LeftRules au (n + 1) ep i rs := by
  have : ∀ es, (∀ e ∈ es, e ∈ ep.E) → ∀ i, ∃ rs, LeftLoop au (n + 1) ep i es rs := by
    intro es
    induction es with
    | nil => exact fun _ i => ⟨[], .nil⟩
    | cons e es ih =>
      intro h i
      obtain ⟨rs, hr⟩ := ih (fun e he => h e (by simp [he])) (i + 1)
      have he := hg.E e (h e (by simp))
      obtain ⟨a, ha⟩ := rulesFor_total (n := n) (au := au) (t := e.2) (left := some i) (sMod := true) hg.E he.1
      obtain ⟨b, hb⟩ := rulesFor_total (n := n) (au := au) (t := e.1) (left := some i) (sMod := false) hg.E he.2
      exact ⟨_, .cons ha hb hr⟩
  exact this _ (fun e he => List.mem_of_mem_drop he) i

/-- Some side, rewritten with the equalities. -/
def AnyRule (ep : Prob) (r : Rule) : Prop := IsRight ep r ∨ IsLeft ep 0 r

theorem IsLeft.any {ep : Prob} {i : Nat} {r : Rule} (h : IsLeft ep i r) : AnyRule ep r := by
  obtain ⟨j, e, _, h⟩ := h
  exact Or.inr ⟨j, e, by omega, h⟩

theorem AnyRule.gd {ep : Prob} (hg : GProb ar ep) {r : Rule} (h : AnyRule ep r) :
    r.l.Gd ar ∧ r.r.Gd ar ∧ r.s.Gd ar ∧ r.t.Gd ar ∧ r.l' = r.l ∧ SubT r.l r.s ∧ Eqn ep.E r.l r.r := by
  have key : ∀ {s t : UT} {left : Option Nat} {sMod : Bool}, s.Gd ar → t.Gd ar → IsRule ep.E s t left sMod r →
      r.l.Gd ar ∧ r.r.Gd ar ∧ r.s.Gd ar ∧ r.t.Gd ar ∧ r.l' = r.l ∧ SubT r.l r.s ∧ Eqn ep.E r.l r.r := by
    rintro s t left sMod hs ht ⟨h1, h2, h3, h4, h5, h6, h7, h8⟩
    exact ⟨(h7.gd hg.E).1, (h7.gd hg.E).2, h3 ▸ hs, h4 ▸ ht, h5, h3 ▸ h6, h7⟩
  rcases h with (h | h) | ⟨i, e, _, he, h | h⟩
  · exact key hg.s hg.t h
  · exact key hg.t hg.s h
  · exact key (hg.E e (List.mem_of_getElem? he)).1 (hg.E e (List.mem_of_getElem? he)).2 h
  · exact key (hg.E e (List.mem_of_getElem? he)).2 (hg.E e (List.mem_of_getElem? he)).1 h

/-- The problem after an accepted rule. -/
def stepG (ep : Prob) (r : Rule) : Prob :=
  match r.left with
  | some i => { ep with E := ep.E.set i (if r.sMod then (repl r.l r.r r.s, r.t) else (r.s, repl r.l r.r r.s)) }
  | none => if r.sMod then { ep with s := repl r.l r.r r.s, t := r.t } else { ep with s := r.s, t := repl r.l r.r r.s }

/-- The rule decreases. -/
def Dec (pr : Nat → Nat → Ordering) (r : Rule) : Prop := Gt pr r.l r.r ∧ Gt pr r.s r.t

theorem next_gd (hp : Linear pr) (hau : GAU ar au) {ep : Prob} (hg : GProb ar ep) {r : Rule} (h : AnyRule ep r) :
    (Dec pr r ∧ next pr au ep r = .ok (some (stepG ep r))) ∨ (¬ Dec pr r ∧ next pr au ep r = .ok none) := by
  obtain ⟨h1, h2, h3, h4, h5, _, _⟩ := h.gd hg
  rcases applyEQ_gd hp hau h1 h2 h3 h4 h5 with ⟨hd, e⟩ | ⟨hd, e⟩
  · refine Or.inl ⟨hd, ?_⟩
    have hc := hg.c
    cases ep with
    | mk E s t c =>
      dsimp only at hc
      subst hc
      simp only [next, e, Res.bind, h5, stepG]
      cases r.left <;> rfl
  · exact Or.inr ⟨hd, by simp only [next, hg.c, e, Res.bind]⟩

theorem stepG_gd {ep : Prob} (hg : GProb ar ep) {r : Rule} (h : AnyRule ep r) : GProb ar (stepG ep r) := by
  obtain ⟨h1, h2, h3, h4, -, -, -⟩ := h.gd hg
  have hn : (repl r.l r.r r.s).Gd ar := repl_gd h2 h3
  unfold stepG
  split
  · refine ⟨fun e he => ?_, hg.s, hg.t, hg.c⟩
    rcases List.mem_or_eq_of_mem_set he with he | rfl
    · exact hg.E e he
    · split
      · exact ⟨hn, h4⟩
      · exact ⟨h3, hn⟩
  · split
    · exact ⟨hg.E, hn, h4, hg.c⟩
    · exact ⟨hg.E, h3, hn, hg.c⟩

theorem check_gd (hau : GAU ar au) {ep : Prob} (hg : GProb ar ep) (last : Option Nat) :
    check pr au ep last = .ok (if ep.s = ep.t ∧ last = none then [[]] else []) := by
  cases last with
  | some i => simp [check]
  | none =>
    simp only [check, checkUnif, hg.c, hau _ _ hg.s hg.t]
    by_cases e : ep.s = ep.t
    · simp [e, consistentSubst, Res.bind]
    · simp [e]

end Verif.Equality.Bse
