import Verif.Unif.Fresh
import Verif.Equality.BseAnswers
/-!
# The equality problems of a branch (`src/Mods/equality/bse/equality_types.go`, `equality_problem_list.go`)

The equality module does not get the literals of the branch as a list: it reads the equalities and disequalities by unifying
`=(M0, M1, M2)` with the two indexes, and for each positive literal `p(…)` the literals `¬p(…)` by unifying `p(X1, …)` with the index of the
negative literals.

The type argument of `=` is the first argument of the formula here, as in the index (`getFunctionalArguments`,
src/Unif/parsing.go). Other predicates have no type arguments. New term metavariables get indices never used by term metavariables
(`MakerMeta`, src/AST/maker.go:131-151). The metavariable for the type gets the next value of *another* counter (`MkTyMeta`,
src/AST/ty-syntax.go:299-305), and becomes a term metavariable with that index (`ToTermMeta`, 134); metavariables are compared by index alone
(src/AST/termsDef.go:331-336). So nothing is assumed about `ty` below.
-/

namespace Verif.Equality.Bse

open Verif.Unif

/-- The loop of `orderSubstForRetrieve` (src/Mods/equality/bse/equality_types.go:185-196); `none` is `Glob.Anomaly`. -/
def orderLoop (m1 m2 : Nat) : Subst → Subst → Option Subst
  | [], acc => some acc
  | (k, v) :: rest, acc =>
    if k = m1 ∨ k = m2 then orderLoop m1 m2 rest (acc.set k v)
    else match v with
      | .mv y => orderLoop m1 m2 rest (acc.set y (.mv k))
      | .fn _ _ => none

/-- `orderSubstForRetrieve` (src/Mods/equality/bse/equality_types.go:183-200). -/
def order (n m1 m2 : Nat) (s : Subst) : Res Subst :=
  match orderLoop m1 m2 s [] with
  | none => .panic
  | some s' => elimBoth n s'

/-- The body of the loops of `retrieveEqualities` and `retrieveInequalities` (src/Mods/equality/bse/equality_types.go:136-147, 167-178).
`MatchingSubstitutions` drops the bindings of type metavariables (src/Unif/matching_substitutions.go:203-212, 267-269), here the one of the
query. A missing binding is an anomaly. -/
def readPair (n ty m1 m2 : Nat) (x : Atom × Subst) : Res (UT × UT) :=
  (order n m1 m2 (x.2.filter fun p => decide (p.1 ≠ ty))).bind fun s =>
    match s.get m1, s.get m2 with
    | some u, some v => .ok (u, v)
    | _, _ => .panic

/-- A loop over the answers of the index. -/
def readAll {α : Type} (rd : Atom × Subst → Res α) : List (Atom × Subst) → Res (List α)
  | [] => .ok []
  | x :: rest => (rd x).bind fun y => (readAll rd rest).bind fun ys => .ok (y :: ys)

/-- `retrieveEqualities` (src/Mods/equality/bse/equality_types.go:121-149) and `retrieveInequalities` (152-180). -/
def Retrieve (au : AU) (n eq ty m1 m2 : Nat) (t : Node Instr Atom) (out : List (UT × UT)) : Prop :=
  ∃ ans, Search au n t { terms := [(⟨eq, [.mv ty, .mv m1, .mv m2]⟩ : Atom).term] } ans ∧ readAll (readPair n ty m1 m2) ans = .ok out

/-- `buildEqualityProblemListFrom2Pred` (src/Mods/equality/bse/equality_problem_list.go:192-203): `At(i)` panics out of range. -/
def zipArgs : List UT → List UT → Res (List (UT × UT))
  | [], _ => .ok []
  | _ :: _, [] => .panic
  | a :: l, b :: m => (zipArgs l m).bind fun r => .ok ((a, b) :: r)

/-- `buildEqualityProblemMultiListFromFormList` (src/Mods/equality/bse/equality_problem_list.go:243-256) with
`buildEqualityProblemMultiListFromPredList` (206-240), on the positive literals of the branch; `used` are the indices given out before. -/
inductive FormList (au : AU) (n eq : Nat) (used : List Nat) (tn : Node Instr Atom) : List Atom → List (List (UT × UT)) → Prop where
  | nil : FormList au n eq used tn [] []
  | equality {a : Atom} {rest : List Atom} {out : List (List (UT × UT))} (h : a.p = eq) (hr : FormList au n eq used tn rest out) :
      FormList au n eq used tn (a :: rest) out
  | pred {a : Atom} {rest : List Atom} {out : List (List (UT × UT))} {xs : List Nat} {ans : List (Atom × Subst)} {l : List (List (UT × UT))}
      (h : a.p ≠ eq) (hx : xs.length = a.args.length) (hnd : xs.Nodup) (hu : ∀ x ∈ xs, x ∉ used)
      (hs : Search au n tn { terms := [(⟨a.p, xs.map .mv⟩ : Atom).term] } ans)
      (hl : readAll (fun x => zipArgs a.args x.1.args) ans = .ok l) (hr : FormList au n eq used tn rest out) :
      FormList au n eq used tn (a :: rest) (l ++ out)

/-- `buildEqualityProblemMultiList` (src/Mods/equality/bse/equality_problem_list.go:262-282): the equalities, the lists of goals and the flag.
`ty0` and `ty1` are the indices of the type metavariables of the two queries. -/
def Build (au : AU) (n eq : Nat) (used : List Nat) (ty0 ty1 : Nat) (fl : List Atom) (tp tn : Node Instr Atom) (E : List (UT × UT))
    (gss : List (List (UT × UT))) (b : Bool) : Prop :=
  ∃ m1 m2, m1 ∉ used ∧ m2 ∉ used ∧ m1 ≠ m2 ∧ Retrieve au n eq ty0 m1 m2 tp E ∧
    ((E = [] ∧ gss = [] ∧ b = false) ∨
      (E ≠ [] ∧ ∃ k1 k2 N P, k1 ∉ used ∧ k2 ∉ used ∧ k1 ≠ k2 ∧ Retrieve au n eq ty1 k1 k2 tn N ∧ FormList au n eq used tn fl P ∧
        gss = N.map (fun g => [g]) ++ P ∧ b = !gss.isEmpty))

/-! ### Specification -/

/-- The sides of an equality `=(type, s, t)`. -/
def sides : Atom → UT × UT
  | ⟨_, [_, s, t]⟩ => (s, t)
  | _ => (.mv 0, .mv 0)

/-- The pairs of sides of the literals with the symbol `=`, each literal once. -/
def eqsOf (eq : Nat) (l : List Atom) : List (UT × UT) := (l.dedup.filter fun f => decide (f.p = eq)).map sides

/-- The goals: one for each disequality, and for each pair of literals `p(…)`, `¬p(…)` the equations between their arguments. -/
def goalsOf (eq : Nat) (fl neg : List Atom) : List (List (UT × UT)) :=
  (eqsOf eq neg).map (fun g => [g]) ++
    (fl.filter fun a => decide (a.p ≠ eq)).flatMap fun a => (neg.dedup.filter fun f => decide (f.p = a.p)).map fun f => a.args.zip f.args

/-- What is known of the literals: each symbol has one arity, `=` has a type, not a metavariable, and two terms; the metavariables are among
those given out. -/
structure Literals (ar : Nat → Nat) (eq : Nat) (used : List Nat) (l : List Atom) : Prop where
  ar : ∀ f ∈ l, f.term.Ar ar
  eq : ∀ f ∈ l, f.p = eq → ∃ p ts s t, f.args = [.fn p ts, s, t]
  used : ∀ f ∈ l, ∀ z ∈ UT.occL f.args, z ∈ used

/-- What the problem should be. -/
def Exact (au : AU) (n eq : Nat) (used : List Nat) (ty0 ty1 : Nat) (fl : List Atom) (tp tn : Node Instr Atom) (pos neg : List Atom) : Prop :=
  (∃ E gss b, Build au n eq used ty0 ty1 fl tp tn E gss b) ∧
  ∀ E gss b, Build au n eq used ty0 ty1 fl tp tn E gss b → E.Perm (eqsOf eq pos) ∧ (E ≠ [] → gss.Perm (goalsOf eq fl neg)) ∧
    (b = true ↔ eqsOf eq pos ≠ [] ∧ goalsOf eq fl neg ≠ [])

/-- **C73, as a user would have it.** For every branch, whatever terms its literals have: the problem given to the equality reasoning has exactly the
equalities of the branch, and exactly the disequalities and pairs of complementary literals as goals. -/
def C73_statement : Prop := ∀ (ar : Nat → Nat) (n eq : Nat) (used : List Nat) (ty0 ty1 : Nat) (fl : List Atom) (pos neg : List (List Atom))
    (tp tn : Node Instr Atom), pos.foldlM (fun n l => n.addAtoms l) Node.empty = some tp →
    neg.foldlM (fun n l => n.addAtoms l) Node.empty = some tn → Literals ar eq used pos.flatten → Literals ar eq used neg.flatten →
    Literals ar eq used fl → ty0 ∈ used → ty1 ∈ used →
    Exact (addUnification (n + 3)) (n + 3) eq used ty0 ty1 fl tp tn pos.flatten neg.flatten

/-! ### Reading the answers -/

theorem orderLoop_spec {m1 m2 : Nat} {s0 : Subst} (s acc : Subst) (hs : ∀ p ∈ s, p ∈ s0) (h : ∀ p ∈ s, (p.1 = m1 ∨ p.1 = m2) ∨ ∃ y, p.2 = .mv y)
    (hnd : acc.keys.Nodup) :
    ∃ r, orderLoop m1 m2 s acc = some r ∧ r.keys.Nodup ∧ (∀ z ∈ acc.keys, z ∈ r.keys) ∧
      (∀ p ∈ r, p ∈ acc ∨ (p ∈ s0 ∧ (p.1 = m1 ∨ p.1 = m2)) ∨ ∃ k, p.2 = .mv k ∧ (k, .mv p.1) ∈ s0 ∧ ¬ (k = m1 ∨ k = m2)) ∧
      ∀ p ∈ s, ((p.1 = m1 ∨ p.1 = m2) → p.1 ∈ r.keys) ∧ ∀ y, ¬ (p.1 = m1 ∨ p.1 = m2) → p.2 = .mv y → y ∈ r.keys := by
  induction s generalizing acc with
  | nil => exact ⟨acc, rfl, hnd, fun _ h => h, fun p hp => Or.inl hp, by simp⟩
  | cons p s ih =>
    obtain ⟨k, v⟩ := p
    have hs' := fun p hp => hs p (List.mem_cons_of_mem (k, v) hp)
    have h' := fun p hp => h p (List.mem_cons_of_mem (k, v) hp)
    by_cases hk : k = m1 ∨ k = m2
    · obtain ⟨r, h1, h2, h3, h4, h5⟩ := ih (acc.set k v) hs' h' (Subst.nodup_set hnd k v)
      refine ⟨r, by simp only [orderLoop, hk, if_true]; exact h1, h2, fun z hz => h3 z (Subst.key_set.2 (Or.inl hz)), fun p hp => ?_, fun p hp => ?_⟩
      · rcases h4 p hp with h | h
        · rcases Subst.mem_set h with h | rfl
          · exact Or.inl h
          · exact Or.inr (Or.inl ⟨hs _ (by simp), hk⟩)
        · exact Or.inr h
      · rcases List.mem_cons.1 hp with rfl | hp
        · exact ⟨fun _ => h3 _ (Subst.key_set.2 (Or.inr rfl)), fun y hn => absurd hk hn⟩
        · exact h5 p hp
    · obtain ⟨y, rfl⟩ : ∃ y, v = .mv y := by
        rcases h (k, v) (by simp) with h | h
        · exact absurd h hk
        · exact h
      obtain ⟨r, h1, h2, h3, h4, h5⟩ := ih (acc.set y (.mv k)) hs' h' (Subst.nodup_set hnd y _)
      refine ⟨r, by simp only [orderLoop, hk, if_false]; exact h1, h2, fun z hz => h3 z (Subst.key_set.2 (Or.inl hz)), fun p hp => ?_, fun p hp => ?_⟩
      · rcases h4 p hp with h | h
        · rcases Subst.mem_set h with h | rfl
          · exact Or.inl h
          · exact Or.inr (Or.inr ⟨k, rfl, hs _ (by simp), hk⟩)
        · exact Or.inr h
      · rcases List.mem_cons.1 hp with rfl | hp
        · refine ⟨fun h => absurd h hk, fun y' _ e => ?_⟩
          cases e
          exact h3 _ (Subst.key_set.2 (Or.inr rfl))
        · exact h5 p hp

/-- The answer for an equality gives back its sides. -/
theorem readPair_fresh {σ : Nat → UT} {ty m1 m2 : Nat} (F : Verif.Unif.Fresh σ [ty, m1, m2] [ty]) (h1 : ty ≠ m1) (h2 : ty ≠ m2) {r : Subst} (hr : r.Solved)
    (hw : ∀ p ∈ r, Wv σ [ty, m1, m2] [ty] p) (hs : ∀ x ∈ [ty, m1, m2], (σ x).inst r.fn = r.fn x) (f : Atom) (n : Nat) :
    readPair (n + 2) ty m1 m2 (f, r) = .ok (σ m1, σ m2) := by
  have x1 : m1 ∈ [ty, m1, m2] := by simp
  have x2 : m2 ∈ [ty, m1, m2] := by simp
  -- the bindings of other metavariables
  have other : ∀ p ∈ r, p.1 ∉ [ty, m1, m2] → ∃ y, p.2 = .mv y ∧ (y = m1 ∨ y = m2) ∧ σ y = .mv p.1 := by
    intro p hp hn
    obtain ⟨w1, w2, w3⟩ := hw p hp
    rw [F.id _ hn] at w1
    cases hv : p.2 with
    | fn q l => rw [hv, UT.inst_args] at w1; cases w1
    | mv y =>
      rw [hv] at w1
      have w1 : σ y = .mv p.1 := w1
      have hy := w2 y hv
      simp only [List.mem_cons, List.not_mem_nil, or_false] at hy
      refine ⟨y, rfl, ?_, w1⟩
      rcases hy with rfl | hy
      · obtain ⟨_, q, l, e⟩ := F.drop y (by simp)
        rw [w1] at e; cases e
      · exact hy
  have mem : ∀ p, p ∈ (r.filter fun p => decide (p.1 ≠ ty)) ↔ p ∈ r ∧ p.1 ≠ ty := by simp
  have hshape : ∀ p ∈ (r.filter fun p => decide (p.1 ≠ ty)), (p.1 = m1 ∨ p.1 = m2) ∨ ∃ y, p.2 = .mv y := by
    intro p hp
    obtain ⟨hp, hne⟩ := (mem p).1 hp
    by_cases hx : p.1 ∈ [ty, m1, m2]
    · simp only [List.mem_cons, List.not_mem_nil, or_false] at hx
      exact Or.inl (hx.resolve_left hne)
    · obtain ⟨y, e, _⟩ := other p hp hx
      exact Or.inr ⟨y, e⟩
  obtain ⟨s, e1, e2, -, e4, e5⟩ := orderLoop_spec (m1 := m1) (m2 := m2) _ [] (fun _ h => h) hshape (by simp [Subst.keys])
  -- where the bindings come from
  have src : ∀ p ∈ s, (p ∈ r ∧ (p.1 = m1 ∨ p.1 = m2)) ∨ ((p.1 = m1 ∨ p.1 = m2) ∧ ∃ k, p.2 = .mv k ∧ (k, .mv p.1) ∈ r ∧ k ∉ [ty, m1, m2] ∧ σ p.1 = .mv k) := by
    intro p hp
    rcases e4 p hp with h | ⟨h, hk⟩ | ⟨k, e, h, hk⟩
    · cases h
    · exact Or.inl ⟨((mem p).1 h).1, hk⟩
    · obtain ⟨hm, hne⟩ := (mem _).1 h
      have hn : k ∉ [ty, m1, m2] := by
        simp only [List.mem_cons, List.not_mem_nil, or_false, not_or]
        simp only [not_or] at hk
        exact ⟨hne, hk⟩
      obtain ⟨y, ey, hy, eσ⟩ := other _ hm hn
      cases ey
      exact Or.inr ⟨hy, k, e, hm, hn, eσ⟩
  have skeys : ∀ z ∈ s.keys, z = m1 ∨ z = m2 := by
    intro z hz
    obtain ⟨p, hp, rfl⟩ := List.mem_map.1 hz
    rcases src p hp with h | h
    · exact h.2
    · exact h.1
  have hkey : ∀ x, (x = m1 ∨ x = m2) → x ∈ s.keys := by
    intro x hx
    have hxs : x ∈ [ty, m1, m2] := by rcases hx with rfl | rfl <;> simp
    have hxty : x ≠ ty := by rcases hx with rfl | rfl <;> first | exact h1.symm | exact h2.symm
    by_cases hk : x ∈ r.keys
    · obtain ⟨p, hp, rfl⟩ := List.mem_map.1 hk
      exact (e5 p ((mem p).2 ⟨hp, hxty⟩)).1 hx
    · have hfx := hs x hxs
      rw [Subst.fn_not_key hk] at hfx
      cases hσ : σ x with
      | fn q l => rw [hσ, UT.inst_args] at hfx; cases hfx
      | mv k =>
        rw [hσ] at hfx
        have hfx : r.fn k = .mv x := hfx
        have hkn : k ∉ [ty, m1, m2] := F.away x hxs k (by rw [hσ]; simp [UT.occ])
        have hkr : k ∈ r.keys := by
          refine Classical.byContradiction fun hc => ?_
          rw [Subst.fn_not_key hc] at hfx
          cases hfx
          exact hkn hxs
        obtain ⟨v, hv⟩ := Subst.get_isSome hkr
        have hm := Subst.get_mem hv
        rw [Subst.fn_mem hr.1 hm] at hfx
        subst hfx
        refine (e5 (k, .mv x) ((mem _).2 ⟨hm, fun e => hkn (by simp at e; simp [e])⟩)).2 x (fun e => hkn ?_) rfl
        simp only at e
        rcases e with rfl | rfl <;> simp
  -- elimination
  have hA : ∀ p ∈ s, ∀ z ∈ p.2.occ, z ∈ s.keys → (p ∈ r ∧ (p.1 = m1 ∨ p.1 = m2)) ∧ z ∉ r.keys := by
    intro p hp z hz hzk
    rcases src p hp with h | ⟨_, k, e, _, hn, _⟩
    · exact ⟨h, fun hc => hr.2 p h.1 z hc hz⟩
    · rw [e] at hz
      simp only [UT.occ, List.mem_singleton] at hz
      subst hz
      exact absurd (by rcases skeys z hzk with rfl | rfl <;> simp) hn
  have hem : elimMeta s = s := by
    refine elimMeta_id e2 fun k i hki hget => ?_
    have hik := Subst.get_mem hget
    obtain ⟨⟨hp, hk⟩, hi⟩ := hA (k, .mv i) hki i (by simp [UT.occ]) (List.mem_map.2 ⟨_, hik, rfl⟩)
    rcases src _ hik with ⟨h, _⟩ | ⟨_, k', e, _, hn, _⟩
    · exact hi (List.mem_map.2 ⟨_, h, rfl⟩)
    · cases e
      exact hn (by simp only at hk; rcases hk with rfl | rfl <;> simp)
  obtain ⟨s', hs'⟩ : ∃ s', elimBoth (n + 2) s = .ok s' := by
    classical
    refine elimBoth_ranked (ρ := fun z => if z ∈ r.keys then 1 else 0) 1 (fun p hp z hz hzK => ?_) (fun p hp z hz hzK => ?_) (by omega)
    · obtain ⟨⟨hp, _⟩, hz'⟩ := hA p hp z hz hzK
      have : p.1 ∈ r.keys := List.mem_map.2 ⟨p, hp, rfl⟩
      simp [this, hz']
    · obtain ⟨_, hz'⟩ := hA p hp z hz hzK
      simp [hz']
  have hsol := elimBoth_solved hs'
  have hk' : s'.keys = s.keys := by
    have := (eliminate_spec.{0} _ _ s' (elimMeta_nodup s) hs').1
    rw [hem] at this
    exact this
  have hW : ∀ p ∈ s', p.2.inst σ = σ p.1 ∧ ∀ z ∈ p.2.occ, z ≠ ty := by
    refine elimBoth_stable (W := fun p => p.2.inst σ = σ p.1 ∧ ∀ z ∈ p.2.occ, z ≠ ty) ?_ hs' ?_
    · rintro ⟨a, u⟩ ⟨k, v⟩ ⟨h1, h3⟩ ⟨g1, g3⟩
      refine ⟨(UT.eval_sub g1.symm u).trans h1, fun z hz => ?_⟩
      rcases UT.occ_sub _ hz with ⟨e, _⟩ | ⟨_, e⟩
      · exact h3 z e
      · exact g3 z e
    · intro p hp
      rcases src p hp with ⟨h, _⟩ | ⟨hk, k, e, hm, hn, eσ⟩
      · obtain ⟨w1, _, w3⟩ := hw p h
        exact ⟨w1, fun z hz e => w3 z hz (by simp [e])⟩
      · rw [e]
        refine ⟨?_, fun z hz e' => ?_⟩
        · rw [eσ]; exact F.id k hn
        · simp only [UT.occ, List.mem_singleton] at hz
          subst hz; subst e'; exact hn (by simp)
  have hval : ∀ x, (x = m1 ∨ x = m2) → s'.get x = some (σ x) := by
    intro x hx
    have hxk : x ∈ s'.keys := hk' ▸ hkey x hx
    obtain ⟨v, hv⟩ := Subst.get_isSome hxk
    have hm := Subst.get_mem hv
    obtain ⟨w1, w2⟩ := hW _ hm
    rw [hv, ← w1]
    congr 1
    have : v.inst σ = v.inst UT.mv := UT.eval_congr _ fun i hi => F.id i fun hix => by
      simp only [List.mem_cons, List.not_mem_nil, or_false] at hix
      rcases hix with rfl | hix
      · exact w2 _ hi rfl
      · exact hsol.2 _ hm i (hk' ▸ hkey i hix) hi
    rw [this, UT.inst_mv]
  simp only [readPair, order, e1, hs', Res.ok_bind, hval m1 (Or.inl rfl), hval m2 (Or.inr rfl)]

theorem readAll_ok {α : Type} {rd : Atom × Subst → Res α} {g : Atom → α} (ans : List (Atom × Subst)) (h : ∀ x ∈ ans, rd x = .ok (g x.1)) :
    readAll rd ans = .ok ((ans.map (·.1)).map g) := by
  induction ans with
  | nil => rfl
  | cons x ans ih =>
    simp only [readAll, h x (by simp), Res.ok_bind, ih fun y hy => h y (by simp [hy]), List.map_cons]

theorem zipArgs_ok (l m : List UT) (h : l.length = m.length) : zipArgs l m = .ok (l.zip m) := by
  induction l generalizing m with
  | nil => rfl
  | cons a l ih =>
    cases m with
    | nil => simp at h
    | cons b m => simp only [zipArgs, ih m (by simpa using h), Res.ok_bind, List.zip_cons_cons]

variable {ar : Nat → Nat} {eq : Nat} {used : List Nat}

theorem occL_mem {l : List UT} {t : UT} (h : t ∈ l) {z : Nat} (hz : z ∈ t.occ) : z ∈ UT.occL l := UT.mem_occL.2 ⟨t, h, hz⟩

/-- Reading the equalities of an index. -/
theorem retrieve_fresh {bs : List (List Atom)} {t : Node Instr Atom} (ht : bs.foldlM (fun n l => n.addAtoms l) Node.empty = some t)
    (hl : Literals ar eq used bs.flatten) {ty m1 m2 : Nat} (hty : ∀ f ∈ bs.flatten, ty ∉ UT.occL f.args) (h1 : ty ≠ m1) (h2 : ty ≠ m2) (h12 : m1 ≠ m2)
    (hm1 : m1 ∉ used) (hm2 : m2 ∉ used) (n : Nat) :
    (∃ out, Retrieve (addUnification (n + 3)) (n + 3) eq ty m1 m2 t out) ∧
    ∀ out, Retrieve (addUnification (n + 3)) (n + 3) eq ty m1 m2 t out → out.Perm (eqsOf eq bs.flatten) := by
  have hsingle : ∀ f ∈ bs.flatten, f.p = (⟨eq, [.mv ty, .mv m1, .mv m2]⟩ : Atom).p →
      ∃ r, Verif.Unif.single (addUnif false (n + 3)) (n + 3) { terms := [(⟨eq, [.mv ty, .mv m1, .mv m2]⟩ : Atom).term] } (f.code, f) = [(f, r)] ∧
        readPair (n + 3) ty m1 m2 (f, r) = .ok (sides f) := by
    intro f hf hp
    obtain ⟨p, ts, s, t', ha⟩ := hl.eq f hf hp
    have hocc : ∀ u ∈ [UT.fn p ts, s, t'], ∀ z ∈ u.occ, z ∉ [ty, m1, m2] := by
      intro u hu z hz hm
      have hzf : z ∈ UT.occL f.args := occL_mem (by rw [ha]; exact hu) hz
      simp only [List.mem_cons, List.not_mem_nil, or_false] at hm
      rcases hm with rfl | rfl | rfl
      · exact hty f hf hzf
      · exact hm1 (hl.used f hf _ hzf)
      · exact hm2 (hl.used f hf _ hzf)
    let σ : Nat → UT := fun i => if i = ty then .fn p ts else if i = m1 then s else if i = m2 then t' else .mv i
    have s0 : σ ty = .fn p ts := by simp [σ]
    have s1 : σ m1 = s := by simp [σ, h1.symm]
    have s2 : σ m2 = t' := by simp [σ, h2.symm, h12.symm]
    have F : Verif.Unif.Fresh σ [ty, m1, m2] [ty] := by
      refine ⟨fun x hx => ?_, fun i hi => ?_, fun d hd => ?_⟩
      · simp only [List.mem_cons, List.not_mem_nil, or_false] at hx
        rcases hx with rfl | rfl | rfl
        · rw [s0]; exact hocc _ (by simp)
        · rw [s1]; exact hocc _ (by simp)
        · rw [s2]; exact hocc _ (by simp)
      · simp only [List.mem_cons, List.not_mem_nil, or_false, not_or] at hi
        simp [σ, hi]
      · simp only [List.mem_singleton] at hd
        subst hd
        exact ⟨by simp, p, ts, s0⟩
    have hargs : f.args = [ty, m1, m2].map σ := by simp only [List.map_cons, List.map_nil, s0, s1, s2, ha]
    have haq : (⟨eq, [.mv ty, .mv m1, .mv m2]⟩ : Atom).term.Ar ar := by
      refine ⟨?_, by simp [UT.ArL, UT.Ar]⟩
      have := (hl.ar f hf).1
      rw [ha] at this
      simp only at hp
      rw [hp] at this
      exact this
    obtain ⟨r, g1, g2, g3, g4⟩ := single_fresh (q := ⟨eq, [.mv ty, .mv m1, .mv m2]⟩) F hp hargs rfl (hl.ar f hf) haq n
    refine ⟨r, g1, ?_⟩
    have hsnd : ∀ x ∈ [ty, m1, m2], (σ x).inst r.fn = r.fn x := by
      have := g4 r.fn g2.sol
      simp only [Atom.term, hargs, UT.inst_args, UT.fn.injEq, List.map_map] at this
      have h3 := this.2
      simp only [List.map_cons, List.map_nil, List.cons.injEq, Function.comp_apply, and_true] at h3
      intro x hx
      simp only [List.mem_cons, List.not_mem_nil, or_false] at hx
      rcases hx with rfl | rfl | rfl
      · exact h3.1
      · exact h3.2.1
      · exact h3.2.2
    rw [readPair_fresh F h1 h2 g2 g3 hsnd f (n + 1), s1, s2]
    obtain ⟨fp, fa⟩ := f
    simp only at ha
    subst ha
    rfl
  obtain ⟨k1, k2⟩ := search_symbol hsingle ht
  refine ⟨?_, ?_⟩
  · obtain ⟨ans, ha⟩ := k1
    obtain ⟨-, c2⟩ := k2 ans (C30_search_exact bs t ht _ _ ans ha)
    exact ⟨_, ans, ha, readAll_ok ans c2⟩
  · rintro out ⟨ans, ha, ho⟩
    obtain ⟨c1, c2⟩ := k2 ans (C30_search_exact bs t ht _ _ ans ha)
    rw [readAll_ok ans c2, Res.ok.injEq] at ho
    subst ho
    exact c1.map _

/-- The literals with the symbol of a literal. -/
theorem pred_fresh {bs : List (List Atom)} {t : Node Instr Atom} (ht : bs.foldlM (fun n l => n.addAtoms l) Node.empty = some t)
    (hl : Literals ar eq used bs.flatten) {a : Atom} (ha : a.term.Ar ar) {xs : List Nat} (hx : xs.length = a.args.length) (hnd : xs.Nodup)
    (hu : ∀ x ∈ xs, x ∉ used) (n : Nat) :
    (∃ ans, Search (addUnification (n + 3)) (n + 3) t { terms := [(⟨a.p, xs.map .mv⟩ : Atom).term] } ans) ∧
    ∀ ans, Search (addUnification (n + 3)) (n + 3) t { terms := [(⟨a.p, xs.map .mv⟩ : Atom).term] } ans →
      ∃ l, readAll (fun x => zipArgs a.args x.1.args) ans = .ok l ∧
        l.Perm ((bs.flatten.dedup.filter fun f => decide (f.p = a.p)).map fun f => a.args.zip f.args) := by
  have har : ar a.p = a.args.length := ha.1.symm
  have hsingle : ∀ f ∈ bs.flatten, f.p = (⟨a.p, xs.map .mv⟩ : Atom).p →
      ∃ r, Verif.Unif.single (addUnif false (n + 3)) (n + 3) { terms := [(⟨a.p, xs.map .mv⟩ : Atom).term] } (f.code, f) = [(f, r)] ∧
        zipArgs a.args f.args = .ok (a.args.zip f.args) := by
    intro f hf hp
    simp only at hp
    have hlen : f.args.length = a.args.length := by
      have := (hl.ar f hf).1
      rw [hp, har] at this
      exact this
    let σ : Nat → UT := fun i => if i ∈ xs then f.args.getD (xs.idxOf i) (.mv i) else .mv i
    have hσ : xs.map σ = f.args := by
      refine List.ext_getElem (by simp [hx, hlen]) fun i h1 h2 => ?_
      simp only [List.length_map] at h1
      simp only [List.getElem_map, σ, List.getElem_mem, if_true, hnd.idxOf_getElem, List.getD_eq_getElem?_getD]
      rw [List.getElem?_eq_getElem h2]
      rfl
    have hmem : ∀ x ∈ xs, σ x ∈ f.args := fun x hx => hσ ▸ List.mem_map.2 ⟨x, hx, rfl⟩
    have F : Verif.Unif.Fresh σ xs [] :=
      ⟨fun x hx z hz hzx => hu z hzx (hl.used f hf z (occL_mem (hmem x hx) hz)), fun i hi => by simp [σ, hi], by simp⟩
    have haq : (⟨a.p, xs.map .mv⟩ : Atom).term.Ar ar := by
      refine ⟨?_, ?_⟩
      · rw [List.length_map, hx, har]
      · have : ∀ l : List Nat, UT.ArL ar (l.map .mv) := by
          intro l
          induction l with
          | nil => simp [UT.ArL]
          | cons a l ih => simp [UT.ArL, UT.Ar, ih]
        exact this xs
    obtain ⟨r, g1, -⟩ := single_fresh (q := ⟨a.p, xs.map .mv⟩) F hp hσ.symm rfl (hl.ar f hf) haq n
    exact ⟨r, g1, zipArgs_ok _ _ hlen.symm⟩
  obtain ⟨k1, k2⟩ := search_symbol (P := fun f _ => zipArgs a.args f.args = .ok (a.args.zip f.args)) hsingle ht
  refine ⟨k1, fun ans hans => ?_⟩
  obtain ⟨c1, c2⟩ := k2 ans (C30_search_exact bs t ht _ _ ans hans)
  exact ⟨_, readAll_ok (g := fun f => a.args.zip f.args) ans c2, c1.map _⟩

theorem exists_fresh (used : List Nat) (k : Nat) : ∃ xs : List Nat, xs.length = k ∧ xs.Nodup ∧ ∀ x ∈ xs, x ∉ used := by
  refine ⟨List.range' (used.foldr max 0 + 1) k, by simp, List.nodup_range', fun x hx hu => ?_⟩
  have := le_foldr_max hu
  simp only [List.mem_range'_1] at hx
  omega

theorem formList_total {bs : List (List Atom)} {t : Node Instr Atom} (ht : bs.foldlM (fun n l => n.addAtoms l) Node.empty = some t)
    (hl : Literals ar eq used bs.flatten) (n : Nat) (fl : List Atom) (ha : ∀ a ∈ fl, a.term.Ar ar) :
    ∃ P, FormList (addUnification (n + 3)) (n + 3) eq used t fl P := by
  induction fl with
  | nil => exact ⟨[], .nil⟩
  | cons a fl ih =>
    obtain ⟨P, hP⟩ := ih fun a h => ha a (by simp [h])
    by_cases h : a.p = eq
    · exact ⟨P, .equality h hP⟩
    · obtain ⟨xs, x1, x2, x3⟩ := exists_fresh used a.args.length
      obtain ⟨⟨ans, hans⟩, h2⟩ := pred_fresh ht hl (ha a (by simp)) x1 x2 x3 n
      obtain ⟨l, e, _⟩ := h2 ans hans
      exact ⟨l ++ P, .pred h x1 x2 x3 hans e hP⟩

theorem formList_exact {bs : List (List Atom)} {t : Node Instr Atom} (ht : bs.foldlM (fun n l => n.addAtoms l) Node.empty = some t)
    (hl : Literals ar eq used bs.flatten) (n : Nat) {fl : List Atom} {P : List (List (UT × UT))} (ha : ∀ a ∈ fl, a.term.Ar ar)
    (h : FormList (addUnification (n + 3)) (n + 3) eq used t fl P) :
    P.Perm ((fl.filter fun a => decide (a.p ≠ eq)).flatMap fun a => (bs.flatten.dedup.filter fun f => decide (f.p = a.p)).map fun f => a.args.zip f.args) := by
  induction h with
  | nil => exact List.Perm.refl _
  | equality h hr ih =>
    rw [List.filter_cons_of_neg (by simp [h])]
    exact ih fun a h => ha a (by simp [h])
  | @pred a rest out xs ans l h hx hnd hu hs hl' hr ih =>
    rw [List.filter_cons_of_pos (by simp [h]), List.flatMap_cons]
    obtain ⟨l', e, hp⟩ := (pred_fresh ht hl (ha a (by simp)) hx hnd hu n).2 ans hs
    rw [e, Res.ok.injEq] at hl'
    subst hl'
    exact hp.append (ih fun a h => ha a (by simp [h]))

/-- **C73, what holds**: the problem is exactly the one of the branch, for all terms, if the indices given to the two type metavariables are not
those of metavariables of the branch. -/
theorem C73_partial (ar : Nat → Nat) (n eq : Nat) (used : List Nat) (ty0 ty1 : Nat) (fl : List Atom) (pos neg : List (List Atom))
    (tp tn : Node Instr Atom) (hp : pos.foldlM (fun n l => n.addAtoms l) Node.empty = some tp)
    (hn : neg.foldlM (fun n l => n.addAtoms l) Node.empty = some tn) (lp : Literals ar eq used pos.flatten) (ln : Literals ar eq used neg.flatten)
    (lf : Literals ar eq used fl) (h0 : ty0 ∈ used) (h1 : ty1 ∈ used) (d0 : ∀ f ∈ pos.flatten, ty0 ∉ UT.occL f.args)
    (d1 : ∀ f ∈ neg.flatten, ty1 ∉ UT.occL f.args) :
    Exact (addUnification (n + 3)) (n + 3) eq used ty0 ty1 fl tp tn pos.flatten neg.flatten := by
  have ne : ∀ {a b : Nat}, a ∈ used → b ∉ used → a ≠ b := fun ha hb e => hb (e ▸ ha)
  constructor
  · obtain ⟨xs, x1, x2, x3⟩ := exists_fresh used 2
    obtain ⟨m1, m2, rfl⟩ : ∃ m1 m2, xs = [m1, m2] := by
      match xs, x1 with
      | [m1, m2], _ => exact ⟨m1, m2, rfl⟩
    have u1 : m1 ∉ used := x3 m1 (by simp)
    have u2 : m2 ∉ used := x3 m2 (by simp)
    have u12 : m1 ≠ m2 := by simpa using x2
    obtain ⟨⟨E, hE⟩, _⟩ := retrieve_fresh hp lp d0 (ne h0 u1) (ne h0 u2) u12 u1 u2 n
    obtain ⟨⟨N, hN⟩, _⟩ := retrieve_fresh hn ln d1 (ne h1 u1) (ne h1 u2) u12 u1 u2 n
    obtain ⟨P, hP⟩ := formList_total hn ln n fl lf.ar
    by_cases he : E = []
    · exact ⟨E, [], false, m1, m2, u1, u2, u12, hE, Or.inl ⟨he, rfl, rfl⟩⟩
    · exact ⟨E, _, _, m1, m2, u1, u2, u12, hE, Or.inr ⟨he, m1, m2, N, P, u1, u2, u12, hN, hP, rfl, rfl⟩⟩
  · rintro E gss b ⟨m1, m2, u1, u2, u12, hE, h⟩
    have pE := (retrieve_fresh hp lp d0 (ne h0 u1) (ne h0 u2) u12 u1 u2 n).2 E hE
    rcases h with ⟨rfl, rfl, rfl⟩ | ⟨he, k1, k2, N, P, v1, v2, v12, hN, hP, rfl, rfl⟩
    · refine ⟨pE, fun h => absurd rfl h, by simp, fun h => absurd (List.Perm.nil_eq pE).symm h.1⟩
    · have pN := (retrieve_fresh hn ln d1 (ne h1 v1) (ne h1 v2) v12 v1 v2 n).2 N hN
      have pP := formList_exact hn ln n lf.ar hP
      have pG : (N.map (fun g => [g]) ++ P).Perm (goalsOf eq fl neg.flatten) := (pN.map _).append pP
      refine ⟨pE, fun _ => pG, ?_⟩
      have e1 : eqsOf eq pos.flatten ≠ [] := fun h => he (List.Perm.eq_nil (h ▸ pE))
      constructor
      · intro hb
        refine ⟨e1, fun h => ?_⟩
        rw [h] at pG
        rw [List.Perm.eq_nil pG] at hb
        simp at hb
      · rintro ⟨_, h⟩
        cases hg : (N.map (fun g => [g]) ++ P) with
        | nil => rw [hg] at pG; exact absurd (List.Perm.nil_eq pG).symm h
        | cons g l => rfl

/-! ### The metavariable of the type -/

/-- The equality symbol, the type `$i` and a unary function of the samples. -/
def idEq : Nat := 5

def io : UT := .fn 4 []

def arB : Nat → Nat := fun p => if p = idEq then 3 else if p = 2 then 1 else 0

/-- `f(X) = a`, where `X` has index 7. -/
def fXa : Atom := ⟨idEq, [io, .fn 2 [.mv 7], ka]⟩

/-- **C73 fails.** On a branch with the equality `f(X) = a`, if the metavariable for the type in the query gets the index of `X` (the two kinds of
metavariables are counted apart and compared by index), then the equality read is `f($i) = a`: it does not follow from the branch. -/
theorem C73_violated : ∃ tp tn : Node Instr Atom, [[fXa]].foldlM (fun n l => n.addAtoms l) Node.empty = some tp ∧
    ([] : List (List Atom)).foldlM (fun n l => n.addAtoms l) Node.empty = some tn ∧ Literals arB idEq [7, 8] [fXa] ∧
    Build (addUnification 3) 3 idEq [7, 8] 7 8 [fXa] tp tn [(.fn 2 [io], ka)] [] false ∧ ¬ Entails (eqsOf idEq [fXa]) (.fn 2 [io]) ka := by
  have hl : Literals arB idEq [7, 8] [fXa] := by
    refine ⟨by simp [fXa, Atom.term, UT.Ar, UT.ArL, arB, idEq, io, ka], ?_, by simp [fXa, UT.occL, UT.occ, io, ka]⟩
    simp only [List.mem_singleton, forall_eq]
    exact fun _ => ⟨_, _, _, _, rfl⟩
  obtain ⟨tp, hp, -⟩ := index_built [[fXa]]
  have hs : ∀ f ∈ [[fXa]].flatten, f.p = (⟨idEq, [.mv 7, .mv 101, .mv 102]⟩ : Atom).p →
      ∃ r, Verif.Unif.single (addUnif false 3) 3 { terms := [(⟨idEq, [.mv 7, .mv 101, .mv 102]⟩ : Atom).term] } (f.code, f) = [(f, r)] ∧
        readPair 3 7 101 102 (f, r) = .ok (.fn 2 [io], ka) := by
    intro f hf _
    obtain rfl : f = fXa := by simpa using hf
    exact ⟨[(7, io), (101, .fn 2 [io]), (102, ka)], by decide +kernel, by decide +kernel⟩
  have hs' : ∀ f ∈ ([] : List (List Atom)).flatten, f.p = (⟨idEq, [.mv 8, .mv 101, .mv 102]⟩ : Atom).p →
      ∃ r, Verif.Unif.single (addUnif false 3) 3 { terms := [(⟨idEq, [.mv 8, .mv 101, .mv 102]⟩ : Atom).term] } (f.code, f) = [(f, r)] ∧ True :=
    fun f hf => by simp at hf
  obtain ⟨⟨ans, ha⟩, h2⟩ := search_symbol hs hp
  obtain ⟨c1, c2⟩ := h2 ans (C30_search_exact _ tp hp _ _ ans ha)
  have hn : ([] : List (List Atom)).foldlM (fun n l => n.addAtoms l) Node.empty = some (Node.empty : Node Instr Atom) := rfl
  obtain ⟨⟨ans', ha'⟩, h2'⟩ := search_symbol (P := fun _ _ => True) hs' hn
  obtain ⟨c1', -⟩ := h2' ans' (C30_search_exact _ _ hn _ _ ans' ha')
  have e' : ans' = [] := by simpa using List.Perm.eq_nil c1'
  have e : ans.map (·.1) = [fXa] := List.perm_singleton.1 (by simpa [idEq, fXa] using c1)
  refine ⟨tp, _, hp, hn, hl, ⟨101, 102, by simp, by simp, by simp, ⟨ans, ha, ?_⟩, Or.inr ⟨by simp, 101, 102, [], [], by simp, by simp, by simp,
    ⟨ans', ha', by rw [e']; rfl⟩, .equality rfl .nil, rfl, rfl⟩⟩, fun h => ?_⟩
  · rw [readAll_ok (g := fun _ => (.fn 2 [io], ka)) ans c2, e]
    rfl
  · have h' := h Nat (fun p ds => if p = 2 then ds.headD 0 else if p = 4 then 1 else 0) (fun _ => 0) (by
      simp [eqsOf, fXa, sides, UT.eval, UT.evalL, ka])
    simp [UT.eval, UT.evalL, ka, io] at h'

theorem C73_statement_false : ¬ C73_statement := fun h => by
  obtain ⟨tp, tn, hp, hn, hl, hb, he⟩ := C73_violated
  have hnil : Literals arB idEq [7, 8] [] := ⟨by simp, by simp, by simp⟩
  have := ((h arB 0 idEq [7, 8] 7 8 [fXa] [[fXa]] [] tp tn hp hn (by simpa using hl) (by simpa using hnil) hl (by simp) (by simp)).2 _ _ _ hb).1
  refine he fun D A σ hE => hE (.fn 2 [io], ka) (this.mem_iff.1 ?_)
  simp

/-- The hypotheses are met, with a metavariable in the literals: `f(X) = a`, `p(X)` and `¬p(b)`, where the types get other indices. -/
example : ∃ tp tn, Exact (addUnification 3) 3 idEq [7, 8, 9] 8 9 [fXa, ⟨6, [.mv 7]⟩] tp tn [fXa, ⟨6, [.mv 7]⟩] [⟨6, [kb]⟩] ∧
    eqsOf idEq [fXa, ⟨6, [.mv 7]⟩] = [(.fn 2 [.mv 7], ka)] ∧ goalsOf idEq [fXa, ⟨6, [.mv 7]⟩] [⟨6, [kb]⟩] = [[(.mv 7, kb)]] := by
  obtain ⟨tp, hp, -⟩ := index_built [[fXa, ⟨6, [.mv 7]⟩]]
  obtain ⟨tn, hn, -⟩ := index_built [[⟨6, [kb]⟩]]
  let ar : Nat → Nat := fun p => if p = 6 then 1 else arB p
  have l1 : Literals ar idEq [7, 8, 9] [fXa, ⟨6, [.mv 7]⟩] := by
    refine ⟨by simp [ar, fXa, Atom.term, UT.Ar, UT.ArL, arB, idEq, io, ka], fun f hf hp => ?_, by simp [fXa, UT.occL, UT.occ, io, ka]⟩
    simp only [List.mem_cons, List.not_mem_nil, or_false] at hf
    rcases hf with rfl | rfl
    · exact ⟨_, _, _, _, rfl⟩
    · simp [idEq] at hp
  have l2 : Literals ar idEq [7, 8, 9] [⟨6, [kb]⟩] := by
    refine ⟨by simp [ar, Atom.term, UT.Ar, UT.ArL, arB, idEq, kb], fun f hf hp => ?_, by simp [UT.occL, UT.occ, kb]⟩
    simp only [List.mem_singleton] at hf
    subst hf
    simp [idEq] at hp
  refine ⟨tp, tn, C73_partial ar 0 idEq [7, 8, 9] 8 9 _ [[fXa, ⟨6, [.mv 7]⟩]] [[⟨6, [kb]⟩]] tp tn hp hn l1 l2 l1 (by simp) (by simp) ?_ ?_, ?_, ?_⟩
  · simp [fXa, UT.occL, UT.occ, io, ka]
  · simp [UT.occL, UT.occ, kb]
  · decide +kernel
  · decide +kernel

end Verif.Equality.Bse
