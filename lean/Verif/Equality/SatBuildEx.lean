import Verif.Equality.SatBuildComplete

/-!
# Runs of the SAT-based equality module
-/

namespace Verif.Equality.Sat
open Verif.Unif Verif.Equality

/-- The run that uses this order of the classes, this assignment and these choices answers with this substitution. -/
def checkRun (st : St) (ecs : List Nat) (m : Var → Bool) (sub : List (Nat × Nat)) (corr : List (Nat × TR)) (n : Nat)
    (b : List (Nat × UT)) : Bool :=
  !hasTrivialGoals st && !st.p.metas.isEmpty && decide ecs.Nodup &&
    ecs.all (fun c => (st.p.super c).isSome) && (List.range st.h.next).all (fun c => !(st.p.super c).isSome || decide (c ∈ ecs)) &&
    match build st ecs with
    | none => false
    | some cs =>
      cs.all (fun c => c.any fun l => m l.1 == l.2) &&
        sub.all (fun p => m (.S p.1 p.2) && cs.any fun c => c.any fun l => decide (l.1 = .S p.1 p.2)) &&
        corr.all (fun p => m (.R p.1 p.2) && cs.any fun c => c.any fun l => decide (l.1 = .R p.1 p.2)) &&
        cs.all (fun c => c.all fun l =>
          match l.1 with
          | .S x _ => (sub.lookup x).isSome || !m l.1
          | .R c _ => (corr.lookup c).isSome || !m l.1
          | _ => true) &&
        decide (translateSub st (fun c => corr.lookup c) (fun x => sub.lookup x) n st.p.metas = some b)

theorem mem_of_lookup {α : Type} {l : List (Nat × α)} {x : Nat} {y : α} (h : l.lookup x = some y) : (x, y) ∈ l := by
  induction l with
  | nil => cases h
  | cons p l ih =>
    simp only [List.lookup] at h
    split at h
    · rename_i e
      cases h
      rw [beq_iff_eq.1 e]
      simp
    · exact List.mem_cons_of_mem _ (ih h)

theorem solve_of_check {ar : Nat → Nat} {E : List (UT × UT)} {gs : List (List (UT × UT))} {k : Nat} {st : St}
    (hE : ∀ e ∈ E, PairAr ar e) (hg : ∀ g ∈ gs, ∀ e ∈ g, PairAr ar e) (he : problem (k + 1) E gs = some st)
    {ecs : List Nat} {m : Var → Bool} {sub : List (Nat × Nat)} {corr : List (Nat × TR)} {n : Nat} {b : List (Nat × UT)}
    (h : checkRun st ecs m sub corr n b = true) : Solve st [b] true := by
  have hk := (ready_of ar hE hg he).kept
  simp only [checkRun, Bool.and_eq_true] at h
  obtain ⟨⟨⟨⟨⟨h1, h2⟩, h3⟩, h4⟩, h5⟩, h6⟩ := h
  split at h6
  · cases h6
  · rename_i cs hb
    simp only [Bool.and_eq_true] at h6
    obtain ⟨⟨⟨⟨h7, h8⟩, h9⟩, h10⟩, h11⟩ := h6
    have reg : ∀ v, (cs.any fun c => c.any fun l => decide (l.1 = v)) = true → Registered cs v := by
      intro v hv
      obtain ⟨c, hc, h⟩ := List.any_eq_true.1 hv
      obtain ⟨l, hl, h⟩ := List.any_eq_true.1 h
      simp only [decide_eq_true_eq] at h
      exact ⟨c, hc, l.2, by rw [← h]; exact hl⟩
    refine .sat (ecs := ecs) (cs := cs) (m := m) (sub := fun x => sub.lookup x) (corr := fun c => corr.lookup c) (k := n) ?_ ?_ ?_ hb ?_ ?_ ?_ ?_
    · simpa using h1
    · intro e; simp [e] at h2
    · refine ⟨of_decide_eq_true h3, fun c => ⟨fun hc => List.all_eq_true.1 h4 c hc, fun hc => ?_⟩⟩
      have := List.all_eq_true.1 h5 c (List.mem_range.2 (hk.keyRep c hc).2)
      simpa [hc] using this
    · intro c hc
      obtain ⟨l, hl, e⟩ := List.any_eq_true.1 (List.all_eq_true.1 h7 c hc)
      exact ⟨l, hl, by simpa using e⟩
    · intro x
      refine ⟨fun c hc => ?_, fun hx c hc => ?_⟩
      · have := List.all_eq_true.1 h8 _ (mem_of_lookup hc)
        simp only [Bool.and_eq_true] at this
        exact ⟨reg _ this.2, this.1⟩
      · obtain ⟨cl, hcl, bb, hl⟩ := hc
        have := List.all_eq_true.1 (List.all_eq_true.1 h10 cl hcl) _ hl
        simp only [hx] at this
        simpa using this
    · intro x
      refine ⟨fun c hc => ?_, fun hx c hc => ?_⟩
      · have := List.all_eq_true.1 h9 _ (mem_of_lookup hc)
        simp only [Bool.and_eq_true] at this
        exact ⟨reg _ this.2, this.1⟩
      · obtain ⟨cl, hcl, bb, hl⟩ := hc
        have := List.all_eq_true.1 (List.all_eq_true.1 h10 cl hcl) _ hl
        simp only [hx] at this
        simpa using this
    · exact of_decide_eq_true h11

namespace Run
def a : UT := .fn 1 []
def b : UT := .fn 2 []
def f (t : UT) : UT := .fn 0 [t]
def X : UT := .mv 0
def Y : UT := .mv 1
def ar : Nat → Nat := fun i => if i = 0 then 1 else 0

/-- `f(a) = b`, and the goal `f(X) = a`. The classes are `a`: 0, `f(a)` and `b`: 1, `X`: 3, `f(X)`: 4. -/
def E : List (UT × UT) := [(f a, b)]
def G : List (List (UT × UT)) := [[(f X, a)]]

/-- `X` and `a` are equal, and so are `f(X)` and `a`, for `f(X)` and `f(a)` are congruent. -/
def asg : Var → Bool
  | .S 0 0 => true
  | .E _ 0 3 => true
  | .E n 0 4 => decide (1 ≤ n)
  | .Psi 0 0 4 => true
  | .F 0 _ _ => true
  | .C 0 => true
  | .R 0 (.fn _) => true
  | .R 1 (.fn r) => decide (r.args = [])
  | .R 3 _ => true
  | .R 4 _ => true
  | .O 3 4 => true
  | .O 0 4 => true
  | _ => false

def corr : List (Nat × TR) := [(0, .fn ⟨1, [], 0⟩), (1, .fn ⟨2, [], 2⟩), (3, .mv 0 3), (4, .fn ⟨0, [3], 4⟩)]

theorem arE : ∀ e ∈ E, PairAr ar e := by simp [E, PairAr, f, a, b, ar, UT.Ar, UT.ArL]
theorem arG : ∀ g ∈ G, ∀ e ∈ g, PairAr ar e := by simp [G, PairAr, f, a, X, ar, UT.Ar, UT.ArL]

/-- `X = Y` with two metavariables. -/
def G2 : List (List (UT × UT)) := [[(X, Y)]]

def asg2 : Var → Bool
  | .S 0 1 => true
  | .S 1 0 => true
  | .E _ 0 1 => true
  | .C 0 => true
  | .R _ _ => true
  | _ => false

/-- The equation `X = a` and no goal. -/
def E3 : List (UT × UT) := [(X, a)]

/-- The goal `f(X) = f(a)`: classes `X`: 0, `f(X)`: 1, `a`: 2, `f(a)`: 3. -/
def G4 : List (List (UT × UT)) := [[(f X, f a)]]

def asg4 : Var → Bool
  | .S 0 2 => true
  | .E _ 0 2 => true
  | .E n 1 3 => decide (1 ≤ n)
  | .Psi 0 1 3 => true
  | .F 0 _ _ => true
  | .C 0 => true
  | .R _ _ => true
  | .O 0 1 => true
  | .O 2 1 => true
  | .O 2 3 => true
  | .O 0 3 => true
  | _ => false

def corr4 : List (Nat × TR) := [(0, .mv 0 0), (1, .fn ⟨0, [0], 1⟩), (2, .fn ⟨1, [], 2⟩), (3, .fn ⟨0, [2], 3⟩)]

/-- `f(a) = b`, and the goal `X = b`. -/
def G5 : List (List (UT × UT)) := [[(X, b)]]

def asg5 : Var → Bool
  | .S 0 1 => true
  | .E _ 1 3 => true
  | .C 0 => true
  | .R 0 _ => true
  | .R 1 (.fn r) => decide (r.args = [])
  | .R 3 _ => true
  | _ => false
end Run

open Run

/-- For `f(a) = b` and the goal `f(X) = a`, the substitution that maps `X` to `a` may be reported. -/
theorem violated_run : ∃ st, problem 5 E G = some st ∧ Solve st [[(0, a)]] true := by
  have h : (problem 5 E G).map (fun st => checkRun st [4, 0, 1, 3] asg [(0, 0)] corr 5 [(0, a)]) = some true := by decide +kernel
  obtain ⟨st, he, hc⟩ := Option.map_eq_some_iff.1 h
  exact ⟨st, he, solve_of_check arE arG he hc⟩

/-- **C79 fails.** The substitution `X ↦ a` is reported for the equation `f(a) = b` and the goal `f(X) = a`, but `f(a) = b` and `X = a` do
not entail `f(X) = a`: that `f(X)` and `f(a)` are congruent is taken as a reason for `f(X)` and `a` to be equal. -/
theorem C79_violated : ∃ st, problem 5 E G = some st ∧ Solve st [[(0, a)]] true ∧ ¬ Solved E G [(0, a)] := by
  obtain ⟨st, h1, h2⟩ := violated_run
  refine ⟨st, h1, h2, ?_⟩
  rintro ⟨g, hg, h⟩
  simp only [G, List.mem_singleton] at hg
  subst hg
  have := h _ (List.mem_singleton.2 rfl) Nat (fun s _ => if s = 1 then 1 else 2) (fun _ => 1) (by
    intro e he
    simp only [E, eqsOf, List.map_cons, List.map_nil, List.cons_append, List.nil_append, List.mem_cons, List.not_mem_nil, or_false] at he
    rcases he with rfl | rfl <;> simp [f, a, b, UT.eval])
  simp [f, a, UT.eval] at this

/-- **C79 fails.** Without a goal but with a metavariable, a substitution is reported although there is nothing to solve. -/
theorem C79_violated_no_goal : ∃ st, problem 5 E3 [] = some st ∧ Solve st [[]] true ∧ ¬ Solved E3 [] [] := by
  have h : (problem 5 E3 []).map (fun st => checkRun st [0] (fun v => match v with | .R _ _ => true | _ => false) []
    [(0, .fn ⟨1, [], 1⟩)] 5 []) = some true := by decide +kernel
  obtain ⟨st, he, hc⟩ := Option.map_eq_some_iff.1 h
  exact ⟨st, he, solve_of_check (ar := ar) (by simp [E3, PairAr, X, a, ar, UT.Ar, UT.ArL]) (by simp) he hc, by rintro ⟨g, hg, -⟩; cases hg⟩

theorem C79_statement_false : ¬ C79_statement := by
  intro h
  obtain ⟨st, h1, h2, h3⟩ := C79_violated
  exact h3 (h ar E G 4 st _ arE arG h1 h2 _ (List.mem_singleton.2 rfl))

/-- `C79_partial` and `C79_unifier_partial` apply to `f(a) = b` and the goal `X = b`, for which `X ↦ b` is reported. -/
example : ∃ st, problem 5 E G5 = some st ∧ Sole st ∧ Solve st [[(0, b)]] true := by
  have h : (problem 5 E G5).map (fun st => checkRun st [0, 1, 3] asg5 [(0, 1)]
    [(0, .fn ⟨1, [], 0⟩), (1, .fn ⟨2, [], 2⟩), (3, .mv 0 3)] 5 [(0, b)] && decide (∀ r ∈ st.p.funs, ∀ s ∈ st.p.funs,
      r.sym = s.sym → r.args ≠ [] → st.h.rep r.cls = st.h.rep s.cls)) = some true := by decide +kernel
  obtain ⟨st, he, hc⟩ := Option.map_eq_some_iff.1 h
  simp only [Bool.and_eq_true, decide_eq_true_eq] at hc
  refine ⟨st, he, fun r hr s hs e1 e2 e3 => absurd (hc.2 r hr s hs e1 e2) e3, solve_of_check (ar := ar) arE ?_ he hc.1⟩
  simp [G5, PairAr, X, b, ar, UT.Ar, UT.ArL]

/-- `C79_justified_partial` applies to the goal `f(X) = f(a)`, for which `X ↦ a` is reported by way of a congruence. -/
example : ∃ st cs, problem 5 [] G4 = some st ∧ build st [0, 1, 2, 3] = some cs ∧ Sat asg4 cs ∧ Justified asg4 st [0, 1, 2, 3] ∧
    asg4 (vPsi st 0 1 3) = true ∧ Solve st [[(0, a)]] true := by
  have h : (problem 5 [] G4).map (fun st => checkRun st [0, 1, 2, 3] asg4 [(0, 2)] corr4 5 [(0, a)] && (asg4 (vPsi st 0 1 3) &&
    ((build st [0, 1, 2, 3]).any fun cs => cs.all fun c => c.any fun l => asg4 l.1 == l.2) &&
    decide (∀ n < numPairs [0, 1, 2, 3], ∀ p ∈ pairs [0, 1, 2, 3], asg4 (vPsi st n p.1 p.2) = true →
      ∃ q ∈ psiPairs st p.1, st.h.rep q.2.cls = st.h.rep p.2 ∧
        ((zipArgs q.1.args q.2.args).all fun z => z.all fun a => asg4 (vE st n a.1 a.2)) = true))) = some true := by decide +kernel
  obtain ⟨st, he, hc⟩ := Option.map_eq_some_iff.1 h
  simp only [Bool.and_eq_true, decide_eq_true_eq] at hc
  obtain ⟨h1, ⟨h2, h3⟩, h4⟩ := hc
  obtain ⟨hs, h3⟩ := (Option.any_eq_true_iff_get _ _).1 h3
  obtain ⟨cs, hb⟩ := Option.isSome_iff_exists.1 hs
  simp only [hb, Option.get_some] at h3
  refine ⟨st, cs, he, hb, fun c hc => ?_, fun n hn p hp hm => ?_, h2, solve_of_check (ar := ar) (by simp) ?_ he h1⟩
  · obtain ⟨l, hl, e⟩ := List.any_eq_true.1 (List.all_eq_true.1 h3 c hc)
    exact ⟨l, hl, by simpa using e⟩
  · obtain ⟨q, hq, e, hz⟩ := h4 n hn p hp hm
    refine ⟨q, hq, e, fun z hz' a ha => ?_⟩
    rw [hz'] at hz
    exact List.all_eq_true.1 hz a ha
  · simp [G4, PairAr, f, X, a, ar, UT.Ar, UT.ArL]

/-- **C80, remark.** For the goal `X = Y` the substitution that maps `X` to `Y` and `Y` to `X` may be reported. Terms satisfy its bindings,
but no order of the metavariables eliminates them one after the other. -/
theorem C80_loop : ∃ st, problem 5 [] G2 = some st ∧ Solve st [[(1, X), (0, Y)]] true ∧ Realised [(1, X), (0, Y)] := by
  have h : (problem 5 [] G2).map (fun st => checkRun st [0, 1] asg2 [(0, 1), (1, 0)] [(0, .mv 0 0), (1, .mv 1 1)] 5 [(1, X), (0, Y)]) =
    some true := by decide +kernel
  obtain ⟨st, he, hc⟩ := Option.map_eq_some_iff.1 h
  refine ⟨st, he, solve_of_check (ar := ar) (by simp) (by simp [G2, PairAr, X, Y, UT.Ar]) he hc, fun _ => a, fun p hp => ?_⟩
  simp only [List.mem_cons, List.not_mem_nil, or_false] at hp
  rcases hp with rfl | rfl <;> simp [X, Y, UT.inst, UT.eval]

/-- The hypotheses of `C80_realised` are met by the run of `C79_violated`, whose terms have arguments. -/
example : ∃ st ecs cs m sub corr, problem 5 E G = some st ∧ Enum st ecs ∧ build st ecs = some cs ∧ Sat m cs ∧ IsSub m cs sub ∧
    IsCorr m cs corr ∧ sub 0 ≠ none := by
  obtain ⟨st, he, h⟩ := violated_run
  generalize hd : true = d at h
  generalize hl : [[(0, a)]] = l at h
  cases h with
  | ground => cases hd
  | unsat => cases hd
  | trivial => cases hl
  | sat h1 h2 hn hb hs hsub hcorr ht =>
    cases hl
    obtain ⟨c, hc, -⟩ := (mem_translateSub ht).1 (0, a) (List.mem_singleton.2 rfl)
    exact ⟨st, _, _, _, _, _, he, hn, hb, hs, hsub, hcorr, by rw [hc]; simp⟩

/-- The equations of `C39_violated`: `f(a) = c`, `f(b) = d`, `a = b`; the goal is `c = d`. -/
def E6 : List (UT × UT) := [(Sample.f Sample.a, Sample.c), (Sample.f Sample.b, Sample.d), (Sample.a, Sample.b)]
def G6 : List (List (UT × UT)) := [[(Sample.c, Sample.d)]]

theorem arE6 : ∀ e ∈ E6, PairAr Sample.ar e := by simp [E6, PairAr, UT.Ar, UT.ArL, Sample.a, Sample.b, Sample.c, Sample.d, Sample.f, Sample.ar]
theorem arG6 : ∀ g ∈ G6, ∀ e ∈ g, PairAr Sample.ar e := by simp [G6, PairAr, UT.Ar, UT.ArL, Sample.c, Sample.d, Sample.ar]

theorem bounded6 : Bounded E6 G6 [] :=
  ⟨by simp, by simp, by simp, ⟨UT.mv, by simp⟩, ⟨[(Sample.c, Sample.d)], by simp [G6], fun e he => by
    simp only [List.mem_singleton] at he
    subst he
    simpa [eqsOf, E6] using (C39_violated 0).2⟩⟩

/-- **C81 fails without metavariables.** From `f(a) = c`, `f(b) = d` and `a = b` the goal `c = d` follows, but since no metavariable
occurs the SAT problem is not built, and the answer is that there is no solution. -/
theorem C81_violated : ∃ st, problem 1 E6 G6 = some st ∧ Bounded E6 G6 [] ∧ Solve st [] false := by
  have h : (problem 1 E6 G6).map (fun st => !hasTrivialGoals st && st.p.metas.isEmpty) = some true := by decide +kernel
  obtain ⟨st, he, hc⟩ := Option.map_eq_some_iff.1 h
  simp only [Bool.and_eq_true, Bool.not_eq_true', List.isEmpty_iff] at hc
  exact ⟨st, he, bounded6, .ground hc.1 hc.2⟩

theorem C81_statement_false : ¬ C81_statement := by
  intro h
  obtain ⟨st, h1, h2, h3⟩ := C81_violated
  exact absurd (h Sample.ar E6 G6 0 st [] arE6 arG6 h1 h2 _ _ h3) (by simp)

/-- With an equation `X = X` about an unrelated metavariable, the same goal is reached: `C81_partial` applies. -/
example (st : St) (he : problem 1 (E6 ++ [(X, X)]) G6 = some st) (subs : List (List (Nat × UT))) (ok : Bool) (h : Solve st subs ok) :
    ok = true := by
  refine C81_partial Sample.ar (E6 ++ [(X, X)]) G6 0 st [] ?_ arG6 he ?_ 0 ?_ subs ok h
  · intro e hm
    rcases List.mem_append.1 hm with hm | hm
    · exact arE6 e hm
    · simp only [List.mem_singleton] at hm
      subst hm
      simp [PairAr, X, UT.Ar]
  · obtain ⟨h1, h2, h3, h4, g, hg, h5⟩ := bounded6
    refine ⟨by simp, by simp, by simp, h4, g, hg, fun e hm D A σ hs => h5 e hm D A σ fun e' he' => hs e' ?_⟩
    simp only [eqsOf, List.map_nil, List.append_nil] at he' ⊢
    simp [he']
  · exact Or.inl ⟨(X, X), by simp, Or.inl .refl⟩

/-- `f(X) = f(a)` has the solution `X ↦ a` among its terms. -/
example : Bounded [] G4 [(0, a)] := by
  have hs : Sub a (f a) := .arg (List.mem_singleton.2 rfl) .refl
  have hx : Sub (.mv 0) (f X) := .arg (List.mem_singleton.2 rfl) .refl
  refine ⟨?_, ?_, ?_, ⟨fun _ => a, ?_⟩, ⟨[(f X, f a)], by simp [G4], fun e he => ?_⟩⟩
  · intro p hp
    simp only [List.mem_singleton] at hp
    subst hp
    exact Or.inr ⟨_, List.mem_singleton.2 rfl, _, List.mem_singleton.2 rfl, Or.inl hx⟩
  · intro p hp
    simp only [List.mem_singleton] at hp
    subst hp
    exact Or.inr ⟨_, List.mem_singleton.2 rfl, _, List.mem_singleton.2 rfl, Or.inr hs⟩
  · intro p hp q hq _
    simp only [List.mem_singleton] at hp hq
    rw [hp, hq]
  · intro p hp
    simp only [List.mem_singleton] at hp
    subst hp
    rfl
  · simp only [List.mem_singleton] at he
    subst he
    intro D A σ h
    have := h (.mv 0, a) (by simp [eqsOf])
    simp only [UT.eval] at this
    simp only [f, X, UT.eval, UT.evalL, this]

end Verif.Equality.Sat
