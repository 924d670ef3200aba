import Verif.Typing.Check
/-!
# C37: schedules of the type checker

Every schedule ends; on formulas in prenex form all schedules agree; concrete formulas show that
arguments are not compared with their expected types and that schedules may disagree.
-/
set_option linter.unusedSimpArgs false

namespace Verif.Typing
open Verif.AST Verif.AST.Full Verif.Lib Verif.Lib.Alias

/-! ### Every schedule ends -/

mutual
/-- Number of checks started for a type. -/
def costTy : Ty → Nat
  | .constr _ l => 1 + costTyL l
  | _ => 1
def costTyL : List Ty → Nat
  | [] => 0
  | a :: l => costTy a + costTyL l
end

mutual
/-- A bound for the number of checks started for a term. -/
def costT (env : Env) : GTerm → Ty → Nat
  | .var _ _, ty => 1 + costTy ty
  | .mv _ _ _ _ _, _ => 1
  | .fn _ f tys args, _ =>
    match sigOf env f (GTy.eraseL tys) args.length with
    | some s => 1 + costTL env args s.1 + costTyL (GTy.eraseL tys ++ [s.2])
    | none => 1
def costTL (env : Env) : List GTerm → List Ty → Nat
  | [], _ => 0
  | t :: l, tys => match tys with
    | [] => 0
    | ty :: tys => costT env t ty + costTL env l tys
end

mutual
/-- A bound for the number of checks started for a formula. -/
def costF (env : Env) : GForm → Nat
  | .top _ => 1
  | .bot _ => 1
  | .pred _ _ p tys args =>
    match sigOf env p (GTy.eraseL tys) args.length with
    | some s => 1 + costTL env args s.1 + costTyL (GTy.eraseL tys ++ [s.2])
    | none => 1
  | .neg _ f => 1 + costF env f
  | .and _ fs => 1 + costFL env fs
  | .or _ fs => 1 + costFL env fs
  | .imp _ f g => 1 + costF env f + costF env g
  | .equ _ f g => 1 + costF env f + costF env g
  | .all _ vs f => 1 + vs.length + costF env f
  | .ex _ vs f => 1 + vs.length + costF env f
def costFL (env : Env) : List GForm → Nat
  | [] => 0
  | f :: fs => costF env f + costFL env fs
end

def cost (env : Env) : Task → Nat
  | .form _ f => costF env f
  | .term _ t ty => costT env t ty
  | .type _ ty => costTy ty

def costs (env : Env) : List Task → Nat
  | [] => 0
  | t :: l => cost env t + costs env l

theorem costs_append (env : Env) (l m : List Task) : costs env (l ++ m) = costs env l + costs env m := by
  induction l with
  | nil => simp [costs]
  | cons t l ih => simp [costs, ih]; omega

theorem costs_types (env : Env) (con : Option Nat) (l : List Ty) :
    costs env (l.map (.type con)) = costTyL l := by
  induction l with
  | nil => rfl
  | cons t l ih => simp [costs, costTyL, cost, ih]

theorem costs_forms (env : Env) (con : Option Nat) (l : List GForm) :
    costs env (l.map (.form con)) = costFL env l := by
  induction l with
  | nil => rfl
  | cons t l ih => simp [costs, costFL, cost, ih]

theorem costs_terms (env : Env) (con : Option Nat) : ∀ (l : List GTerm) (as : List Ty),
    costs env ((l.zip as).map fun p => .term con p.1 p.2) = costTL env l as
  | [], as => by simp [costs, costTL]
  | t :: l, [] => by simp [costs, costTL]
  | t :: l, a :: as => by simp [costs, costTL, cost, costs_terms env con l as]

theorem exec_cost {env : Env} {H H' : Mem (String × Ty)} {t : Task} {new : List Task}
    (h : exec env H t = some (H', new)) : costs env new < cost env t := by
  cases t with
  | type con ty =>
    cases ty <;> simp only [exec] at h
    all_goals first
      | (simp at h; done)
      | (split at h
         · cases h; simp [costs, cost, costTy]
         · simp at h)
      | (simp only [Option.bind_eq_some_iff, Option.ite_none_right_eq_some, Option.some.injEq,
           Prod.mk.injEq] at h
         obtain ⟨_, _, _, _, _, rfl, rfl⟩ := h
         simp only [costs_types, cost, costTy]; omega)
  | term con t ty =>
    cases t with
    | var i x =>
      simp only [exec] at h
      split at h
      · cases h; simp only [costs, cost, costT]; omega
      · simp at h
    | mv => simp [exec] at h
    | fn i f tys args =>
      simp only [exec, checkFunctional, Option.map_eq_some_iff, Prod.mk.injEq] at h
      obtain ⟨l, ⟨s, h1, h2⟩, rfl, rfl⟩ := h
      subst h2
      simp only [costs_append, costs_terms, costs_types, cost, costT, h1]
      omega
  | form con f =>
    cases f with
    | top => simp only [exec, Option.some.injEq, Prod.mk.injEq] at h
             obtain ⟨rfl, rfl⟩ := h
             simp [costs, cost, costF]
    | bot => simp only [exec, Option.some.injEq, Prod.mk.injEq] at h
             obtain ⟨rfl, rfl⟩ := h
             simp [costs, cost, costF]
    | pred i j name tys args =>
      simp only [exec, checkFunctional, Option.map_eq_some_iff, Prod.mk.injEq] at h
      obtain ⟨l, ⟨s, h1, h2⟩, rfl, rfl⟩ := h
      subst h2
      simp only [costs_append, costs_terms, costs_types, cost, costF, h1]
      omega
    | neg i f =>
      simp only [exec, Option.some.injEq, Prod.mk.injEq] at h
      obtain ⟨rfl, rfl⟩ := h
      simp only [costs, cost, costF]; omega
    | and i fs =>
      simp only [exec, Option.some.injEq, Prod.mk.injEq] at h
      obtain ⟨rfl, rfl⟩ := h
      simp only [costs_forms, cost, costF]; omega
    | or i fs =>
      simp only [exec, Option.some.injEq, Prod.mk.injEq] at h
      obtain ⟨rfl, rfl⟩ := h
      simp only [costs_forms, cost, costF]; omega
    | imp i f g =>
      simp only [exec, Option.some.injEq, Prod.mk.injEq] at h
      obtain ⟨rfl, rfl⟩ := h
      simp only [costs, cost, costF]; omega
    | equ i f g =>
      simp only [exec, Option.some.injEq, Prod.mk.injEq] at h
      obtain ⟨rfl, rfl⟩ := h
      simp only [costs, cost, costF]; omega
    | all i vs f =>
      cases vs with
      | nil =>
        simp only [exec, Option.some.injEq, Prod.mk.injEq] at h
        obtain ⟨rfl, rfl⟩ := h
        simp only [costs, cost, costF, List.length_nil]; omega
      | cons v vs =>
        simp only [exec, Option.map_eq_some_iff, Prod.mk.injEq] at h
        obtain ⟨q, h1, rfl, rfl⟩ := h
        simp only [costs, cost, costF, List.length_cons]; omega
    | ex i vs f =>
      cases vs with
      | nil =>
        simp only [exec, Option.some.injEq, Prod.mk.injEq] at h
        obtain ⟨rfl, rfl⟩ := h
        simp only [costs, cost, costF, List.length_nil]; omega
      | cons v vs =>
        simp only [exec, Option.map_eq_some_iff, Prod.mk.injEq] at h
        obtain ⟨q, h1, rfl, rfl⟩ := h
        simp only [costs, cost, costF, List.length_cons]; omega

/-- Runs of a given number of steps. -/
inductive Steps (env : Env) : Nat → St → Option St → Prop
  | refl {s} : Steps env 0 s (some s)
  | step {n s i s' r} : stepAt env s i = some (some s') → Steps env n s' r → Steps env (n + 1) s r
  | dead {s i} : stepAt env s i = some none → Steps env 1 s none

/-- C37, every schedule gives an answer: a run from a formula has a bounded number of steps, and a run
that has neither accepted nor rejected can go on with any of its pending checks. -/
theorem C37_every_schedule_ends (env : Env) (f : GForm) :
    (∃ N, ∀ n r, Steps env n (start f) r → n ≤ N) ∧
    (∀ s : St, s.pool ≠ [] → ∀ i < s.pool.length, ∃ r, stepAt env s i = some r) := by
  have key : ∀ n s r, Steps env n s r → n ≤ costs env s.pool := by
    intro n s r h
    induction h with
    | refl => omega
    | @step n s i s' r hs _ ih =>
      simp only [stepAt, Option.map_eq_some_iff] at hs
      obtain ⟨t, ht, ⟨H', new⟩, hx, hs⟩ := hs
      subst hs
      have h1 := exec_cost hx
      have h2 := congrArg (costs env) (split_pool ht)
      simp only [costs_append, costs] at h2 ih
      omega
    | @dead s i hs =>
      simp only [stepAt, Option.map_eq_some_iff] at hs
      obtain ⟨t, ht, hs⟩ := hs
      have h2 := congrArg (costs env) (split_pool ht)
      simp only [costs_append, costs] at h2
      have h3 : 1 ≤ cost env t := by
        cases t with
        | type con ty => cases ty <;> simp [cost, costTy]
        | term con t ty =>
          cases t with
          | var => simp [cost, costT]
          | mv => simp [cost, costT]
          | fn => simp only [cost, costT]; split <;> omega
        | form con f =>
          cases f with
          | pred => simp only [cost, costF]; split <;> omega
          | _ => simp only [cost, costF]; omega
      omega
  refine ⟨⟨costs env (start f).pool, fun n r h => key n _ r h⟩, fun s _ i hi => ?_⟩
  simp [stepAt, List.getElem?_eq_getElem hi]

/-! ### Prenex formulas: all schedules agree -/

mutual
/-- No quantifier. -/
def qf : GForm → Prop
  | .top _ => True
  | .bot _ => True
  | .pred _ _ _ _ _ => True
  | .neg _ f => qf f
  | .and _ fs => qfL fs
  | .or _ fs => qfL fs
  | .imp _ f g => qf f ∧ qf g
  | .equ _ f g => qf f ∧ qf g
  | .all _ _ _ => False
  | .ex _ _ _ => False
def qfL : List GForm → Prop
  | [] => True
  | f :: fs => qf f ∧ qfL fs
end

/-- All quantifiers are in front. -/
inductive Prenex : GForm → Prop
  | qf {f} : qf f → Prenex f
  | all {i vs f} : Prenex f → Prenex (.all i vs f)
  | ex {i vs f} : Prenex f → Prenex (.ex i vs f)

def Task.qf : Task → Prop
  | .form _ f => Typing.qf f
  | _ => True

theorem qfL_mem : ∀ {fs : List GForm}, qfL fs → ∀ f ∈ fs, qf f
  | f :: fs, h, g, hg => by
    rcases List.mem_cons.1 hg with rfl | hg
    · exact h.1
    · exact qfL_mem h.2 g hg

theorem checkFunctional_qf {env : Env} {con : Option Nat} {name : String} {tys : List Ty}
    {args : List GTerm} {new : List Task} (h : checkFunctional env con name tys args = some new) :
    ∀ t ∈ new, t.qf := by
  simp only [checkFunctional, Option.map_eq_some_iff] at h
  obtain ⟨⟨as, o⟩, _, rfl⟩ := h
  intro t ht
  simp only [List.mem_append, List.mem_map] at ht
  rcases ht with ⟨p, _, rfl⟩ | ⟨p, _, rfl⟩ <;> trivial

theorem exec_qf {env : Env} {H H' : Mem (String × Ty)} {t : Task} {new : List Task}
    (h : exec env H t = some (H', new)) (hq : t.qf) : H' = H ∧ ∀ n ∈ new, n.qf := by
  cases t with
  | type con ty =>
    cases ty <;> simp only [exec] at h
    all_goals first
      | (simp at h; done)
      | (split at h
         · cases h; simp
         · simp at h)
      | (simp only [Option.bind_eq_some_iff, Option.ite_none_right_eq_some, Option.some.injEq,
           Prod.mk.injEq] at h
         obtain ⟨_, _, _, _, _, rfl, rfl⟩ := h
         simp [Task.qf])
  | term con t ty =>
    cases t with
    | var i x =>
      simp only [exec] at h
      split at h
      · cases h; simp [Task.qf]
      · simp at h
    | mv => simp [exec] at h
    | fn i f tys args =>
      simp only [exec, Option.map_eq_some_iff, Prod.mk.injEq] at h
      obtain ⟨l, h1, rfl, rfl⟩ := h
      exact ⟨rfl, checkFunctional_qf h1⟩
  | form con f =>
    cases f with
    | top => simp only [exec, Option.some.injEq, Prod.mk.injEq] at h
             obtain ⟨rfl, rfl⟩ := h
             simp
    | bot => simp only [exec, Option.some.injEq, Prod.mk.injEq] at h
             obtain ⟨rfl, rfl⟩ := h
             simp
    | pred i j name tys args =>
      simp only [exec, Option.map_eq_some_iff, Prod.mk.injEq] at h
      obtain ⟨l, h1, rfl, rfl⟩ := h
      exact ⟨rfl, checkFunctional_qf h1⟩
    | neg i f =>
      simp only [exec, Option.some.injEq, Prod.mk.injEq] at h
      obtain ⟨rfl, rfl⟩ := h
      exact ⟨rfl, by simpa [Task.qf, Typing.qf] using hq⟩
    | and i fs =>
      simp only [exec, Option.some.injEq, Prod.mk.injEq] at h
      obtain ⟨rfl, rfl⟩ := h
      refine ⟨rfl, fun n hn => ?_⟩
      obtain ⟨f, hf, rfl⟩ := List.mem_map.1 hn
      exact qfL_mem hq f hf
    | or i fs =>
      simp only [exec, Option.some.injEq, Prod.mk.injEq] at h
      obtain ⟨rfl, rfl⟩ := h
      refine ⟨rfl, fun n hn => ?_⟩
      obtain ⟨f, hf, rfl⟩ := List.mem_map.1 hn
      exact qfL_mem hq f hf
    | imp i f g =>
      simp only [exec, Option.some.injEq, Prod.mk.injEq] at h
      obtain ⟨rfl, rfl⟩ := h
      exact ⟨rfl, by simpa [Task.qf, Typing.qf] using hq⟩
    | equ i f g =>
      simp only [exec, Option.some.injEq, Prod.mk.injEq] at h
      obtain ⟨rfl, rfl⟩ := h
      exact ⟨rfl, by simpa [Task.qf, Typing.qf] using hq⟩
    | all i vs f => simp [Task.qf, Typing.qf] at hq
    | ex i vs f => simp [Task.qf, Typing.qf] at hq

/-- A check that is accepted when the contexts do not change. -/
inductive Ok (env : Env) (H : Mem (String × Ty)) : Task → Prop
  | mk {t new} : exec env H t = some (H, new) → (∀ n ∈ new, Ok env H n) → Ok env H t

theorem qf_accept {env : Env} {s : St} {r : Option St} (h : Run env s r) : ∀ H, r = some ⟨H, []⟩ →
    (∀ t ∈ s.pool, t.qf) → ∀ t ∈ s.pool, Ok env s.mem t := by
  induction h with
  | refl => intro H e _ t ht; cases e; simp at ht
  | dead _ => intro H e; simp at e
  | @step s i s' r hs _ ih =>
    intro H e hq
    simp only [stepAt, Option.map_eq_some_iff] at hs
    obtain ⟨t, ht, ⟨H', new⟩, hx, hs⟩ := hs
    have hp := split_pool ht
    obtain ⟨rfl, hn⟩ := exec_qf hx (hq t (by rw [hp]; simp))
    subst hs
    have := ih H e (by
      intro u hu
      simp only [List.mem_append] at hu
      rcases hu with (hu | hu) | hu
      · exact hq u (by rw [hp]; simp [hu])
      · exact hn u hu
      · exact hq u (by rw [hp]; simp [hu]))
    intro u hu
    rw [hp] at hu
    simp only [List.mem_append, List.mem_cons] at hu this
    rcases hu with hu | rfl | hu
    · exact this u (.inl (.inl hu))
    · exact .mk hx fun n hn => this n (.inl (.inr hn))
    · exact this u (.inr hu)

theorem qf_reject {env : Env} {s : St} {r : Option St} (h : Run env s r) : r = none →
    (∀ t ∈ s.pool, t.qf) → ∃ t ∈ s.pool, ¬ Ok env s.mem t := by
  induction h with
  | refl => intro e; simp at e
  | @dead s i hs =>
    intro _ _
    simp only [stepAt, Option.map_eq_some_iff] at hs
    obtain ⟨t, ht, hs⟩ := hs
    have hx : exec env s.mem t = none := by simpa using hs
    refine ⟨t, List.mem_of_getElem? ht, ?_⟩
    rintro ⟨h1, _⟩
    rw [hx] at h1; simp at h1
  | @step s i s' r hs _ ih =>
    intro e hq
    simp only [stepAt, Option.map_eq_some_iff] at hs
    obtain ⟨t, ht, ⟨H', new⟩, hx, hs⟩ := hs
    have hp := split_pool ht
    obtain ⟨rfl, hn⟩ := exec_qf hx (hq t (by rw [hp]; simp))
    subst hs
    obtain ⟨u, hu, hk⟩ := ih e (by
      intro u hu
      simp only [List.mem_append] at hu
      rcases hu with (hu | hu) | hu
      · exact hq u (by rw [hp]; simp [hu])
      · exact hn u hu
      · exact hq u (by rw [hp]; simp [hu]))
    simp only [List.mem_append] at hu
    rcases hu with (hu | hu) | hu
    · exact ⟨u, by rw [hp]; simp [hu], hk⟩
    · refine ⟨t, by rw [hp]; simp, ?_⟩
      rintro ⟨h1, h2⟩
      rw [hx] at h1
      cases h1
      exact hk (h2 u hu)
    · exact ⟨u, by rw [hp]; simp [hu], hk⟩

/-- A single pending check: the first step of every run is the same. -/
theorem single_run {env : Env} {H : Mem (String × Ty)} {t : Task} {r : Option St}
    (h : Run env ⟨H, [t]⟩ r) : r = some ⟨H, [t]⟩ ∨ (exec env H t = none ∧ r = none) ∨
      ∃ H' new, exec env H t = some (H', new) ∧ Run env ⟨H', new⟩ r := by
  cases h with
  | refl => exact .inl rfl
  | @dead _ i hs =>
    cases i with
    | zero => simp [stepAt] at hs; exact .inr (.inl ⟨hs, rfl⟩)
    | succ i => simp [stepAt] at hs
  | @step _ i s' _ hs hr =>
    cases i with
    | zero =>
      simp only [stepAt, List.getElem?_cons_zero, Option.map_some, Option.some.injEq,
        Option.map_eq_some_iff] at hs
      obtain ⟨⟨H', new⟩, h1, h2⟩ := hs
      subst h2
      exact .inr (.inr ⟨H', new, h1, by simpa using hr⟩)
    | succ i => simp [stepAt] at hs

/-- C37, schedules: no two schedules disagree on a formula with all its quantifiers in front. What is
missing: other formulas (`C37_violated_schedule`). -/
theorem C37_prenex_schedules_partial (env : Env) (f : GForm) (hp : Prenex f) :
    ¬ (Accepts env f ∧ Rejects env f) := by
  have agree : ∀ (t : Task) (H : Mem (String × Ty)),
      (∀ H' new K, exec env H t = some (H', new) → Run env ⟨H', new⟩ (some ⟨K, []⟩) →
        Run env ⟨H', new⟩ none → False) →
      ∀ K, Run env ⟨H, [t]⟩ (some ⟨K, []⟩) → Run env ⟨H, [t]⟩ none → False := by
    intro t H h K h1 h2
    rcases single_run h1 with h1 | h1 | ⟨H', new, e1, h1⟩
    · simp at h1
    · simp at h1
    · rcases single_run h2 with h2 | h2 | ⟨H'', new', e2, h2⟩
      · simp at h2
      · rw [e1] at h2; simp at h2
      · rw [e1] at e2
        cases e2
        exact h H' new K e1 h1 h2
  have key : ∀ f, Prenex f → ∀ H con K, Run env ⟨H, [.form con f]⟩ (some ⟨K, []⟩) →
      Run env ⟨H, [.form con f]⟩ none → False := by
    intro f hp
    induction hp with
    | @qf f hq =>
      intro H con K h1 h2
      have hall : ∀ t ∈ [Task.form con f], t.qf := by simp [Task.qf, hq]
      obtain ⟨t, ht, hk⟩ := qf_reject h2 rfl hall
      exact hk (qf_accept h1 K rfl hall t ht)
    | @all i vs f _ ih =>
      induction vs with
      | nil =>
        intro H con
        refine agree _ _ fun H' new K e h1 h2 => ?_
        simp only [exec, Option.some.injEq, Prod.mk.injEq] at e
        obtain ⟨rfl, rfl⟩ := e
        exact ih _ _ K h1 h2
      | cons v vs ih' =>
        intro H con
        refine agree _ _ fun H' new K e h1 h2 => ?_
        simp only [exec, Option.map_eq_some_iff, Prod.mk.injEq] at e
        obtain ⟨q, _, rfl, rfl⟩ := e
        exact ih' _ _ K h1 h2
    | @ex i vs f _ ih =>
      induction vs with
      | nil =>
        intro H con
        refine agree _ _ fun H' new K e h1 h2 => ?_
        simp only [exec, Option.some.injEq, Prod.mk.injEq] at e
        obtain ⟨rfl, rfl⟩ := e
        exact ih _ _ K h1 h2
      | cons v vs ih' =>
        intro H con
        refine agree _ _ fun H' new K e h1 h2 => ?_
        simp only [exec, Option.map_eq_some_iff, Prod.mk.injEq] at e
        obtain ⟨q, _, rfl, rfl⟩ := e
        exact ih' _ _ K h1 h2
  rintro ⟨⟨K, h1⟩, h2⟩
  exact key f hp _ _ K h1 h2

/-! ### Concrete runs -/

/-- Follows a scheduler for a number of steps; `none` when the process ended. -/
def play (env : Env) (pick : List Task → Nat) : Nat → St → Option St
  | 0, s => some s
  | n + 1, s =>
    match stepAt env s (pick s.pool) with
    | none => some s
    | some none => none
    | some (some s') => play env pick n s'

theorem play_run {env : Env} {pick : List Task → Nat} : ∀ (n : Nat) (s : St),
    Run env s (play env pick n s)
  | 0, s => .refl
  | n + 1, s => by
    simp only [play]
    split
    · exact .refl
    · rename_i h; exact .dead h
    · rename_i s' h; exact .step h (play_run n s')

/-- The first pending check. -/
def first (_ : List Task) : Nat := 0
/-- The last pending check. -/
def last (l : List Task) : Nat := l.length - 1

theorem accepts_of_play {env : Env} {f : GForm} (pick : List Task → Nat) (n : Nat)
    (h : (play env pick n (start f)).map (fun s => s.pool.isEmpty) = some true) : Accepts env f := by
  have hr := play_run (env := env) (pick := pick) n (start f)
  cases e : play env pick n (start f) with
  | none => simp [e] at h
  | some s =>
    rw [e] at hr h
    obtain ⟨H, pool⟩ := s
    simp at h
    subst h
    exact ⟨H, hr⟩

theorem rejects_of_play {env : Env} {f : GForm} (pick : List Task → Nat) (n : Nat)
    (h : (play env pick n (start f)).isNone = true) : Rejects env f := by
  have hr := play_run (env := env) (pick := pick) n (start f)
  cases e : play env pick n (start f) with
  | none => rw [e] at hr; exact hr
  | some s => simp [e] at h

/-- An environment: `p : ($i * $i) > $o`, `r : $int > $o`, `f : $i > $i`, `a : $i` and the native types
(src/Typing/init.go:64-67). -/
def sampleEnv : Env := fun s =>
  if s = "p" then some (.func (.prod [tInd, tInd]) tProp)
  else if s = "r" then some (.func (.constr "$int" []) tProp)
  else if s = "f" then some (.func tInd tInd)
  else if s = "a" then some tInd
  else if s = "$i" ∨ s = "$o" ∨ s = "$int" ∨ s = "$tType" then some tType
  else none

def gInd : GTy := .constr "$i" []
def gv (i : Nat) (x : String) : GTerm := .var i x
def tv (i : Nat) (x : String) : GTypedVar := ⟨x, i, gInd⟩

/-- `![A, B]: p(f(A), B)`: closed, distinct binders, prenex and accepted: the hypotheses of
`C37_accepted_partial` and of `C37_prenex_schedules_partial`. -/
def goodForm : GForm :=
  .all 0 [tv 1 "A", tv 2 "B"] (.pred 0 5 "p" [] [.fn 6 "f" [] [gv 1 "A"], gv 2 "B"])

example : Accepts sampleEnv goodForm ∧ closedF [] goodForm ∧ ((binders goodForm).map (·.1)).Nodup ∧
    Prenex goodForm := by
  refine ⟨accepts_of_play first 50 (by decide +kernel), ?_, by decide +kernel, .all (.qf ?_)⟩
  · simp [goodForm, closedF, closedTL, closedT, gv, tv]
  · simp [qf]

/-- `r(a)`: a constant of type `$i` for an argument of type `$int`. -/
def badArg : GForm := .pred 0 7 "r" [] [.fn 8 "a" [] []]

/-- C37 fails: an argument that is an application is not compared with the type expected
(`typecheckTerm`, src/Typing/rules.go:130-137, ignores it). The closed formula `r(a)` is accepted with
`r : $int > $o` and `a : $i`. -/
theorem C37_violated_argument : Accepts sampleEnv badArg ∧ ¬ WellTyped sampleEnv (fun _ => none) badArg := by
  refine ⟨accepts_of_play first 20 (by decide +kernel), ?_⟩
  rintro ⟨scheme, sig, as, out, h1, h2, h3, h4⟩
  have e1 : scheme = .func (.constr "$int" []) tProp := by
    have : sampleEnv "r" = some (.func (.constr "$int" []) tProp) := by decide +kernel
    rw [this] at h1; exact (Option.some.inj h1).symm
  subst e1
  cases h2 with
  | mono _ =>
    cases h3 with
    | one _ =>
      cases h4 with
      | cons h4 _ =>
        cases h4 with
        | fn g1 g2 g3 _ =>
          have e2 : sampleEnv "a" = some tInd := by decide +kernel
          rw [e2] at g1
          cases g1
          cases g2 with
          | mono _ =>
            have key : ∀ {t as out}, Sig t as out → t = tInd → out = tInd := by
              intro t as out h e
              cases h with
              | const => exact e
              | many => simp [tInd] at e
              | one _ => simp [tInd] at e
            have := key g3 rfl
            simp [tInd] at this

/-- `f(a)` as a formula, with `f : $i > $i`. -/
def badPred : GForm := .pred 0 6 "f" [] [.fn 8 "a" [] []]

/-- A function may be used as a predicate. -/
theorem C37_function_as_predicate : Accepts sampleEnv badPred ∧
    (sampleEnv "f").bind getOut = some tInd :=
  ⟨accepts_of_play first 20 (by decide +kernel), by decide +kernel⟩

/-- `![A, B]: ((![C]: p(A, C)) & p(A, B))`. -/
def racy : GForm :=
  .all 0 [tv 1 "A", tv 2 "B"]
    (.and 0 [.all 0 [tv 3 "C"] (.pred 0 5 "p" [] [gv 1 "A", gv 3 "C"]),
      .pred 0 5 "p" [] [gv 1 "A", gv 2 "B"]])

/-- C37 fails: the answer depends on the schedule. The context of the quantifiers is shared by the
checks of the two members of the conjunction. If the check of the first member adds `C` to it before
the second is checked, the rotation of the search tree takes `B` away from the second one, which is
then rejected. The formula is well typed, closed and has distinct binders. -/
theorem C37_violated_schedule : Accepts sampleEnv racy ∧ Rejects sampleEnv racy ∧
    WellTyped sampleEnv (fun _ => none) racy ∧ closedF [] racy ∧ ((binders racy).map (·.1)).Nodup := by
  refine ⟨accepts_of_play last 50 (by decide +kernel), rejects_of_play first 50 (by decide +kernel), ?_, ?_,
    by decide +kernel⟩
  · have hp : sampleEnv "p" = some (.func (.prod [tInd, tInd]) tProp) := by decide +kernel
    simp only [racy, WellTyped, WellTypedL]
    refine ⟨⟨_, _, _, _, hp, .mono (by simp), .many, .cons (.var ?_) (.cons (.var ?_) .nil)⟩,
      ⟨_, _, _, _, hp, .mono (by simp), .many, .cons (.var ?_) (.cons (.var ?_) .nil)⟩, trivial⟩ <;>
    · simp [extend, tv, gInd, GTy.erase, GTy.eraseL, tInd]
  · simp [racy, closedF, closedFL, closedTL, closedT, gv, tv]

/-- The full claim of C37 is false. -/
theorem C37_statement_false : ¬ C37_statement := by
  intro h
  exact C37_violated_argument.2 ((h sampleEnv badArg).1 C37_violated_argument.1)

end Verif.Typing
