import Verif.Equality.Congruence

/-!
# Copying equality problems (`Problem.Copy`, `BasicEqualityStruct.Copy`)

Every branch works on a copy of the equality problem of its father (`State.GetEqStruct`, src/Search/state.go:144-146).
-/

namespace Verif.Equality
open Verif.Unif

/-! ### The SAT-based problem -/

/-- `Problem.Copy` (src/Mods/equality/sateq/problem.go:264-311): lists and maps are copied, the pointers in them (classes and term
records) are not. The copy therefore lives on the same classes. -/
def Pb.copy (p : Pb) : Pb := ⟨p.funs, p.metas, p.super, p.goals⟩

/-- What is done with one of two problems after the copy. -/
inductive POp where
  | assume (e : UT × UT)
  | goal (g : List (UT × UT))

def POp.run (k : Nat) (st : St) : POp → Option St
  | .assume e => addAssumption k st e
  | .goal g => addGoal st g

/-- The full property: additions to the copy do not change the answer of the original. -/
def C41_statement : Prop := ∀ (ar : Nat → Nat) (E : List (UT × UT)) (gs : List (List (UT × UT))) (ops : List POp) (st st' : St) (k : Nat),
  (∀ e ∈ E, PairAr ar e) → (∀ g ∈ gs, ∀ e ∈ g, PairAr ar e) →
  final k E gs = some st → ops.foldlM (POp.run k) ⟨st.h, st.p.copy⟩ = some st' →
  hasTrivialGoals ⟨st'.h, st.p⟩ = hasTrivialGoals st

open Sample in
/-- **C41 violated.** A problem without assumptions and with the goal `a = b` is copied, and `a = b` is assumed in the copy: now the
original, in another branch of the proof, reports its goal as solved. -/
theorem C41_violated : ∃ st st', final 1 [] [[(a, b)]] = some st ∧ [POp.assume (a, b)].foldlM (POp.run 1) ⟨st.h, st.p.copy⟩ = some st' ∧
    hasTrivialGoals st = false ∧ hasTrivialGoals ⟨st'.h, st.p⟩ = true := by
  have h : (final 1 [] [[(a, b)]]).bind (fun st => ([POp.assume (a, b)].foldlM (POp.run 1) ⟨st.h, st.p.copy⟩).map fun st' =>
      (hasTrivialGoals st, hasTrivialGoals ⟨st'.h, st.p⟩)) = some (false, true) := by decide +kernel
  simp only [Option.bind_eq_some_iff, Option.map_eq_some_iff, Prod.mk.injEq] at h
  obtain ⟨st, h1, st', h2, h3, h4⟩ := h
  exact ⟨st, st', h1, h2, h3, h4⟩

open Sample in
theorem C41_statement_false : ¬ C41_statement := by
  intro h
  obtain ⟨st, st', h1, h2, h3, h4⟩ := C41_violated
  have := h Sample.ar [] [[(a, b)]] [POp.assume (a, b)] st st' 1 (by simp) (by simp [PairAr, UT.Ar, UT.ArL, a, b, Sample.ar]) h1 h2
  rw [h3, h4] at this
  exact absurd this (by simp)

open Sample in
/-- Worse: an assumption added to the copy can make the original panic, because the representative of one of its classes is a class it
has no entry for. -/
theorem C41_violated_panic : ∃ st st', final 1 [] [[(a, b)]] = some st ∧ [POp.assume (c, a)].foldlM (POp.run 1) ⟨st.h, st.p.copy⟩ = some st' ∧
    (addAssumption 1 st (a, b)).isSome = true ∧ (addAssumption 1 ⟨st'.h, st.p⟩ (a, b)).isSome = false ∧
    (addAssumption 100 ⟨st'.h, st.p⟩ (a, b)).isSome = false := by
  have h : (final 1 [] [[(a, b)]]).bind (fun st => ([POp.assume (c, a)].foldlM (POp.run 1) ⟨st.h, st.p.copy⟩).map fun st' =>
      ((addAssumption 1 st (a, b)).isSome, (addAssumption 1 ⟨st'.h, st.p⟩ (a, b)).isSome,
        (addAssumption 100 ⟨st'.h, st.p⟩ (a, b)).isSome)) = some (true, false, false) := by decide +kernel
  simp only [Option.bind_eq_some_iff, Option.map_eq_some_iff, Prod.mk.injEq] at h
  obtain ⟨st, h1, st', h2, h3, h4, h5⟩ := h
  exact ⟨st, st', h1, h2, h3, h4, h5⟩

/-! #### Problems with classes of their own

During a search only problems without terms are copied (`RunEqualityReasoning` works on a copy that is dropped afterwards,
src/Mods/equality/bse/equality.go:70 and src/Search/state.go:405-407), so that the copy shares no class with any other problem. -/

/-- A problem that only uses classes created since the number of classes was `n`; older ones are as they were. -/
structure Apart (n : Nat) (rep0 : Nat → Nat) (st : St) : Prop where
  next : n ≤ st.h.next
  old : ∀ c, c < n → st.h.rep c = rep0 c
  lt : ∀ c, c < n → st.h.rep c < n
  new : ∀ c, n ≤ c → n ≤ st.h.rep c
  funs : ∀ r ∈ st.p.funs, n ≤ r.cls
  args : ∀ r ∈ st.p.funs, ∀ a ∈ r.args, n ≤ a
  metas : ∀ e ∈ st.p.metas, n ≤ e.2
  sup : ∀ c l, st.p.super c = some l → ∀ r ∈ l, n ≤ r.cls

theorem findCongruent_mem (rep : Nat → Nat) (t r : Rec) (l : List Rec) (h : findCongruent rep t l = some (some r)) : r ∈ l := by
  induction l with
  | nil => simp [findCongruent] at h
  | cons x l ih =>
    simp only [findCongruent] at h
    split at h
    · cases hc : recCongruent rep t x with
      | none => rw [hc] at h; cases h
      | some b =>
        rw [hc] at h
        simp only [Option.bind_some] at h
        split at h
        · cases h; simp
        · exact List.mem_cons_of_mem _ (ih h)
    · exact List.mem_cons_of_mem _ (ih h)

theorem apart_newClass {n : Nat} {rep0 : Nat → Nat} {st : St} (h : Apart n rep0 st) : Apart n rep0 (newClass st).2 :=
  ⟨Nat.le_succ_of_le h.next, h.old, h.lt, h.new, h.funs, h.args, h.metas, h.sup⟩

theorem getClassL_apart (n : Nat) (rep0 : Nat → Nat) (ts : List UT)
    (ih : ∀ t ∈ ts, ∀ st c st', Apart n rep0 st → getClass t st = some (c, st') → Apart n rep0 st' ∧ n ≤ c) (st st' : St) (cs : List Nat)
    (h : Apart n rep0 st) (he : getClassL ts st = some (cs, st')) : Apart n rep0 st' ∧ ∀ c ∈ cs, n ≤ c := by
  induction ts generalizing st cs with
  | nil => cases he; exact ⟨h, by simp⟩
  | cons t ts ihl =>
    simp only [getClassL] at he
    cases h1 : getClass t st with
    | none => rw [h1] at he; cases he
    | some r =>
      rw [h1] at he
      simp only [Option.bind_some] at he
      cases h2 : getClassL ts r.2 with
      | none => rw [h2] at he; cases he
      | some r2 =>
        rw [h2] at he
        cases he
        have a1 := ih t (by simp) st r.1 r.2 h h1
        have a2 := ihl (fun t ht => ih t (by simp [ht])) r.2 r2.1 a1.1 h2
        refine ⟨a2.1, fun c hc => ?_⟩
        rcases List.mem_cons.1 hc with rfl | hc
        · exact a1.2
        · exact a2.2 c hc

theorem getClass_apart (n : Nat) (rep0 : Nat → Nat) (t : UT) : ∀ st c st', Apart n rep0 st → getClass t st = some (c, st') →
    Apart n rep0 st' ∧ n ≤ c := by
  induction t using UT.ind with
  | mv i =>
    intro st c st' h he
    simp only [getClass] at he
    split at he
    · rename_i e hf
      cases he
      exact ⟨h, h.metas e (List.mem_of_find?_eq_some hf)⟩
    · cases he
      have hn := apart_newClass h
      refine ⟨⟨hn.next, hn.old, hn.lt, hn.new, hn.funs, hn.args, ?_, ?_⟩, h.new _ h.next⟩
      · intro e he
        rcases List.mem_cons.1 he with rfl | he
        · exact h.next
        · exact h.metas e he
      · intro c l hl r hr
        simp only [addMeta] at hl
        split at hl
        · cases hl; cases hr
        · exact h.sup c l hl r hr
  | fn f args ih =>
    intro st c st' h he
    simp only [getClass] at he
    cases h1 : getClassL args st with
    | none => rw [h1] at he; cases he
    | some r =>
      rw [h1] at he
      simp only [Option.bind_some] at he
      have a1 := getClassL_apart n rep0 args ih st r.2 r.1 h h1
      cases h2 : findCongruent (newClass r.2).2.h.rep ⟨f, r.1, (newClass r.2).1⟩ (newClass r.2).2.p.funs with
      | none => rw [h2] at he; cases he
      | some o =>
        rw [h2] at he
        cases o with
        | some t2 =>
          cases he
          exact ⟨apart_newClass a1.1, a1.1.funs t2 (findCongruent_mem _ _ _ _ h2)⟩
        | none =>
          cases he
          have hn := apart_newClass a1.1
          refine ⟨⟨hn.next, hn.old, hn.lt, hn.new, ?_, ?_, hn.metas, ?_⟩, a1.1.new _ a1.1.next⟩
          · intro x hx
            simp only [addFun, newClass, List.mem_append, List.mem_singleton] at hx
            rcases hx with hx | rfl
            · exact a1.1.funs x hx
            · exact a1.1.next
          · intro x hx y hy
            simp only [addFun, newClass, List.mem_append, List.mem_singleton] at hx
            rcases hx with hx | rfl
            · exact a1.1.args x hx y hy
            · exact a1.2 y hy
          · intro c l hl x hx
            simp only [addFun] at hl
            split at hl
            · cases hl
              simp only [List.mem_singleton] at hx
              subst hx
              exact a1.1.next
            · exact a1.1.sup c l hl x hx

theorem foldlM_inv {α β : Type} (P : β → Prop) (f : β → α → Option β) (l : List α) (hf : ∀ a ∈ l, ∀ b b', P b → f b a = some b' → P b')
    (b b' : β) (hb : P b) (h : l.foldlM f b = some b') : P b' := by
  induction l generalizing b with
  | nil => cases h; exact hb
  | cons a l ih =>
    rw [List.foldlM_cons] at h
    cases h1 : f b a with
    | none => rw [h1] at h; cases h
    | some b1 =>
      rw [h1] at h
      exact ih (fun a ha => hf a (by simp [ha])) b1 (hf a (by simp) b b1 hb h1) h

theorem merge_apart (n : Nat) (rep0 : Nat → Nat) (k : Nat) : ∀ st a b st', Apart n rep0 st → n ≤ a → n ≤ b →
    mergeClasses k st a b = some st' → Apart n rep0 st' := by
  induction k with
  | zero => intro st a b st' _ _ _ he; cases he
  | succ k ih =>
    intro st a b st' h ha hb he
    simp only [mergeClasses] at he
    split at he
    · cases he; exact h
    · have key : ∀ m d, n ≤ m → n ≤ d → (st.p.super m).bind (fun sm => (st.p.super d).bind fun sd =>
          let l := appendNew sm sd
          let h : Heap := { st.h with
            rep := fun c => if st.h.rep c = d then m else st.h.rep c
            size := fun c => if c = m then st.h.size m + st.h.size d else st.h.size c }
          let p : Pb := { st.p with super := fun c => if c = d then none else if c = m then some l else st.p.super c }
          l.foldlM (fun st t3 =>
            (st.p.super m).bind fun l4 => l4.foldlM (fun st t4 =>
              if st.h.rep t3.cls = st.h.rep t4.cls then some st
              else (recCongruent st.h.rep t3 t4).bind fun c => if c then mergeClasses k st t3.cls t4.cls else some st) st) ⟨h, p⟩) = some st' →
          Apart n rep0 st' := by
        intro m d hm hd he
        cases hsm : st.p.super m with
        | none => rw [hsm] at he; cases he
        | some sm =>
          cases hsd : st.p.super d with
          | none => rw [hsm, hsd] at he; cases he
          | some sd =>
            rw [hsm, hsd] at he
            simp only [Option.bind_some] at he
            have hl : ∀ t ∈ appendNew sm sd, n ≤ t.cls := by
              intro t ht
              rcases mem_appendNew.1 ht with ht | ht
              · exact h.sup m sm hsm t ht
              · exact h.sup d sd hsd t ht
            refine foldlM_inv (Apart n rep0) _ _ ?_ _ _ ?_ he
            · intro t3 h3 st1 st2 i1 e1
              cases h4 : st1.p.super m with
              | none => rw [h4] at e1; cases e1
              | some l4 =>
                rw [h4] at e1
                simp only [Option.bind_some] at e1
                have hl4 : ∀ t ∈ l4, n ≤ t.cls := i1.sup m l4 h4
                refine foldlM_inv (Apart n rep0) _ _ ?_ _ _ i1 e1
                intro t4 h4 st3 st4 i3 e3
                split at e3
                · cases e3; exact i3
                · cases hc : recCongruent st3.h.rep t3 t4 with
                  | none => rw [hc] at e3; cases e3
                  | some c =>
                    rw [hc] at e3
                    simp only [Option.bind_some] at e3
                    split at e3
                    · exact ih st3 _ _ st4 i3 (hl t3 h3) (hl4 t4 h4) e3
                    · cases e3; exact i3
            · refine ⟨h.next, fun c hc => ?_, fun c hc => ?_, fun c hc => ?_, h.funs, h.args, h.metas, ?_⟩
              · by_cases hx : st.h.rep c = d
                · have := h.lt c hc
                  rw [hx] at this
                  omega
                · simp only [if_neg hx]
                  exact h.old c hc
              · by_cases hx : st.h.rep c = d
                · have := h.lt c hc
                  rw [hx] at this
                  omega
                · simp only [if_neg hx]
                  exact h.lt c hc
              · simp only
                split
                · exact hm
                · exact h.new c hc
              · intro c l hcl r hr
                simp only at hcl
                split at hcl
                · cases hcl
                · split at hcl
                  · cases hcl; exact hl r hr
                  · exact h.sup c l hcl r hr
      by_cases hs : st.h.size (st.h.rep a) < st.h.size (st.h.rep b)
      · simp only [if_pos hs] at he
        exact key _ _ (h.new _ hb) (h.new _ ha) he
      · simp only [if_neg hs] at he
        exact key _ _ (h.new _ ha) (h.new _ hb) he

theorem addAssumption_apart (n : Nat) (rep0 : Nat → Nat) (k : Nat) (st st' : St) (e : UT × UT) (h : Apart n rep0 st)
    (he : addAssumption k st e = some st') : Apart n rep0 st' := by
  simp only [addAssumption] at he
  cases h1 : getClass e.1 st with
  | none => rw [h1] at he; cases he
  | some r1 =>
    rw [h1] at he
    simp only [Option.bind_some] at he
    cases h2 : getClass e.2 r1.2 with
    | none => rw [h2] at he; cases he
    | some r2 =>
      rw [h2] at he
      simp only [Option.bind_some] at he
      have a1 := getClass_apart n rep0 e.1 st r1.1 r1.2 h h1
      have a2 := getClass_apart n rep0 e.2 r1.2 r2.1 r2.2 a1.1 h2
      exact merge_apart n rep0 k r2.2 r1.1 r2.1 st' a2.1 a1.2 a2.2 he

theorem goalPairs_apart (n : Nat) (rep0 : Nat → Nat) (g : List (UT × UT)) : ∀ st ps st', Apart n rep0 st → goalPairs g st = some (ps, st') →
    Apart n rep0 st' := by
  induction g with
  | nil => intro st ps st' h he; cases he; exact h
  | cons e g ih =>
    intro st ps st' h he
    simp only [goalPairs] at he
    cases h1 : getClass e.1 st with
    | none => rw [h1] at he; cases he
    | some r1 =>
      rw [h1] at he
      simp only [Option.bind_some] at he
      cases h2 : getClass e.2 r1.2 with
      | none => rw [h2] at he; cases he
      | some r2 =>
        rw [h2] at he
        simp only [Option.bind_some] at he
        cases h3 : goalPairs g r2.2 with
        | none => rw [h3] at he; cases he
        | some r3 =>
          rw [h3] at he
          cases he
          have a1 := getClass_apart n rep0 e.1 st r1.1 r1.2 h h1
          have a2 := getClass_apart n rep0 e.2 r1.2 r2.1 r2.2 a1.1 h2
          exact ih r2.2 r3.1 r3.2 a2.1 h3

theorem pop_apart (n : Nat) (rep0 : Nat → Nat) (k : Nat) (o : POp) (st st' : St) (h : Apart n rep0 st) (he : o.run k st = some st') :
    Apart n rep0 st' := by
  cases o with
  | assume e => exact addAssumption_apart n rep0 k st st' e h he
  | goal g =>
    simp only [POp.run, addGoal] at he
    cases h1 : goalPairs g st with
    | none => rw [h1] at he; cases he
    | some r =>
      rw [h1] at he
      cases he
      have := goalPairs_apart n rep0 g st r.1 r.2 h h1
      exact ⟨this.next, this.old, this.lt, this.new, this.funs, this.args, this.metas, this.sup⟩

/-- The classes of all goals exist. -/
def GoalsLt (st : St) : Prop := ∀ g ∈ st.p.goals, ∀ p ∈ g, p.1 < st.h.next ∧ p.2 < st.h.next

/-- **C41, in part.** The copy of a problem without terms is isolated: on a heap on which another problem `p` lives, whatever is added to
the copy leaves the answer of `p` unchanged. This is the only use the search makes of `Copy`; for problems with terms see
`C41_violated`. -/
theorem C41_fresh_partial (ar : Nat → Nat) (st st' : St) (ops : List POp) (k : Nat) (hw : WF ar st) (hg : GoalsLt st)
    (h : ops.foldlM (POp.run k) ⟨st.h, Pb.new.copy⟩ = some st') : hasTrivialGoals ⟨st'.h, st.p⟩ = hasTrivialGoals st := by
  have h0 : Apart st.h.next st.h.rep ⟨st.h, Pb.new.copy⟩ :=
    ⟨Nat.le_refl _, fun _ _ => rfl, hw.lt, fun c hc => by simp only; rw [hw.fresh c hc]; exact hc, by simp [Pb.copy, Pb.new],
      by simp [Pb.copy, Pb.new], by simp [Pb.copy, Pb.new], by simp [Pb.copy, Pb.new]⟩
  have h1 := foldlM_inv (Apart st.h.next st.h.rep) _ _ (fun o _ b b' hb he => pop_apart _ _ k o b b' hb he) _ _ h0 h
  have key : ∀ (gs : List (List (Nat × Nat))), (∀ g ∈ gs, ∀ p ∈ g, p.1 < st.h.next ∧ p.2 < st.h.next) →
      (gs.any fun g => g.all fun p => decide (st'.h.rep p.1 = st'.h.rep p.2)) =
      (gs.any fun g => g.all fun p => decide (st.h.rep p.1 = st.h.rep p.2)) := by
    intro gs
    induction gs with
    | nil => intro _; rfl
    | cons g gs ih =>
      intro hgs
      rw [List.any_cons, List.any_cons, ih (fun g hg => hgs g (by simp [hg]))]
      congr 1
      have hg' := hgs g (by simp)
      clear ih hgs
      induction g with
      | nil => rfl
      | cons p g ih =>
        have := hg' p (by simp)
        rw [List.all_cons, List.all_cons, h1.old _ this.1, h1.old _ this.2, ih (fun p hp => hg' p (by simp [hp]))]
  exact key st.p.goals hg

open Sample in
/-- The hypotheses are met by a problem with an assumption and a goal, while the copy of an empty problem gets the same terms. -/
example : ∃ st st', final 1 [(a, b)] [[(a, c)]] = some st ∧
    [POp.assume (a, c), POp.goal [(b, c)]].foldlM (POp.run 1) ⟨st.h, Pb.new.copy⟩ = some st' ∧
    hasTrivialGoals ⟨st'.h, st.p⟩ = false ∧ (st.p.goals.all fun g => g.all fun p => decide (p.1 < st.h.next ∧ p.2 < st.h.next)) = true := by
  have h : (final 1 [(a, b)] [[(a, c)]]).bind (fun st => ([POp.assume (a, c), POp.goal [(b, c)]].foldlM (POp.run 1) ⟨st.h, Pb.new.copy⟩).map
      fun st' => (hasTrivialGoals ⟨st'.h, st.p⟩, st.p.goals.all fun g => g.all fun p => decide (p.1 < st.h.next ∧ p.2 < st.h.next))) =
      some (false, true) := by decide +kernel
  simp only [Option.bind_eq_some_iff, Option.map_eq_some_iff, Prod.mk.injEq] at h
  obtain ⟨st, h1, st', h2, h3, h4⟩ := h
  exact ⟨st, st', h1, h2, h3, h4⟩

/-! ### The basic problem

`BasicEqualityStruct` (src/Mods/equality/bse/equality_rules_reasoning.go:48-51) holds pointers to two lists. -/

variable {α : Type} [DecidableEq α]

/-- Lists on the heap: lists of pairs of terms, and lists of pointers to such lists. -/
structure Mem (α : Type) where
  pairs : Nat → List α
  lists : Nat → List Nat
  next : Nat

structure BES where
  assumptions : Nat
  goals : Nat

/-- `AppendIfNotContains` (src/Glob/list.go:282-291). -/
def addNew (l : List α) : List α → List α
  | [] => l
  | a :: m => if a ∈ l then addNew l m else addNew (l ++ [a]) m

/-- `NewBasicEqualityStruct` (src/Mods/equality/bse/equality_rules_reasoning.go:53-55). -/
def BES.new (m : Mem α) : BES × Mem α :=
  (⟨m.next, m.next + 1⟩,
    ⟨fun i => if i = m.next then [] else m.pairs i, fun i => if i = m.next + 1 then [] else m.lists i, m.next + 2⟩)

/-- `AddAssumption` (src/Mods/equality/bse/equality_rules_reasoning.go:57-59). -/
def BES.assume (s : BES) (m : Mem α) (a : α) : Mem α :=
  { m with pairs := fun i => if i = s.assumptions then addNew (m.pairs i) [a] else m.pairs i }

/-- `AddGoal` (src/Mods/equality/bse/equality_rules_reasoning.go:61-66): a new list, appended unless an equal list is there. -/
def BES.goal (s : BES) (m : Mem α) (g : List α) : Mem α where
  pairs := fun i => if i = m.next then addNew [] g else m.pairs i
  lists := fun i => if i = s.goals ∧ ∀ p ∈ m.lists i, m.pairs p ≠ addNew [] g then m.lists i ++ [m.next] else m.lists i
  next := m.next + 1

/-- `Copy` (src/Mods/equality/bse/equality_rules_reasoning.go:110-122). -/
def BES.copy (s : BES) (m : Mem α) : BES × Mem α :=
  let r := BES.new m
  let m1 := (m.lists s.goals).foldl (fun m' g => r.1.goal m' (m.pairs g)) r.2
  (r.1, (m.pairs s.assumptions).foldl (fun m' a => r.1.assume m' a) m1)

/-- What the problem contains; all that `Solve` reads. -/
def BES.view (s : BES) (m : Mem α) : List α × List (List α) := (m.pairs s.assumptions, (m.lists s.goals).map m.pairs)

/-- Additions after the copy. -/
inductive BOp (α : Type) where
  | assume (a : α)
  | goal (g : List α)

def BOp.run (s : BES) (m : Mem α) : BOp α → Mem α
  | .assume a => s.assume m a
  | .goal g => s.goal m g

/-- The objects of a problem exist, and are objects of their own. -/
structure BOk (s : BES) (m : Mem α) : Prop where
  as : s.assumptions < m.next
  gs : s.goals < m.next
  mem : ∀ g ∈ m.lists s.goals, g < m.next ∧ g ≠ s.assumptions
  nodup : (m.pairs s.assumptions).Nodup
  gnodup : ∀ g ∈ m.lists s.goals, (m.pairs g).Nodup
  glists : ((m.lists s.goals).map m.pairs).Nodup

/-- Two problems share nothing. -/
structure Disj (s t : BES) (m : Mem α) : Prop where
  as : s.assumptions ≠ t.assumptions
  gs : s.goals ≠ t.goals
  mem : ∀ g ∈ m.lists s.goals, g ≠ t.assumptions

theorem view_congr {s : BES} {m m' : Mem α} (h1 : m'.pairs s.assumptions = m.pairs s.assumptions) (h2 : m'.lists s.goals = m.lists s.goals)
    (h3 : ∀ g ∈ m.lists s.goals, m'.pairs g = m.pairs g) : s.view m' = s.view m := by
  simp only [BES.view, h1, h2]
  congr 1
  exact List.map_congr_left h3

theorem addNew_nodup (l : List α) : ∀ (m : List α), l.Nodup → (addNew l m).Nodup := by
  intro m
  induction m generalizing l with
  | nil => exact fun h => h
  | cons a m ih =>
    intro h
    simp only [addNew]
    split
    · exact ih l h
    · rename_i ha
      refine ih _ ?_
      rw [List.nodup_append]
      refine ⟨h, by simp, ?_⟩
      intro x hx y hy
      simp only [List.mem_singleton] at hy
      subst hy
      rintro rfl
      exact ha hx

theorem addNew_eq (l m : List α) (h : (l ++ m).Nodup) : addNew l m = l ++ m := by
  induction m generalizing l with
  | nil => simp [addNew]
  | cons a m ih =>
    have ha : a ∉ l := by
      intro ha
      rw [List.nodup_append] at h
      exact h.2.2 a ha a (by simp) rfl
    simp only [addNew, if_neg ha]
    rw [ih _ (by simpa using h)]
    simp

/-- One addition to `t`: it stays well-formed, and a problem `s` that shares nothing with it keeps its contents. -/
theorem bop_step {s t : BES} {m : Mem α} (o : BOp α) (hs : BOk s m) (ht : BOk t m) (hd : Disj s t m) :
    s.view (o.run t m) = s.view m ∧ BOk s (o.run t m) ∧ BOk t (o.run t m) ∧ Disj s t (o.run t m) := by
  cases o with
  | assume a =>
    have hp : ∀ i, i ≠ t.assumptions → (t.assume m a).pairs i = m.pairs i := fun i hi => by simp [BES.assume, hi]
    have hv : s.view (t.assume m a) = s.view m := view_congr (hp _ hd.as) rfl (fun g hg => hp g (hd.mem g hg))
    have hmap : ∀ u : BES, (∀ g ∈ m.lists u.goals, g ≠ t.assumptions) →
        (m.lists u.goals).map (t.assume m a).pairs = (m.lists u.goals).map m.pairs := fun u hu => List.map_congr_left fun g hg => hp g (hu g hg)
    refine ⟨hv, ⟨hs.as, hs.gs, hs.mem, ?_, ?_, ?_⟩, ⟨ht.as, ht.gs, ht.mem, ?_, ?_, ?_⟩, ⟨hd.as, hd.gs, hd.mem⟩⟩
    · show ((t.assume m a).pairs s.assumptions).Nodup
      rw [hp _ hd.as]; exact hs.nodup
    · intro g hg
      show ((t.assume m a).pairs g).Nodup
      rw [hp _ (hd.mem g hg)]; exact hs.gnodup g hg
    · show ((m.lists s.goals).map (t.assume m a).pairs).Nodup
      rw [hmap s hd.mem]; exact hs.glists
    · simp only [BOp.run, BES.assume, if_true]
      exact addNew_nodup _ _ ht.nodup
    · intro g hg
      show ((t.assume m a).pairs g).Nodup
      rw [hp _ (ht.mem g hg).2]; exact ht.gnodup g hg
    · show ((m.lists t.goals).map (t.assume m a).pairs).Nodup
      rw [hmap t (fun g hg => (ht.mem g hg).2)]; exact ht.glists
  | goal g0 =>
    have hp : ∀ i, i < m.next → (t.goal m g0).pairs i = m.pairs i := by
      intro i hi
      have : i ≠ m.next := by omega
      simp [BES.goal, this]
    have hl : ∀ i, i ≠ t.goals → (t.goal m g0).lists i = m.lists i := by
      intro i hi
      simp [BES.goal, hi]
    have hn : (t.goal m g0).next = m.next + 1 := rfl
    have hpn : (t.goal m g0).pairs m.next = addNew [] g0 := by simp [BES.goal]
    have hlt : (t.goal m g0).lists t.goals = m.lists t.goals ∨
        ((t.goal m g0).lists t.goals = m.lists t.goals ++ [m.next] ∧ addNew [] g0 ∉ (m.lists t.goals).map m.pairs) := by
      by_cases hc : ∀ p ∈ m.lists t.goals, m.pairs p ≠ addNew [] g0
      · refine Or.inr ⟨?_, ?_⟩
        · simp only [BES.goal]
          rw [if_pos ⟨trivial, hc⟩]
        · intro hmem
          obtain ⟨p, hp1, hp2⟩ := List.mem_map.1 hmem
          exact hc p hp1 hp2
      · refine Or.inl ?_
        simp only [BES.goal]
        rw [if_neg (fun h => hc h.2)]
    have hmap : ∀ u : BES, BOk u m → (m.lists u.goals).map (t.goal m g0).pairs = (m.lists u.goals).map m.pairs := fun u hu =>
      List.map_congr_left fun g hg => hp g (hu.mem g hg).1
    have hv : s.view (t.goal m g0) = s.view m := view_congr (hp _ hs.as) (hl _ hd.gs) (fun g hg => hp g (hs.mem g hg).1)
    refine ⟨hv, ⟨?_, ?_, ?_, ?_, ?_, ?_⟩, ⟨?_, ?_, ?_, ?_, ?_, ?_⟩, ⟨hd.as, hd.gs, ?_⟩⟩ <;> simp only [BOp.run]
    · rw [hn]; exact Nat.lt_succ_of_lt hs.as
    · rw [hn]; exact Nat.lt_succ_of_lt hs.gs
    · intro g hg
      rw [hl _ hd.gs] at hg
      rw [hn]
      exact ⟨Nat.lt_succ_of_lt (hs.mem g hg).1, (hs.mem g hg).2⟩
    · rw [hp _ hs.as]; exact hs.nodup
    · intro g hg
      rw [hl _ hd.gs] at hg
      rw [hp _ (hs.mem g hg).1]; exact hs.gnodup g hg
    · rw [hl _ hd.gs, hmap s hs]; exact hs.glists
    · rw [hn]; exact Nat.lt_succ_of_lt ht.as
    · rw [hn]; exact Nat.lt_succ_of_lt ht.gs
    · intro g hg
      rw [hn]
      have hta := ht.as
      rcases hlt with e | ⟨e, _⟩
      · rw [e] at hg
        exact ⟨Nat.lt_succ_of_lt (ht.mem g hg).1, (ht.mem g hg).2⟩
      · rw [e, List.mem_append, List.mem_singleton] at hg
        rcases hg with hg | rfl
        · exact ⟨Nat.lt_succ_of_lt (ht.mem g hg).1, (ht.mem g hg).2⟩
        · exact ⟨Nat.lt_succ_self _, by omega⟩
    · rw [hp _ ht.as]; exact ht.nodup
    · intro g hg
      rcases hlt with e | ⟨e, _⟩
      · rw [e] at hg
        rw [hp _ (ht.mem g hg).1]; exact ht.gnodup g hg
      · rw [e, List.mem_append, List.mem_singleton] at hg
        rcases hg with hg | rfl
        · rw [hp _ (ht.mem g hg).1]; exact ht.gnodup g hg
        · rw [hpn]; exact addNew_nodup _ _ (by simp)
    · rcases hlt with e | ⟨e, hnot⟩
      · rw [e, hmap t ht]; exact ht.glists
      · rw [e, List.map_append, hmap t ht, List.map_singleton, hpn, List.nodup_append]
        refine ⟨ht.glists, by simp, ?_⟩
        intro x hx y hy
        simp only [List.mem_singleton] at hy
        subst hy
        rintro rfl
        exact hnot hx
    · intro g hg
      rw [hl _ hd.gs] at hg
      exact hd.mem g hg

theorem Disj.symm {s t : BES} {m : Mem α} (h : Disj s t m) (hm : ∀ g ∈ m.lists t.goals, g ≠ s.assumptions) : Disj t s m :=
  ⟨Ne.symm h.as, Ne.symm h.gs, hm⟩

theorem bops {s t : BES} (ops : List (BOp α)) : ∀ {m : Mem α}, BOk s m → BOk t m → Disj s t m →
    s.view (ops.foldl (BOp.run t) m) = s.view m ∧ BOk s (ops.foldl (BOp.run t) m) ∧ BOk t (ops.foldl (BOp.run t) m) ∧
      Disj s t (ops.foldl (BOp.run t) m) := by
  induction ops with
  | nil => intro m h1 h2 h3; exact ⟨rfl, h1, h2, h3⟩
  | cons o ops ih =>
    intro m h1 h2 h3
    obtain ⟨a, b, c, d⟩ := bop_step o h1 h2 h3
    obtain ⟨a', b', c', d'⟩ := ih b c d
    exact ⟨a'.trans a, b', c', d'⟩

/-- Adding lists and pairs that are not there yet appends them. -/
theorem assume_foldl {t : BES} (as : List α) : ∀ {m : Mem α}, BOk t m → (m.pairs t.assumptions ++ as).Nodup →
    t.view (as.foldl (fun m' a => t.assume m' a) m) = (m.pairs t.assumptions ++ as, (m.lists t.goals).map m.pairs) := by
  induction as with
  | nil => intro m h _; simp [BES.view]
  | cons a as ih =>
    intro m h hn
    have h' : addNew (m.pairs t.assumptions) [a] = m.pairs t.assumptions ++ [a] := by
      refine addNew_eq _ _ ?_
      have : (m.pairs t.assumptions ++ [a] ++ as).Nodup := by simpa using hn
      exact (List.nodup_append.1 this).1
    have hp : (t.assume m a).pairs t.assumptions = m.pairs t.assumptions ++ [a] := by simp [BES.assume, h']
    have hg : ((t.assume m a).lists t.goals).map (t.assume m a).pairs = (m.lists t.goals).map m.pairs :=
      List.map_congr_left fun g hg => by simp [BES.assume, (h.mem g hg).2]
    have hok : BOk t (t.assume m a) := by
      refine ⟨h.as, h.gs, h.mem, ?_, ?_, ?_⟩
      · rw [hp, ← h']; exact addNew_nodup _ _ h.nodup
      · intro g hgm
        have : (t.assume m a).pairs g = m.pairs g := by simp [BES.assume, (h.mem g hgm).2]
        rw [this]; exact h.gnodup g hgm
      · rw [hg]; exact h.glists
    show t.view (as.foldl _ (t.assume m a)) = _
    rw [ih hok (by rw [hp]; simpa using hn), hp, hg]
    simp

theorem goal_foldl {t : BES} (gs : List (List α)) : ∀ {m : Mem α}, BOk t m → (∀ g ∈ gs, g.Nodup) →
    ((m.lists t.goals).map m.pairs ++ gs).Nodup →
    BOk t (gs.foldl (fun m' g => t.goal m' g) m) ∧
    t.view (gs.foldl (fun m' g => t.goal m' g) m) = (m.pairs t.assumptions, (m.lists t.goals).map m.pairs ++ gs) ∧
    (∀ i < m.next, (gs.foldl (fun m' g => t.goal m' g) m).pairs i = m.pairs i) := by
  induction gs with
  | nil => intro m h _ _; exact ⟨h, by simp [BES.view], fun _ _ => rfl⟩
  | cons g gs ih =>
    intro m h hg hn
    have hag : addNew [] g = g := addNew_eq [] g (by simpa using hg g (by simp))
    have hnot : g ∉ (m.lists t.goals).map m.pairs := fun hm => (List.nodup_append.1 hn).2.2 g hm g (by simp) rfl
    have hp : ∀ i, i < m.next → (t.goal m g).pairs i = m.pairs i := by
      intro i hi
      have : i ≠ m.next := by omega
      simp [BES.goal, this]
    have hl : (t.goal m g).lists t.goals = m.lists t.goals ++ [m.next] := by
      simp only [BES.goal]
      rw [if_pos]
      refine ⟨trivial, fun p hp e => hnot ?_⟩
      rw [hag] at e
      exact List.mem_map.2 ⟨p, hp, e⟩
    have hmap : ((t.goal m g).lists t.goals).map (t.goal m g).pairs = (m.lists t.goals).map m.pairs ++ [g] := by
      rw [hl, List.map_append, List.map_singleton]
      congr 1
      · exact List.map_congr_left fun p hpm => hp p (h.mem p hpm).1
      · simp [BES.goal, hag]
    have hok : BOk t (t.goal m g) := by
      refine ⟨Nat.lt_succ_of_lt h.as, Nat.lt_succ_of_lt h.gs, ?_, ?_, ?_, ?_⟩
      · intro p hpm
        rw [hl, List.mem_append, List.mem_singleton] at hpm
        have hta := h.as
        show p < m.next + 1 ∧ _
        rcases hpm with hpm | rfl
        · exact ⟨Nat.lt_succ_of_lt (h.mem p hpm).1, (h.mem p hpm).2⟩
        · exact ⟨Nat.lt_succ_self _, by omega⟩
      · rw [hp _ h.as]; exact h.nodup
      · intro p hpm
        rw [hl, List.mem_append, List.mem_singleton] at hpm
        rcases hpm with hpm | rfl
        · rw [hp _ (h.mem p hpm).1]; exact h.gnodup p hpm
        · simp only [BES.goal, if_true, hag]; exact hg g (by simp)
      · rw [hmap]
        have : ((m.lists t.goals).map m.pairs ++ [g] ++ gs).Nodup := by simpa using hn
        exact (List.nodup_append.1 this).1
    obtain ⟨i1, i2, i3⟩ := ih hok (fun g hgm => hg g (by simp [hgm])) (by rw [hmap]; simpa using hn)
    refine ⟨i1, ?_, fun i hi => ?_⟩
    · show t.view (gs.foldl _ (t.goal m g)) = _
      rw [i2, hp _ h.as, hmap]
      simp
    · show (gs.foldl _ (t.goal m g)).pairs i = _
      rw [i3 i (Nat.lt_succ_of_lt hi), hp i hi]

theorem new_ok (m : Mem α) : BOk (BES.new m).1 (BES.new m).2 := by
  refine ⟨by simp [BES.new], by simp [BES.new], ?_, ?_, ?_, ?_⟩ <;> simp [BES.new]

theorem new_disj {s : BES} {m : Mem α} (h : BOk s m) :
    s.view (BES.new m).2 = s.view m ∧ BOk s (BES.new m).2 ∧ Disj s (BES.new m).1 (BES.new m).2 := by
  have ha := h.as
  have hg := h.gs
  have hp : ∀ i, i < m.next → (BES.new m).2.pairs i = m.pairs i := by
    intro i hi
    have : i ≠ m.next := by omega
    simp [BES.new, this]
  have hl : (BES.new m).2.lists s.goals = m.lists s.goals := by
    have : s.goals ≠ m.next + 1 := by omega
    simp [BES.new, this]
  have hmap : (m.lists s.goals).map (BES.new m).2.pairs = (m.lists s.goals).map m.pairs :=
    List.map_congr_left fun p hpm => hp p (h.mem p hpm).1
  refine ⟨view_congr (hp _ ha) hl (fun g hg => hp g (h.mem g hg).1), ⟨?_, ?_, ?_, ?_, ?_, ?_⟩, ⟨?_, ?_, ?_⟩⟩
  · show s.assumptions < m.next + 2; omega
  · show s.goals < m.next + 2; omega
  · intro g hgm
    rw [hl] at hgm
    have := h.mem g hgm
    exact ⟨by show g < m.next + 2; omega, this.2⟩
  · rw [hp _ ha]; exact h.nodup
  · intro g hgm
    rw [hl] at hgm
    rw [hp _ (h.mem g hgm).1]; exact h.gnodup g hgm
  · rw [hl, hmap]; exact h.glists
  · show s.assumptions ≠ m.next; omega
  · show s.goals ≠ m.next + 1; omega
  · intro g hgm
    rw [hl] at hgm
    have := (h.mem g hgm).1
    show g ≠ m.next; omega

/-- **C41 for the basic structure.** The copy has the contents of the original; afterwards, additions to the copy do not change the
contents of the original. -/
theorem C41_basic_copy (s : BES) (m : Mem α) (h : BOk s m) (ops : List (BOp α)) :
    (s.copy m).1.view (s.copy m).2 = s.view m ∧ s.view (s.copy m).2 = s.view m ∧
    s.view (ops.foldl (BOp.run (s.copy m).1) (s.copy m).2) = s.view m := by
  obtain ⟨n1, n2, n3⟩ := new_disj h
  have n0 := new_ok m
  have hfold : (s.copy m).2 = (((m.lists s.goals).map fun g => BOp.goal (m.pairs g)) ++ (m.pairs s.assumptions).map BOp.assume).foldl
      (BOp.run (BES.new m).1) (BES.new m).2 := by
    simp only [BES.copy, List.foldl_append, List.foldl_map, BOp.run]
  obtain ⟨v1, o1, o2, d1⟩ := bops (((m.lists s.goals).map fun g => BOp.goal (m.pairs g)) ++ (m.pairs s.assumptions).map BOp.assume) n2 n0 n3
  rw [← hfold] at v1 o1 o2 d1
  have hlists : (BES.new m).2.lists (BES.new m).1.goals = [] := by simp [BES.new]
  have hpairs : (BES.new m).2.pairs (BES.new m).1.assumptions = [] := by simp [BES.new]
  obtain ⟨g1, g2, g3⟩ := goal_foldl (t := (BES.new m).1) ((m.lists s.goals).map m.pairs) (m := (BES.new m).2) n0
    (by intro g hg; obtain ⟨p, hp1, rfl⟩ := List.mem_map.1 hg; exact h.gnodup p hp1)
    (by rw [hlists]; simpa using h.glists)
  refine ⟨?_, v1.trans n1, ?_⟩
  · show (BES.new m).1.view (s.copy m).2 = _
    have he : (s.copy m).2 = (m.pairs s.assumptions).foldl (fun m' a => (BES.new m).1.assume m' a)
        (((m.lists s.goals).map m.pairs).foldl (fun m' g => (BES.new m).1.goal m' g) (BES.new m).2) := by
      simp only [BES.copy, List.foldl_map]
    have e1 : (((m.lists s.goals).map m.pairs).foldl (fun m' g => (BES.new m).1.goal m' g) (BES.new m).2).pairs (BES.new m).1.assumptions = [] := by
      have := congrArg Prod.fst g2
      simpa [BES.view, hpairs] using this
    have e2 := congrArg Prod.snd g2
    simp only [BES.view, hlists, List.map_nil, List.nil_append] at e2
    rw [he, assume_foldl _ g1 (by rw [e1]; simpa using h.nodup), e1, e2]
    simp [BES.view]
  · obtain ⟨v2, _⟩ := bops ops o1 o2 d1
    exact (v2.trans v1).trans n1

/-- And additions to the original do not change the contents of the copy. -/
theorem C41_basic_original (s : BES) (m : Mem α) (h : BOk s m) (ops : List (BOp α)) :
    (s.copy m).1.view (ops.foldl (BOp.run s) (s.copy m).2) = s.view m := by
  obtain ⟨n1, n2, n3⟩ := new_disj h
  have n0 := new_ok m
  have hfold : (s.copy m).2 = (((m.lists s.goals).map fun g => BOp.goal (m.pairs g)) ++ (m.pairs s.assumptions).map BOp.assume).foldl
      (BOp.run (BES.new m).1) (BES.new m).2 := by
    simp only [BES.copy, List.foldl_append, List.foldl_map, BOp.run]
  obtain ⟨v1, o1, o2, d1⟩ := bops (((m.lists s.goals).map fun g => BOp.goal (m.pairs g)) ++ (m.pairs s.assumptions).map BOp.assume) n2 n0 n3
  have hge : ∀ (ops : List (BOp α)) (m' : Mem α), m.next + 2 ≤ m'.next → (∀ g ∈ m'.lists (m.next + 1), m.next ≤ g) →
      ∀ g ∈ (ops.foldl (BOp.run (BES.new m).1) m').lists (m.next + 1), m.next ≤ g := by
    intro ops
    induction ops with
    | nil => intro m' _ h2; exact h2
    | cons o ops ih =>
      intro m' h1 h2
      refine ih _ ?_ ?_
      · cases o with
        | assume a => exact h1
        | goal g => exact Nat.le_succ_of_le h1
      · cases o with
        | assume a => exact h2
        | goal g =>
          intro x hx
          simp only [BOp.run, BES.goal] at hx
          split at hx
          · rw [List.mem_append, List.mem_singleton] at hx
            rcases hx with hx | rfl
            · exact h2 x hx
            · omega
          · exact h2 x hx
  have hsym := hge (((m.lists s.goals).map fun g => BOp.goal (m.pairs g)) ++ (m.pairs s.assumptions).map BOp.assume) (BES.new m).2
    (by simp [BES.new]) (by simp [BES.new])
  rw [← hfold] at o1 o2 d1 hsym
  have hd : Disj (BES.new m).1 s (s.copy m).2 := d1.symm (by
    intro g hg
    have h1 := hsym g hg
    have h2 := h.as
    omega)
  obtain ⟨v2, _⟩ := bops ops o2 o1 hd
  exact v2.trans (C41_basic_copy s m h []).1

/-- A problem with one assumption and a goal, as the hypotheses want it. -/
example : let r := BES.new (α := Nat) ⟨fun _ => [], fun _ => [], 0⟩
    BOk r.1 (r.1.goal (r.1.assume r.2 7) [8, 9]) ∧ r.1.view (r.1.goal (r.1.assume r.2 7) [8, 9]) = ([7], [[8, 9]]) := by
  refine ⟨⟨?_, ?_, ?_, ?_, ?_, ?_⟩, ?_⟩ <;> simp [BES.new, BES.goal, BES.assume, BES.view, addNew]

end Verif.Equality
