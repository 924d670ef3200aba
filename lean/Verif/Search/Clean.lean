import Verif.Unif.Props
/-!
# Cleaning of substitutions (`src/Core/substitutions_search.go`)

When a branch is closed by a substitution, the substitution is restricted to what concerns the father:
its metavariables `mm` (`RemoveElementWithoutMM`), and the candidates are sorted into those that concern the
father and those that do not (`DispatchSubst`). A candidate with nothing left closes the branch without any
condition for the father.

Bindings of types (`TySubstitution`) are left out: they are copied at the end of the result.
A set of metavariables (`Lib.Set`) is a list here, used with membership and union only (`Verif.Lib.SetsProps`).
-/

namespace Verif.Search.Clean
open Verif.Unif

/-- The local variables of the loop of `RemoveElementWithoutMM` (src/Core/substitutions_search.go:82-86). -/
structure St where
  res : Subst := []
  reorg : Subst := []
  rel : List Nat
  changed : Bool := true

/-- The body of the inner loop (src/Core/substitutions_search.go:97-121). -/
def step (st : St) (p : Nat × UT) : St :=
  match p.2 with
  | .mv z =>
    if p.1 ∈ st.rel ∧ z ∈ st.rel then { st with res := st.res.set p.1 p.2, reorg := st.reorg.set p.1 p.2 } else st
  | .fn _ _ =>
    if p.1 ∈ st.rel then
      { st with res := st.res.set p.1 p.2
                changed := st.changed || p.2.occ.any (fun i => decide (i ∉ st.rel))
                rel := st.rel ++ p.2.occ }
    else st

/-- The outer loop (src/Core/substitutions_search.go:88-122), with a bound on the number of rounds. -/
def rounds (s : Subst) : Nat → St → Res St
  | 0, _ => .out
  | n + 1, st =>
    let st' := s.foldl step { st with changed := false }
    if st'.changed then rounds s n st' else .ok st'

/-- `ReorganizeSubstitution` (src/Core/substitutions_search.go:174-195): the inner loop for the pair `p`. -/
def reorgInner (p : Nat × UT) : Subst → Subst × List Nat → Subst × List Nat
  | [], acc => acc
  | q :: rest, (res, seen) =>
    if p.2 = q.2 ∧ p.1 ≠ q.1 ∧ q.1 ∉ seen then reorgInner p rest (res.set q.1 (.mv p.1), seen)
    else reorgInner p rest (res, seen)

def reorgLoop (s : Subst) : Subst → Subst × List Nat → Subst × List Nat
  | [], acc => acc
  | p :: rest, (res, seen) => reorgLoop s rest (reorgInner p s (res, p.1 :: seen))

def reorganize (s : Subst) : Subst := (reorgLoop s s ([], [])).1

/-- A failure ends the program: `Glob.Anomaly` (src/Core/substitutions_search.go:150-152). A failure of
`Eliminate` makes the merge fail as well. -/
def failPanic {α : Type} : Res α → Res α
  | .fail => .panic
  | r => r

/-- `RemoveElementWithoutMM` (src/Core/substitutions_search.go:71-167). -/
def clean (n : Nat) (s : Subst) (mm : List Nat) : Res Subst :=
  (rounds s n { rel := mm }).bind fun st =>
    failPanic ((elimBoth n (reorganize st.reorg)).bind fun r => merge (addUnification n) n st.res r)

/-- `Add` (src/Lib/list.go:197-203) with `ListEquals` as comparison. -/
def addNew (l : List Subst) (s : Subst) : List Subst := if s ∈ l then l else l ++ [s]

/-- The three results of `DispatchSubst`. -/
structure Sorted where
  withMM : List Subst := []
  uncleared : List Subst := []
  withoutMM : List Subst := []
deriving DecidableEq

/-- The body of the loop of `DispatchSubst` (src/Core/substitutions_search.go:376-388), given the cleaned
substitution. -/
def sortOne (o : Sorted) (s r : Subst) : Sorted :=
  if r.isEmpty then { o with withoutMM := addNew o.withoutMM s }
  else { o with withMM := addNew o.withMM r, uncleared := addNew o.uncleared s }

/-- `DispatchSubst` in destructive mode (src/Core/substitutions_search.go:365-391). -/
def dispatch (n : Nat) (mm : List Nat) : List Subst → Sorted → Res Sorted
  | [], o => .ok o
  | s :: rest, o => (clean n s mm).bind fun r => dispatch n mm rest (sortOne o s r)

/-! ### Specification -/

/-- Nothing is lost: whoever instantiates the metavariables `mm` as the cleaned substitution `r` demands can
instantiate the other ones such that the original substitution `s` is respected. -/
def Keeps (mm : List Nat) (s r : Subst) : Prop :=
  ∀ σ : Nat → UT, Respects σ r → ∃ σ' : Nat → UT, (∀ x ∈ mm, σ' x = σ x) ∧ Respects σ' s

/-- `RemoveElementWithoutMM(s, mm)` returns `r`. -/
def Cleans (s : Subst) (mm : List Nat) (r : Subst) : Prop := ∃ n, clean n s mm = .ok r

/-- C55 in full: cleaning loses nothing. -/
def C55_statement : Prop := ∀ s mm r, s.Solved → Cleans s mm r → Keeps mm s r

/-! ### C55 is violated -/

open Sample in
/-- **C55 is violated.** `X` and `Y` are the father's metavariables, `Z` is not. The atoms `p(X, Y)` and
`¬p(Z, Z)` close a branch with `X ↦ Z, Y ↦ Z`; this demands `X = Y`. Cleaning leaves nothing, so that
the branch counts as closed whatever `X` and `Y` are. -/
theorem C55_violated :
    Unifies (f [X, Y]) (f [Z, Z]) [] (.ok [(0, Z), (1, Z)]) ∧
    Subst.Solved [(0, Z), (1, Z)] ∧
    Cleans [(0, Z), (1, Z)] [0, 1] [] ∧
    ¬ Keeps [0, 1] [(0, Z), (1, Z)] [] := by
  refine ⟨⟨by simp, 12, by decide +kernel⟩, ⟨by decide +kernel, by decide +kernel⟩,
    ⟨5, by decide +kernel⟩, ?_⟩
  intro h
  obtain ⟨σ, h1, h2⟩ := h (fun i => if i = 0 then a else b) (by simp [Respects])
  have e0 := h1 0 (by simp)
  have e1 := h1 1 (by simp)
  have r0 := h2 (0, Z) (by simp)
  have r1 := h2 (1, Z) (by simp)
  simp only [] at r0 r1 e0 e1
  have : (a : UT) = b := by
    have := r0.trans r1.symm
    rw [e0, e1] at this
    simpa using this
  exact absurd this (by decide +kernel)

theorem C55_statement_false : ¬ C55_statement := fun h =>
  C55_violated.2.2.2 (h _ _ _ C55_violated.2.1 C55_violated.2.2.1)

/-! ### What the loop computes -/

theorem foldl_inv {P : St → Prop} {s : Subst} (hstep : ∀ st p, p ∈ s → P st → P (step st p)) (st : St) (h : P st) :
    P (s.foldl step st) := by
  have : ∀ (l : Subst) (st : St), (∀ p ∈ l, p ∈ s) → P st → P (l.foldl step st) := by
    intro l
    induction l with
    | nil => intro st _ h; exact h
    | cons p l ih =>
      intro st hl h
      exact ih _ (fun q hq => hl q (List.mem_cons_of_mem _ hq)) (hstep st p (hl p List.mem_cons_self) h)
  exact this s st (fun p hp => hp) h

theorem rounds_inv {P : St → Prop} {s : Subst} (hstep : ∀ st p, p ∈ s → P st → P (step st p))
    (hch : ∀ st : St, P st → P { st with changed := false }) (n : Nat) (st st' : St) (h : P st)
    (hr : rounds s n st = .ok st') : P st' := by
  induction n generalizing st with
  | zero => simp [rounds] at hr
  | succ n ih =>
    simp only [rounds] at hr
    have hP := foldl_inv hstep _ (hch st h)
    split at hr
    · exact ih _ hP hr
    · cases hr; exact hP

/-- The last round starts in some state and changes nothing. -/
theorem rounds_last {s : Subst} (n : Nat) (st st' : St) (hr : rounds s n st = .ok st') :
    ∃ st0 : St, st' = s.foldl step { st0 with changed := false } ∧ st'.changed = false := by
  induction n generalizing st with
  | zero => simp [rounds] at hr
  | succ n ih =>
    simp only [rounds] at hr
    split at hr
    · exact ih _ hr
    · rename_i hc
      cases hr
      exact ⟨st, rfl, by simpa using hc⟩

theorem step_rel_sub (st : St) (p : Nat × UT) : ∀ i ∈ st.rel, i ∈ (step st p).rel := by
  intro i hi
  unfold step
  split
  · split <;> exact hi
  · split
    · exact List.mem_append_left _ hi
    · exact hi

theorem foldl_rel_sub (l : Subst) (st : St) : ∀ i ∈ st.rel, i ∈ (l.foldl step st).rel := by
  induction l generalizing st with
  | nil => intro i hi; exact hi
  | cons p l ih => intro i hi; exact ih _ i (step_rel_sub st p i hi)

theorem step_changed (st : St) (p : Nat × UT) (h : (step st p).changed = false) :
    st.changed = false ∧ ∀ i ∈ (step st p).rel, i ∈ st.rel := by
  unfold step at h ⊢
  split at h
  · split at h
    · rename_i hp
      exact ⟨h, fun i hi => by simpa [hp] using hi⟩
    · rename_i hp
      exact ⟨h, fun i hi => by simpa [hp] using hi⟩
  · split at h
    · rename_i hp
      simp only [Bool.or_eq_false_iff, List.any_eq_false, decide_eq_true_eq] at h
      refine ⟨h.1, fun i hi => ?_⟩
      simp only [hp, if_true, List.mem_append] at hi
      rcases hi with hi | hi
      · exact hi
      · exact Classical.byContradiction (h.2 i hi)
    · rename_i hp
      exact ⟨h, fun i hi => by simpa [hp] using hi⟩

theorem step_res_sub (st : St) (p q : Nat × UT) (h : q ∈ st.res) : q ∈ (step st p).res := by
  unfold step
  split
  · split
    · exact Subst.mem_set_left h
    · exact h
  · split
    · exact Subst.mem_set_left h
    · exact h

theorem foldl_res_sub (l : Subst) (st : St) (q : Nat × UT) (h : q ∈ st.res) : q ∈ (l.foldl step st).res := by
  induction l generalizing st with
  | nil => exact h
  | cons p l ih => exact ih _ (step_res_sub st p q h)

theorem mem_set_self {s r : Subst} (hnd : s.keys.Nodup) (hr : ∀ q ∈ r, q ∈ s) {k : Nat} {v : UT} (h : (k, v) ∈ s) :
    (k, v) ∈ r.set k v := by
  unfold Subst.set
  split
  · rename_i hh
    rw [Subst.has_iff] at hh
    simp only [Subst.keys, List.mem_map] at hh
    obtain ⟨⟨k', v'⟩, hq, e⟩ := hh
    simp only at e
    subst e
    rwa [Subst.mem_unique hnd h (hr _ hq)]
  · simp

/-- After a round without changes the bindings of relevant metavariables have been recorded. -/
theorem foldl_done {s : Subst} (hnd : s.keys.Nodup) (l : Subst) (st : St) (hl : ∀ p ∈ l, p ∈ s)
    (hres : ∀ q ∈ st.res, q ∈ s) (hc : (l.foldl step st).changed = false) :
    (∀ i ∈ (l.foldl step st).rel, i ∈ st.rel) ∧ st.changed = false ∧
    ∀ p ∈ l, p.1 ∈ st.rel →
      (∀ z, p.2 = .mv z → z ∈ st.rel → p ∈ (l.foldl step st).res) ∧
      (∀ f args, p.2 = .fn f args → p ∈ (l.foldl step st).res ∧ ∀ i ∈ p.2.occ, i ∈ st.rel) := by
  induction l generalizing st with
  | nil => exact ⟨fun i hi => hi, hc, by simp⟩
  | cons p l ih =>
    have hps : p ∈ s := hl p List.mem_cons_self
    have hres' : ∀ q ∈ (step st p).res, q ∈ s := by
      intro q hq
      unfold step at hq
      split at hq
      · split at hq
        · rcases Subst.mem_set hq with h | h
          · exact hres _ h
          · rw [h]; exact hps
        · exact hres _ hq
      · split at hq
        · rcases Subst.mem_set hq with h | h
          · exact hres _ h
          · rw [h]; exact hps
        · exact hres _ hq
    obtain ⟨h1, h2, h3⟩ := ih (step st p) (fun q hq => hl q (List.mem_cons_of_mem _ hq)) hres' hc
    obtain ⟨h4, h5⟩ := step_changed st p h2
    refine ⟨fun i hi => h5 i (h1 i hi), h4, ?_⟩
    intro q hq hk
    rcases List.mem_cons.1 hq with rfl | hq
    · obtain ⟨k, v⟩ := q
      refine ⟨?_, ?_⟩
      · rintro z (e : v = .mv z) hz
        show _ ∈ (l.foldl step (step st _)).res
        apply foldl_res_sub
        subst e
        simp only [step]
        rw [if_pos ⟨hk, hz⟩]
        exact mem_set_self hnd hres hps
      · rintro f args (e : v = .fn f args)
        have hin : (k, v) ∈ (step st (k, v)).res := by
          subst e
          simp only [step]
          rw [if_pos (show k ∈ st.rel from hk)]
          exact mem_set_self hnd hres hps
        refine ⟨foldl_res_sub l (step st (k, v)) _ hin, ?_⟩
        intro i hi
        apply h5
        subst e
        simp only [step]
        rw [if_pos (show k ∈ st.rel from hk)]
        exact List.mem_append_right _ hi
    · obtain ⟨h6, h7⟩ := h3 q hq (step_rel_sub st p _ hk)
      exact ⟨fun z hz hzr => h6 z hz (step_rel_sub st p _ hzr),
        fun f args e => ⟨(h7 f args e).1, fun i hi => h5 i ((h7 f args e).2 i hi)⟩⟩

/-- What the loop leaves. -/
structure Post (s : Subst) (mm : List Nat) (st : St) : Prop where
  mm : ∀ i ∈ mm, i ∈ st.rel
  res : ∀ q ∈ st.res, q ∈ s
  reorg : ∀ q ∈ st.reorg, q ∈ s
  mv : ∀ k z, (k, .mv z) ∈ s → k ∈ st.rel → z ∈ st.rel → (k, .mv z) ∈ st.res
  fn : ∀ k f args, (k, .fn f args) ∈ s → k ∈ st.rel →
    (k, .fn f args) ∈ st.res ∧ ∀ i ∈ (UT.fn f args).occ, i ∈ st.rel

theorem step_sub {s : Subst} (st : St) (p : Nat × UT) (hp : p ∈ s)
    (h : (∀ q ∈ st.res, q ∈ s) ∧ (∀ q ∈ st.reorg, q ∈ s)) :
    (∀ q ∈ (step st p).res, q ∈ s) ∧ (∀ q ∈ (step st p).reorg, q ∈ s) := by
  have hset : ∀ {r : Subst}, (∀ q ∈ r, q ∈ s) → ∀ q ∈ r.set p.1 p.2, q ∈ s := by
    intro r hr q hq
    rcases Subst.mem_set hq with h | h
    · exact hr _ h
    · rw [h]; exact hp
  unfold step
  split
  · split
    · exact ⟨hset h.1, hset h.2⟩
    · exact h
  · split
    · exact ⟨hset h.1, h.2⟩
    · exact h

theorem rounds_post {s : Subst} (hnd : s.keys.Nodup) {mm : List Nat} {n : Nat} {st : St}
    (h : rounds s n { rel := mm } = .ok st) : Post s mm st := by
  have hsub := rounds_inv (P := fun st => (∀ q ∈ st.res, q ∈ s) ∧ (∀ q ∈ st.reorg, q ∈ s)) (s := s)
    (fun st p hp h => step_sub st p hp h) (fun st h => h) n _ st ⟨by simp, by simp⟩ h
  have hmm := rounds_inv (P := fun st => ∀ i ∈ mm, i ∈ st.rel) (s := s)
    (fun st p _ h i hi => step_rel_sub st p i (h i hi)) (fun st h => h) n _ st (fun i hi => hi) h
  obtain ⟨st0, e, hc⟩ := rounds_last n _ st h
  have hres0 : ∀ q ∈ st0.res, q ∈ s := fun q hq => hsub.1 q (by rw [e]; exact foldl_res_sub _ _ _ hq)
  rw [e] at hc
  obtain ⟨h1, _, h3⟩ := foldl_done hnd s _ (fun p hp => hp) (by exact hres0) hc
  rw [← e] at h1 h3
  have hin : ∀ i ∈ st0.rel, i ∈ st.rel := by
    intro i hi
    rw [e]
    exact foldl_rel_sub _ _ i (by exact hi)
  refine ⟨hmm, hsub.1, hsub.2, ?_, ?_⟩
  · intro k z hkz hk hz
    exact (h3 (k, .mv z) hkz (h1 k hk)).1 z rfl (h1 z hz)
  · intro k f args hkf hk
    obtain ⟨a, b⟩ := (h3 (k, .fn f args) hkf (h1 k hk)).2 f args rfl
    exact ⟨a, fun i hi => hin i (b i hi)⟩

/-! ### Reorganisation does nothing when no two metavariables share a value -/

theorem reorgInner_nil (p : Nat × UT) (s : Subst) (acc : Subst × List Nat)
    (h : ∀ q ∈ s, p.2 = q.2 → p.1 = q.1) : reorgInner p s acc = acc := by
  induction s generalizing acc with
  | nil => rfl
  | cons q s ih =>
    obtain ⟨res, seen⟩ := acc
    simp only [reorgInner]
    rw [if_neg (fun hc => hc.2.1 (h q List.mem_cons_self hc.1))]
    exact ih _ fun q' hq' => h q' (List.mem_cons_of_mem _ hq')

theorem reorgLoop_nil (s rest : Subst) (acc : Subst × List Nat) (hr : ∀ p ∈ rest, p ∈ s)
    (h : ∀ p ∈ s, ∀ q ∈ s, p.2 = q.2 → p.1 = q.1) : (reorgLoop s rest acc).1 = acc.1 := by
  induction rest generalizing acc with
  | nil => rfl
  | cons p rest ih =>
    obtain ⟨res, seen⟩ := acc
    simp only [reorgLoop]
    rw [reorgInner_nil p s _ (h p (hr p List.mem_cons_self))]
    exact ih _ fun q hq => hr q (List.mem_cons_of_mem _ hq)

theorem reorganize_nil (s : Subst) (h : ∀ p ∈ s, ∀ q ∈ s, p.2 = q.2 → p.1 = q.1) : reorganize s = [] :=
  reorgLoop_nil s s _ (fun p hp => hp) h

theorem elimBoth_nil {n : Nat} {r : Subst} (h : elimBoth n [] = .ok r) : r = [] := by
  cases n with
  | zero => simp [elimBoth, eliminate] at h
  | succ n =>
    simp only [elimBoth, elimMeta, elimMetaLoop, eliminate, elimRound, Res.bind] at h
    simpa using h.symm

theorem merge_nil (au : AU) (n : Nat) (s : Subst) : merge au n s [] = .ok s := by
  unfold merge
  split
  · rename_i h
    have : s = [] := by simpa using h
    rw [this]
  · simp

theorem failPanic_ok {α : Type} {x : Res α} {a : α} (h : failPanic x = .ok a) : x = .ok a := by
  cases x <;> simp_all [failPanic]

/-- No two metavariables are bound to the same metavariable. -/
def NoShared (s : Subst) : Prop := ∀ k k' z, (k, .mv z) ∈ s → (k', .mv z) ∈ s → k = k'

theorem reorg_mv {s : Subst} {n : Nat} {st st' : St} (h : rounds s n st = .ok st')
    (h0 : ∀ q ∈ st.reorg, ∃ z, q.2 = .mv z) : ∀ q ∈ st'.reorg, ∃ z, q.2 = .mv z := by
  refine rounds_inv (P := fun st => ∀ q ∈ st.reorg, ∃ z, q.2 = .mv z) (s := s) ?_ (fun st h => h) n st st' h0 h
  intro st p _ hst q hq
  unfold step at hq
  split at hq
  · rename_i z hz
    split at hq
    · rcases Subst.mem_set hq with h | h
      · exact hst _ h
      · rw [h]; exact ⟨z, hz⟩
    · exact hst _ hq
  · split at hq
    · exact hst _ hq
    · exact hst _ hq

/-- Without shared metavariables the result is what the loop recorded. -/
theorem clean_res {s : Subst} (hs : NoShared s) (hnd : s.keys.Nodup) {mm : List Nat} {r : Subst} {n : Nat}
    (h : clean n s mm = .ok r) : ∃ st, rounds s n { rel := mm } = .ok st ∧ Post s mm st ∧ r = st.res := by
  obtain ⟨st, hst, h⟩ := Res.bind_ok.1 h
  have hp := rounds_post hnd hst
  have hmv := reorg_mv hst (by simp)
  have hr : reorganize st.reorg = [] := by
    apply reorganize_nil
    rintro ⟨k, v⟩ hk ⟨k', v'⟩ hk' e
    simp only at e
    subst e
    obtain ⟨z, hz⟩ := hmv _ hk
    simp only at hz
    subst hz
    exact hs k k' z (hp.reorg _ hk) (hp.reorg _ hk')
  obtain ⟨r', hr', h⟩ := Res.bind_ok.1 (failPanic_ok h)
  rw [hr] at hr'
  rw [elimBoth_nil hr', merge_nil] at h
  exact ⟨st, hst, hp, by simpa using h.symm⟩

/-- **C55 without shared metavariables.** If no two metavariables are bound to the same metavariable, cleaning
a substitution in solved form loses nothing. (Missing in full C55: substitutions with such bindings, where it is
false.) -/
theorem C55_no_shared_partial (s : Subst) (mm : List Nat) (r : Subst) (hs : s.Solved)
    (hsh : ∀ k k' z, (k, .mv z) ∈ s → (k', .mv z) ∈ s → k = k') (h : Cleans s mm r) : Keeps mm s r := by
  obtain ⟨n, h⟩ := h
  obtain ⟨st, _, hp, rfl⟩ := clean_res hsh hs.1 h
  intro σ hσ
  classical
  let τ : Nat → UT := fun x =>
    if x ∈ st.rel then σ x
    else if hx : ∃ k, k ∈ st.rel ∧ (k, UT.mv x) ∈ s then σ hx.choose else σ x
  let σ' : Nat → UT := fun x => if x ∈ st.rel then σ x else match s.get x with
    | some v => v.inst τ
    | none => τ x
  have hrel : ∀ x ∈ st.rel, σ' x = σ x := fun x hx => by simp only [σ']; rw [if_pos hx]
  have hτrel : ∀ x ∈ st.rel, τ x = σ x := fun x hx => by simp only [τ]; rw [if_pos hx]
  have hnk : ∀ x, x ∉ s.keys → σ' x = τ x := by
    intro x hx
    by_cases hxr : x ∈ st.rel
    · rw [hrel x hxr, hτrel x hxr]
    · simp only [σ']
      rw [if_neg hxr, Subst.get_eq_none hx]
  have hval : ∀ p ∈ s, p.2.inst σ' = p.2.inst τ := by
    intro p hp
    apply UT.eval_congr
    intro i hi
    exact hnk i fun hk => hs.2 p hp i hk hi
  refine ⟨σ', fun x hx => hrel x (hp.mm x hx), ?_⟩
  rintro ⟨k, v⟩ hkv
  show σ' k = v.inst σ'
  rw [hval _ hkv]
  by_cases hk : k ∈ st.rel
  · rw [hrel k hk]
    cases v with
    | fn f args =>
      obtain ⟨h1, h2⟩ := hp.fn k f args hkv hk
      rw [hσ _ h1]
      apply UT.eval_congr
      intro i hi
      exact (hτrel i (h2 i hi)).symm
    | mv z =>
      show σ k = τ z
      by_cases hz : z ∈ st.rel
      · rw [hτrel z hz]
        exact hσ _ (hp.mv k z hkv hk hz)
      · have hx : ∃ k, k ∈ st.rel ∧ (k, UT.mv z) ∈ s := ⟨k, hk, hkv⟩
        have : τ z = σ hx.choose := by
          simp only [τ]
          rw [if_neg hz, dif_pos hx]
        rw [this, hsh _ _ _ hx.choose_spec.2 hkv]
  · simp only [σ']
    rw [if_neg hk, Subst.get_of_mem hs.1 hkv]

/-- The converse, same condition: the cleaned substitution demands nothing new. -/
theorem C55_no_more_partial (s : Subst) (mm : List Nat) (r : Subst) (hs : s.Solved)
    (hsh : ∀ k k' z, (k, .mv z) ∈ s → (k', .mv z) ∈ s → k = k') (h : Cleans s mm r) (σ : Nat → UT)
    (hσ : Respects σ s) : Respects σ r := by
  obtain ⟨n, h⟩ := h
  obtain ⟨st, _, hp, rfl⟩ := clean_res hsh hs.1 h
  exact fun q hq => hσ q (hp.res q hq)

open Sample in
/-- A case of the hypotheses: `X ↦ f(W), Y ↦ Z`, with `X` and `Y` of the father; `Y ↦ Z` is dropped. -/
example : Subst.Solved [(0, f [.mv 3]), (1, Z)] ∧ NoShared [(0, f [.mv 3]), (1, Z)] ∧
    Cleans [(0, f [.mv 3]), (1, Z)] [0, 1] [(0, f [.mv 3])] :=
  ⟨⟨by decide +kernel, by decide +kernel⟩, by intro k k' z; simp [f, Z]; omega, ⟨5, by decide +kernel⟩⟩

/-! ### Termination -/

/-- The metavariables in the values. -/
def vals (s : Subst) : List Nat := s.flatMap (fun p => p.2.occ)

def missing (s : Subst) (rel : List Nat) : Nat := ((vals s).filter (fun i => decide (i ∉ rel))).length

theorem filter_length_le {p q : Nat → Bool} (l : List Nat) (h : ∀ i ∈ l, q i = true → p i = true) :
    (l.filter q).length ≤ (l.filter p).length := by
  induction l with
  | nil => simp
  | cons a l ih =>
    have ih := ih fun i hi => h i (List.mem_cons_of_mem _ hi)
    have ha := h a List.mem_cons_self
    simp only [List.filter_cons]
    by_cases hq : q a = true
    · rw [if_pos hq, if_pos (ha hq)]; simpa using ih
    · rw [if_neg hq]
      split <;> simp <;> omega

theorem filter_length_lt {p q : Nat → Bool} (l : List Nat) (h : ∀ i ∈ l, q i = true → p i = true) {a : Nat}
    (ha : a ∈ l) (hp : p a = true) (hq : q a = false) : (l.filter q).length < (l.filter p).length := by
  induction l with
  | nil => simp at ha
  | cons b l ih =>
    have hle := filter_length_le l fun i hi => h i (List.mem_cons_of_mem _ hi)
    simp only [List.filter_cons]
    rcases List.mem_cons.1 ha with rfl | ha
    · rw [if_pos hp, if_neg (by simp [hq])]
      simp; omega
    · have ih := ih (fun i hi => h i (List.mem_cons_of_mem _ hi)) ha
      by_cases hqb : q b = true
      · rw [if_pos hqb, if_pos (h b List.mem_cons_self hqb)]; simpa using ih
      · rw [if_neg hqb]
        split <;> simp <;> omega

/-- If the flag is set, a new metavariable has become relevant. -/
theorem foldl_changed (s : Subst) (l : Subst) (st : St) (hl : ∀ p ∈ l, p ∈ s)
    (hc : (l.foldl step st).changed = true) :
    st.changed = true ∨ ∃ i ∈ vals s, i ∉ st.rel ∧ i ∈ (l.foldl step st).rel := by
  induction l generalizing st with
  | nil => exact Or.inl hc
  | cons p l ih =>
    rcases ih (step st p) (fun q hq => hl q (List.mem_cons_of_mem _ hq)) hc with h | ⟨i, hi, h1, h2⟩
    · by_cases hst : st.changed = true
      · exact Or.inl hst
      · right
        have hst : st.changed = false := by simpa using hst
        cases hv : p.2 with
        | mv z =>
          simp only [step, hv] at h
          split at h <;> simp_all
        | fn f args =>
          by_cases hk : p.1 ∈ st.rel
          · have e : step st p = { st with res := st.res.set p.1 p.2
                                           changed := st.changed || p.2.occ.any (fun i => decide (i ∉ st.rel))
                                           rel := st.rel ++ p.2.occ } := by
              simp only [step, hv, if_pos hk]
            rw [e] at h
            simp only [hst, Bool.false_or, List.any_eq_true, decide_eq_true_eq] at h
            obtain ⟨i, hi, hn⟩ := h
            refine ⟨i, List.mem_flatMap.2 ⟨p, hl p List.mem_cons_self, hi⟩, hn, ?_⟩
            show i ∈ (l.foldl step (step st p)).rel
            apply foldl_rel_sub
            rw [e]
            exact List.mem_append_right _ hi
          · simp only [step, hv, if_neg hk] at h
            rw [hst] at h
            cases h
    · exact Or.inr ⟨i, hi, fun hh => h1 (step_rel_sub st p i hh), h2⟩

theorem rounds_total (s : Subst) (n : Nat) (st : St) (h : missing s st.rel < n) : ∃ st', rounds s n st = .ok st' := by
  induction n generalizing st with
  | zero => omega
  | succ n ih =>
    simp only [rounds]
    split
    · rename_i hc
      apply ih
      rcases foldl_changed s s _ (fun p hp => hp) hc with h1 | ⟨i, hi, h1, h2⟩
      · simp at h1
      · have hlt : missing s (s.foldl step { st with changed := false }).rel < missing s st.rel := by
          refine filter_length_lt _ ?_ hi (by simpa using h1) (by simpa using h2)
          intro j _ hj
          simp only [decide_eq_true_eq] at hj ⊢
          exact fun hj' => hj (foldl_rel_sub _ _ j (by exact hj'))
        omega
    · exact ⟨_, rfl⟩

/-- **C55, termination.** Without shared metavariables cleaning ends, without failure. -/
theorem C55_total_partial (s : Subst) (mm : List Nat) (hnd : s.keys.Nodup)
    (hsh : ∀ k k' z, (k, .mv z) ∈ s → (k', .mv z) ∈ s → k = k') : ∃ r, Cleans s mm r := by
  have hn : missing s mm < missing s mm + 1 := by omega
  obtain ⟨st, hst⟩ := rounds_total s (missing s mm + 1) { rel := mm } hn
  have hp := rounds_post hnd hst
  have hmv := reorg_mv hst (by simp)
  have hr : reorganize st.reorg = [] := by
    apply reorganize_nil
    rintro ⟨k, v⟩ hk ⟨k', v'⟩ hk' e
    simp only at e
    subst e
    obtain ⟨z, hz⟩ := hmv _ hk
    simp only at hz
    subst hz
    exact hsh k k' z (hp.reorg _ hk) (hp.reorg _ hk')
  refine ⟨st.res, missing s mm + 1, ?_⟩
  have e : elimBoth (missing s mm + 1) [] = .ok [] := by
    simp [elimBoth, elimMeta, elimMetaLoop, eliminate, elimRound, Res.bind]
  unfold clean
  rw [hst]
  simp only [Res.bind, hr, e, merge_nil, failPanic]

/-! ### C56: pairing of cleaned and original substitutions -/

/-- `DispatchSubst(subs, mm)` returns `o`. -/
def Dispatches (subs : List Subst) (mm : List Nat) (o : Sorted) : Prop := ∃ n, dispatch n mm subs {} = .ok o

/-- C56 in full: the caller pairs the `i`-th cleaned substitution with the `i`-th original one
(src/Search/destructive.go:1217-1222), so this one has to be the one it was obtained from. -/
def C56_statement : Prop :=
  ∀ subs mm o, Dispatches subs mm o →
    o.withMM.length = o.uncleared.length ∧
    ∀ (i : Nat) (r s : Subst), o.withMM[i]? = some r → o.uncleared[i]? = some s → Cleans s mm r

open Sample in
/-- **C56 is violated.** Two of three candidates are cleaned to `X ↦ a`; the third, `X ↦ b`, is then paired
with the second original, which binds `X` to `a`. -/
theorem C56_violated :
    ∃ o, Dispatches [[(0, a), (2, a)], [(0, a), (2, b)], [(0, b)]] [0] o ∧
      o.withMM = [[(0, a)], [(0, b)]] ∧ o.uncleared = [[(0, a), (2, a)], [(0, a), (2, b)], [(0, b)]] ∧
      ¬ Cleans [(0, a), (2, b)] [0] [(0, b)] := by
  refine ⟨⟨[[(0, a)], [(0, b)]], [[(0, a), (2, a)], [(0, a), (2, b)], [(0, b)]], []⟩, ⟨5, ?_⟩, rfl, rfl, ?_⟩
  · decide +kernel
  · rintro ⟨n, h⟩
    obtain ⟨st, _, hp, e⟩ := clean_res (s := [(0, a), (2, b)])
      (by intro k k' z h; simp [a, b] at h) (by decide +kernel) h
    have := hp.res (0, b) (by rw [← e]; simp)
    simp [a, b] at this

theorem C56_statement_false : ¬ C56_statement := by
  intro h
  obtain ⟨o, hd, h1, h2, h3⟩ := C56_violated
  exact h3 ((h _ _ o hd).2 1 _ _ (by rw [h1]; rfl) (by rw [h2]; rfl))

theorem addNew_new {l : List Subst} {s : Subst} (h : s ∉ l) : addNew l s = l ++ [s] := by simp [addNew, h]

theorem dispatch_pairs (n : Nat) (mm : List Nat) (subs : List Subst) (o o' : Sorted)
    (h : dispatch n mm subs o = .ok o') (hnd : subs.Nodup) (hnew : ∀ s ∈ subs, s ∉ o.uncleared)
    (hinj : ∀ s ∈ subs, ∀ t ∈ subs, ∀ r, clean n s mm = .ok r → clean n t mm = .ok r → r ≠ [] → s = t)
    (hold : ∀ s ∈ subs, ∀ r ∈ o.withMM, clean n s mm ≠ .ok r)
    (hlen : o.withMM.length = o.uncleared.length)
    (hpair : ∀ (i : Nat) (r s : Subst), o.withMM[i]? = some r → o.uncleared[i]? = some s → clean n s mm = .ok r) :
    o'.withMM.length = o'.uncleared.length ∧
    ∀ (i : Nat) (r s : Subst), o'.withMM[i]? = some r → o'.uncleared[i]? = some s → clean n s mm = .ok r := by
  induction subs generalizing o with
  | nil => cases h; exact ⟨hlen, hpair⟩
  | cons s subs ih =>
    obtain ⟨r, hr, h⟩ := Res.bind_ok.1 h
    have hnd' := List.nodup_cons.1 hnd
    by_cases he : r.isEmpty
    · refine ih (sortOne o s r) h hnd'.2 ?_ ?_ ?_ ?_ ?_
      · intro t ht; simp only [sortOne, he, if_true]; exact hnew t (List.mem_cons_of_mem _ ht)
      · intro t ht u hu; exact hinj t (List.mem_cons_of_mem _ ht) u (List.mem_cons_of_mem _ hu)
      · intro t ht; simp only [sortOne, he, if_true]; exact hold t (List.mem_cons_of_mem _ ht)
      · simp only [sortOne, he, if_true]; exact hlen
      · simp only [sortOne, he, if_true]; exact hpair
    · have hne : r ≠ [] := by simpa using he
      have h1 : r ∉ o.withMM := fun hm => hold s List.mem_cons_self r hm hr
      have h2 : s ∉ o.uncleared := hnew s List.mem_cons_self
      have e : sortOne o s r = { o with withMM := o.withMM ++ [r], uncleared := o.uncleared ++ [s] } := by
        simp only [sortOne, he, Bool.false_eq_true, if_false, addNew_new h1, addNew_new h2]
      rw [e] at h
      refine ih _ h hnd'.2 ?_ ?_ ?_ ?_ ?_
      · intro t ht hm
        rcases List.mem_append.1 hm with hm | hm
        · exact hnew t (List.mem_cons_of_mem _ ht) hm
        · simp only [List.mem_singleton] at hm
          exact hnd'.1 (hm ▸ ht)
      · intro t ht u hu; exact hinj t (List.mem_cons_of_mem _ ht) u (List.mem_cons_of_mem _ hu)
      · intro t ht r' hr' hc
        rcases List.mem_append.1 hr' with hm | hm
        · exact hold t (List.mem_cons_of_mem _ ht) r' hm hc
        · simp only [List.mem_singleton] at hm
          subst hm
          have := hinj s List.mem_cons_self t (List.mem_cons_of_mem _ ht) r' hr hc hne
          exact hnd'.1 (this ▸ ht)
      · simp [hlen]
      · intro i r' s' hi hi'
        rw [List.getElem?_append] at hi hi'
        rw [hlen] at hi
        split at hi
        · rename_i hlt
          rw [if_pos hlt] at hi'
          exact hpair i r' s' hi hi'
        · rename_i hge
          rw [if_neg hge] at hi'
          have h0 : i - o.uncleared.length = 0 := by
            cases hk : i - o.uncleared.length with
            | zero => rfl
            | succ k => rw [hk] at hi; simp at hi
          rw [h0] at hi hi'
          simp only [List.getElem?_cons_zero, Option.some.injEq] at hi hi'
          rw [← hi, ← hi']
          exact hr

/-- **C56 for candidates with different remains.** If no two candidates are the same and no two are cleaned to the
same non-empty substitution, the pairing is right. -/
theorem C56_distinct_partial (subs : List Subst) (mm : List Nat) (o : Sorted) (h : Dispatches subs mm o)
    (hnd : subs.Nodup)
    (hinj : ∀ s ∈ subs, ∀ t ∈ subs, ∀ r, Cleans s mm r → Cleans t mm r → r ≠ [] → s = t) :
    o.withMM.length = o.uncleared.length ∧
    ∀ (i : Nat) (r s : Subst), o.withMM[i]? = some r → o.uncleared[i]? = some s → Cleans s mm r := by
  obtain ⟨n, h⟩ := h
  obtain ⟨h1, h2⟩ := dispatch_pairs n mm subs {} o h hnd (by simp)
    (fun s hs t ht r hr hr' => hinj s hs t ht r ⟨n, hr⟩ ⟨n, hr'⟩) (by simp) rfl (by simp)
  exact ⟨h1, fun i r s hi hi' => ⟨n, h2 i r s hi hi'⟩⟩

theorem mem_addNew {l : List Subst} {s t : Subst} : t ∈ addNew l s ↔ t ∈ l ∨ t = s := by
  unfold addNew
  split
  · rename_i h
    constructor
    · exact Or.inl
    · rintro (h' | rfl)
      · exact h'
      · exact h
  · simp

theorem dispatch_mem (n : Nat) (mm : List Nat) (subs : List Subst) (o o' : Sorted)
    (h : dispatch n mm subs o = .ok o') :
    (∀ s, s ∈ o'.withoutMM ↔ s ∈ o.withoutMM ∨ (s ∈ subs ∧ clean n s mm = .ok [])) ∧
    (∀ s, s ∈ o'.uncleared ↔ s ∈ o.uncleared ∨ (s ∈ subs ∧ ∃ r, r ≠ [] ∧ clean n s mm = .ok r)) ∧
    (∀ r, r ∈ o'.withMM ↔ r ∈ o.withMM ∨ (r ≠ [] ∧ ∃ s ∈ subs, clean n s mm = .ok r)) := by
  induction subs generalizing o with
  | nil => cases h; simp
  | cons s subs ih =>
    obtain ⟨r, hr, h⟩ := Res.bind_ok.1 h
    obtain ⟨h1, h2, h3⟩ := ih _ h
    by_cases he : r = []
    · subst he
      simp only [sortOne, List.isEmpty_nil, if_true] at h1 h2 h3
      refine ⟨fun t => ?_, fun t => ?_, fun t => ?_⟩
      · rw [h1, mem_addNew]
        constructor
        · rintro ((h | rfl) | h)
          · exact Or.inl h
          · exact Or.inr ⟨List.mem_cons_self, hr⟩
          · exact Or.inr ⟨List.mem_cons_of_mem _ h.1, h.2⟩
        · rintro (h | ⟨h, hc⟩)
          · exact Or.inl (Or.inl h)
          · rcases List.mem_cons.1 h with rfl | h
            · exact Or.inl (Or.inr rfl)
            · exact Or.inr ⟨h, hc⟩
      · rw [h2]
        constructor
        · rintro (h | ⟨h, hc⟩)
          · exact Or.inl h
          · exact Or.inr ⟨List.mem_cons_of_mem _ h, hc⟩
        · rintro (h | ⟨h, r', hne, hc⟩)
          · exact Or.inl h
          · rcases List.mem_cons.1 h with rfl | h
            · rw [hr] at hc; cases hc; exact absurd rfl hne
            · exact Or.inr ⟨h, r', hne, hc⟩
      · rw [h3]
        constructor
        · rintro (h | ⟨hne, u, hu, hc⟩)
          · exact Or.inl h
          · exact Or.inr ⟨hne, u, List.mem_cons_of_mem _ hu, hc⟩
        · rintro (h | ⟨hne, u, hu, hc⟩)
          · exact Or.inl h
          · rcases List.mem_cons.1 hu with rfl | hu
            · rw [hr] at hc; cases hc; exact absurd rfl hne
            · exact Or.inr ⟨hne, u, hu, hc⟩
    · have he' : r.isEmpty = false := by simpa using he
      simp only [sortOne, he', Bool.false_eq_true, if_false] at h1 h2 h3
      refine ⟨fun t => ?_, fun t => ?_, fun t => ?_⟩
      · rw [h1]
        constructor
        · rintro (h | ⟨h, hc⟩)
          · exact Or.inl h
          · exact Or.inr ⟨List.mem_cons_of_mem _ h, hc⟩
        · rintro (h | ⟨h, hc⟩)
          · exact Or.inl h
          · rcases List.mem_cons.1 h with rfl | h
            · rw [hr] at hc; cases hc; exact absurd rfl he
            · exact Or.inr ⟨h, hc⟩
      · rw [h2, mem_addNew]
        constructor
        · rintro ((h | rfl) | h)
          · exact Or.inl h
          · exact Or.inr ⟨List.mem_cons_self, r, he, hr⟩
          · exact Or.inr ⟨List.mem_cons_of_mem _ h.1, h.2⟩
        · rintro (h | ⟨h, hc⟩)
          · exact Or.inl (Or.inl h)
          · rcases List.mem_cons.1 h with rfl | h
            · exact Or.inl (Or.inr rfl)
            · exact Or.inr ⟨h, hc⟩
      · rw [h3, mem_addNew]
        constructor
        · rintro ((h | rfl) | ⟨hne, u, hu, hc⟩)
          · exact Or.inl h
          · exact Or.inr ⟨he, s, List.mem_cons_self, hr⟩
          · exact Or.inr ⟨hne, u, List.mem_cons_of_mem _ hu, hc⟩
        · rintro (h | ⟨hne, u, hu, hc⟩)
          · exact Or.inl (Or.inl h)
          · rcases List.mem_cons.1 hu with rfl | hu
            · rw [hr] at hc; cases hc; exact Or.inl (Or.inr rfl)
            · exact Or.inr ⟨hne, u, hu, hc⟩

/-- **C56, as sets.** The candidates are split into those that are cleaned to nothing and the other ones, and the
cleaned substitutions are those of the latter. -/
theorem C56_sets_partial (subs : List Subst) (mm : List Nat) (o : Sorted) (h : Dispatches subs mm o) :
    (∀ s ∈ subs, s ∈ o.withoutMM ∨ s ∈ o.uncleared) ∧
    (∀ s ∈ o.withoutMM, s ∈ subs ∧ Cleans s mm []) ∧
    (∀ s ∈ o.uncleared, s ∈ subs ∧ ∃ r ∈ o.withMM, r ≠ [] ∧ Cleans s mm r) ∧
    (∀ r ∈ o.withMM, r ≠ [] ∧ ∃ s ∈ o.uncleared, Cleans s mm r) := by
  obtain ⟨n, h⟩ := h
  obtain ⟨h1, h2, h3⟩ := dispatch_mem n mm subs {} o h
  simp only [List.not_mem_nil, false_or] at h1 h2 h3
  have hall : ∀ s ∈ subs, ∃ r, clean n s mm = .ok r := by
    have : ∀ (l : List Subst) (o o' : Sorted), dispatch n mm l o = .ok o' → ∀ s ∈ l, ∃ r, clean n s mm = .ok r := by
      intro l
      induction l with
      | nil => simp
      | cons t l ih =>
        intro o o' h s hs
        obtain ⟨r, hr, h⟩ := Res.bind_ok.1 h
        rcases List.mem_cons.1 hs with rfl | hs
        · exact ⟨r, hr⟩
        · exact ih _ _ h s hs
    exact this subs {} o h
  refine ⟨fun s hs => ?_, fun s hs => ?_, fun s hs => ?_, fun r hr => ?_⟩
  · obtain ⟨r, hr⟩ := hall s hs
    by_cases he : r = []
    · exact Or.inl ((h1 s).2 ⟨hs, by rw [hr, he]⟩)
    · exact Or.inr ((h2 s).2 ⟨hs, r, he, hr⟩)
  · exact ⟨((h1 s).1 hs).1, n, ((h1 s).1 hs).2⟩
  · obtain ⟨hs', r, hne, hr⟩ := (h2 s).1 hs
    exact ⟨hs', r, (h3 r).2 ⟨hne, s, hs', hr⟩, hne, n, hr⟩
  · obtain ⟨hne, s, hs, hc⟩ := (h3 r).1 hr
    exact ⟨hne, s, (h2 s).2 ⟨hs, r, hne, hc⟩, n, hc⟩

end Verif.Search.Clean
