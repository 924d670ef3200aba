import Verif.Unif.Props
/-!
# Choosing a substitution and collecting the answers of children (`src/Search/destructive.go`)

A substitution comes with the formulas it was found with (`SubstAndForm`); they play no role for the decisions
modelled here and are left out.
-/

namespace Verif.Search.Select
open Verif.Unif

/-! ## Choosing the next substitution -/

/-- `ContainsMetaMother` (src/Core/substitutions_search.go:198-219), without bindings of types. -/
def containsMother (mm : List Nat) (s : Subst) : Bool :=
  s.any fun p => decide (p.1 ∈ mm) || match p.2 with
    | .mv z => decide (z ∈ mm)
    | .fn _ _ => false

/-- The loop of `chooseSubstitutionDestructive` (src/Search/destructive.go:180-187): the first position before the
last one with a substitution that does not concern the father. -/
def findFree (mm : List Nat) (l : List Subst) : Option Nat :=
  (List.range (l.length - 1)).find? fun i => match l[i]? with
    | some s => !containsMother mm s
    | none => false

/-- `chooseSubstitutionDestructive` (src/Search/destructive.go:173-205). `rnd` is the result of `rand.Intn(len)`, a
number below the length. An empty list panics. -/
def choose (mm : List Nat) (rnd : Nat) (l : List Subst) : Option (Subst × List Subst) :=
  let i := (findFree mm l).getD rnd
  match l[i]?, l.getLast? with
  | some s, some last => some (s, if 1 < l.length then (l.set i last).dropLast else [])
  | _, _ => none

theorem swap_remove_perm {α : Type u} (l : List α) (i : Nat) (x last : α) (hx : l[i]? = some x)
    (hl : l.getLast? = some last) : (x :: (l.set i last).dropLast).Perm l := by
  obtain ⟨ys, rfl⟩ := List.getLast?_eq_some_iff.1 hl
  obtain ⟨hi, hx⟩ := List.getElem?_eq_some_iff.1 hx
  simp only [List.length_append, List.length_singleton] at hi
  by_cases h : i < ys.length
  · rw [List.set_append_left _ _ h, List.dropLast_concat]
    rw [List.getElem_append_left h] at hx
    obtain ⟨a, b, e, e2⟩ : ∃ a b, ys = a ++ x :: b ∧ a.length = i := by
      refine ⟨ys.take i, ys.drop (i + 1), ?_, by simp; omega⟩
      rw [← hx, List.getElem_cons_drop, List.take_append_drop]
    subst e e2
    rw [List.set_append_right _ _ (Nat.le_refl _)]
    simp only [Nat.sub_self, List.set_cons_zero]
    have h1 : (x :: (a ++ last :: b)).Perm (x :: last :: (a ++ b)) := List.Perm.cons _ List.perm_middle
    have h2 : (a ++ x :: b ++ [last]).Perm (last :: (a ++ x :: b)) := List.perm_append_comm
    have h3 : (last :: (a ++ x :: b)).Perm (last :: x :: (a ++ b)) := List.Perm.cons _ List.perm_middle
    exact h1.trans ((List.Perm.swap _ _ _).trans (h2.trans h3).symm)
  · have e : i = ys.length := by omega
    subst e
    rw [List.set_append_right _ _ (Nat.le_refl _)]
    simp only [Nat.sub_self, List.set_cons_zero, List.dropLast_concat]
    simp at hx
    subst hx
    exact (List.perm_append_comm (l₁ := ys) (l₂ := [last])).symm

theorem findFree_lt {mm : List Nat} {l : List Subst} {i : Nat} (h : findFree mm l = some i) : i < l.length := by
  have := List.mem_of_find?_eq_some h
  rw [List.mem_range] at this
  omega

/-- **C32, choice.** For every list of candidates and every random number in range there is a choice, and what is chosen
together with what is left are exactly the candidates. -/
theorem C32_choose (mm : List Nat) (rnd : Nat) (l : List Subst) (h : rnd < l.length) :
    ∃ s rest, choose mm rnd l = some (s, rest) ∧ (s :: rest).Perm l := by
  have hi : (findFree mm l).getD rnd < l.length := by
    cases hf : findFree mm l with
    | none => exact h
    | some i => exact findFree_lt hf
  obtain ⟨x, hx⟩ : ∃ x, l[(findFree mm l).getD rnd]? = some x := ⟨_, List.getElem?_eq_getElem hi⟩
  have hne : l ≠ [] := by rintro rfl; simp at h
  obtain ⟨last, hl⟩ : ∃ y, l.getLast? = some y := ⟨_, List.getLast?_eq_some_getLast hne⟩
  refine ⟨x, if 1 < l.length then (l.set ((findFree mm l).getD rnd) last).dropLast else [],
    by simp only [choose, hx, hl], ?_⟩
  split
  · exact swap_remove_perm l _ x last hx hl
  · have h1 : l.length = 1 := by omega
    obtain ⟨y, rfl⟩ := List.length_eq_one_iff.1 h1
    have hi0 : (findFree mm [y]).getD rnd = 0 := by simpa using hi
    rw [hi0] at hx
    simp at hx
    subst hx
    exact List.Perm.refl _

/-- Backtracking (`tryBTSubstitution`, src/Search/destructive.go:157-170) until nothing is left; `rnds` are the random
numbers. -/
def tryAll (mm : List Nat) (rnds : Nat → Nat) : Nat → List Subst → Option (List Subst)
  | 0, l => if l.isEmpty then some [] else none
  | n + 1, l => if l.isEmpty then some [] else
    match choose mm (rnds n % l.length) l with
    | none => none
    | some (s, rest) => (tryAll mm rnds n rest).map (s :: ·)

/-- **C32, every candidate is tried exactly once**, whatever the random numbers are. -/
theorem C32_all_tried (mm : List Nat) (rnds : Nat → Nat) (l : List Subst) :
    ∃ tried, tryAll mm rnds l.length l = some tried ∧ tried.Perm l := by
  have : ∀ n (l : List Subst), l.length = n → ∃ tried, tryAll mm rnds n l = some tried ∧ tried.Perm l := by
    intro n
    induction n with
    | zero =>
      intro l hl
      have : l = [] := List.length_eq_zero_iff.1 hl
      subst this
      exact ⟨[], rfl, List.Perm.refl _⟩
    | succ n ih =>
      intro l hl
      have hne : l.isEmpty = false := by cases l <;> simp_all
      obtain ⟨s, rest, h1, h2⟩ := C32_choose mm (rnds n % l.length) l (Nat.mod_lt _ (by omega))
      have hlen : rest.length = n := by
        have := h2.length_eq
        simp at this
        omega
      obtain ⟨tried, h3, h4⟩ := ih rest hlen
      exact ⟨s :: tried, by simp [tryAll, hne, h1, h3], (List.Perm.cons s h4).trans h2⟩
  exact this l.length l rfl

open Sample in
/-- The comment of the function promises substitutions without metavariables of the father first. The last
candidate is not looked at: here only `Z ↦ a` does not concern the father, and `X ↦ a` may be chosen. -/
theorem C32_preference_not_kept :
    choose [0] 0 [[(0, a)], [(2, a)]] = some ([(0, a)], [[(2, a)]]) ∧
    containsMother [0] [(0, a)] = true ∧ containsMother [0] [(2, a)] = false := by decide +kernel

open Sample in
example : choose [0] 0 [[(2, a)], [(0, a)], [(0, b)]] = some ([(2, a)], [[(0, b)], [(0, a)]]) := by decide +kernel

/-! ## Collecting answers -/

/-- What `selectChildren` uses of a `Result` of a child (src/Search/children.go:61-71). -/
structure Answer where
  closed : Bool
  substs : List Subst
deriving DecidableEq

/-- What `selectChildren` may receive: an answer of a child, or an order of the father (`true`: quit). -/
inductive Event where
  | answer (a : Answer)
  | order (quit : Bool)

/-- The status codes (src/Search/destructive.go:50-58). -/
inductive Status where
  | closeByItself | substForParent | substForChildren | quit | wait | opened
deriving DecidableEq

/-- The local variables (src/Search/destructive.go:693-704). -/
structure St where
  res : List Subst := []
  common : List Subst := []
  cpt : Nat := 0
  curSeen : Bool := false
deriving DecidableEq

/-- Adding the substitutions of a child that are not known yet (src/Search/destructive.go:802-854). -/
def addAll (cur : Subst) : List Subst → List Subst → List Subst
  | [], res => res
  | v :: vs, res => if v = cur then addAll cur vs res else if v ∈ res then addAll cur vs res
      else addAll cur vs (res ++ [v])

/-- A closed answer (src/Search/destructive.go:752-859). -/
def onClosed (cur : Subst) (st : St) (substs : List Subst) : St :=
  if substs = [] then st
  else if substs = [cur] then { st with curSeen := true }
  else { st with
    common := substs.flatMap (fun v => st.res.filter (fun r => decide (v = r)))
    res := addAll cur substs st.res
    cpt := st.cpt + 1 }

/-- The loop over the answers (src/Search/destructive.go:707-871), `n` answers being awaited. `none` as result is a loop
that waits for further events. -/
def loop (cur : Subst) : Nat → List Event → St → Option (Option Status × St)
  | 0, _, st => some (none, st)
  | _ + 1, [], _ => none
  | _ + 1, .order q :: _, st => some (some (if q then .quit else .wait), st)
  | n + 1, .answer a :: es, st => if a.closed then loop cur n es (onClosed cur st a.substs) else some (some .opened, st)

/-- Merging each of the substitutions with the current one (src/Search/destructive.go:902-915); `none`: failure, the
program stops (`Glob.Anomaly`). -/
def mergeAll (mrg : Subst → Subst → Option Subst) (cur : Subst) : List Subst → Option (List Subst)
  | [] => some []
  | s :: ss => if s = cur then mergeAll mrg cur ss else
      match mrg s cur, mergeAll mrg cur ss with
      | some r, some rs => some (r :: rs)
      | _, _ => none

/-- The end of `selectChildren` (src/Search/destructive.go:883-942); `none`: the program stops. -/
def finish (mrg : Subst → Subst → Option Subst) (cur : Subst) (status : Option Status) (st : St) :
    Option (Status × List Subst) :=
  let r : Option (Status × List Subst) :=
    match status with
    | some s => some (s, st.res)
    | none =>
      match st.cpt with
      | 0 => if st.curSeen then some (.substForParent, st.res ++ [cur]) else some (.closeByItself, st.res)
      | 1 => if cur = [] then some (.substForParent, st.res)
          else (mergeAll mrg cur st.res).map fun l => (.substForParent, l)
      | _ => if st.common ≠ [] then some (.substForParent, st.common)
          else if st.res.length = 1 then some (.substForParent, st.res)
          else some (.substForChildren, st.res)
  r.map fun p => (p.1, p.2.filter fun s => !s.isEmpty)

/-- `selectChildren` (src/Search/destructive.go:679-943) with `n` children, for a sequence of events in the order of their
arrival. `mrg` is `MergeSubstAndForm` (src/Core/subst_and_form.go:185-205). -/
def select (mrg : Subst → Subst → Option Subst) (cur : Subst) (n : Nat) (es : List Event) :
    Option (Status × List Subst) :=
  match loop cur n es {} with
  | none => none
  | some (status, st) => finish mrg cur status st

/-! ### Specification -/

/-- What an answer of a closed branch means: the branch is closed under the instantiation `σ`. Without substitutions
it is closed under all. -/
def ClosedBy (l : List Subst) (σ : Nat → UT) : Prop := l = [] ∨ ∃ s ∈ l, Respects σ s

/-- The merge satisfies both (C27). -/
def MergeSound (mrg : Subst → Subst → Option Subst) : Prop :=
  ∀ s t r, mrg s t = some r → ∀ σ, Respects σ r → Respects σ s ∧ Respects σ t

/-- Answers as children give them: all closed; no empty substitutions (`RemoveEmptySubstFromSubstAndFormList`,
src/Search/children.go:193), none twice; each extends the substitution given to the child. -/
structure Proper (cur : Subst) (l : List Subst) : Prop where
  nodup : l.Nodup
  nonempty : ∀ s ∈ l, s ≠ []
  extends' : ∀ s ∈ l, ∀ σ, Respects σ s → Respects σ cur

/-- C33 in full: what is reported to the parent closes all children, for all numbers of children and all orders of
arrival. -/
def C33_statement : Prop :=
  ∀ (mrg : Subst → Subst → Option Subst), MergeSound mrg → ∀ (cur : Subst) (ls : List (List Subst)) (st : Status)
    (r : List Subst), (∀ l ∈ ls, Proper cur l) →
    select mrg cur ls.length (ls.map fun l => .answer ⟨true, l⟩) = some (st, r) →
    st = .closeByItself ∨ st = .substForParent → ∀ σ, ClosedBy r σ → ∀ l ∈ ls, ClosedBy l σ

/-! ### C33 is violated -/

open Sample in
/-- **C33 is violated.** Three children: the first is closed by `X ↦ a`, the second and the third by `X ↦ b`. The node
reports `X ↦ b` to its parent, though the first child is not closed by it: the common substitutions
are reset for each child. With another order of arrival the node tries the substitutions on all children. -/
theorem C33_violated (mrg : Subst → Subst → Option Subst) :
    select mrg [] 3 [.answer ⟨true, [[(0, a)]]⟩, .answer ⟨true, [[(0, b)]]⟩, .answer ⟨true, [[(0, b)]]⟩] =
      some (.substForParent, [[(0, b)]]) ∧
    select mrg [] 3 [.answer ⟨true, [[(0, b)]]⟩, .answer ⟨true, [[(0, b)]]⟩, .answer ⟨true, [[(0, a)]]⟩] =
      some (.substForChildren, [[(0, b)], [(0, a)]]) ∧
    ∃ σ, ClosedBy [[(0, b)]] σ ∧ ¬ ClosedBy [[(0, a)]] σ := by
  refine ⟨by simp [select, loop, onClosed, addAll, finish, a, b], by simp [select, loop, onClosed, addAll, finish, a, b],
    fun _ => b, Or.inr ⟨_, List.mem_singleton.2 rfl, ?_⟩, ?_⟩
  · intro p hp
    simp only [List.mem_singleton] at hp
    subst hp
    rfl
  · rintro (h | ⟨s, hs, h⟩)
    · cases h
    · simp only [List.mem_singleton] at hs
      subst hs
      have := h (0, a) (by simp)
      exact absurd this (by decide +kernel)

open Sample in
theorem C33_statement_false : ¬ C33_statement := by
  intro h
  obtain ⟨h1, _, σ, h2, h3⟩ := C33_violated (fun _ _ => none)
  refine h3 (h (fun _ _ => none) (by intro s t r h; cases h) [] [[[(0, a)]], [[(0, b)]], [[(0, b)]]] _ _ ?_ h1
    (Or.inr rfl) σ h2 _ (by simp))
  intro l hl
  simp only [List.mem_cons, List.not_mem_nil, or_false] at hl
  rcases hl with rfl | rfl | rfl <;>
    exact ⟨by simp, by simp, fun _ _ _ _ p hp => by cases hp⟩

/-! ### What holds -/

/-- **C33, all children are heard.** A node is reported closed, or substitutions are passed on, only after as many answers as
there are children, each saying that the child is closed: no open child and no missing answer is overlooked. -/
theorem C33_all_closed (mrg : Subst → Subst → Option Subst) (cur : Subst) (n : Nat) (es : List Event) (st : Status)
    (r : List Subst) (h : select mrg cur n es = some (st, r))
    (hst : st = .closeByItself ∨ st = .substForParent ∨ st = .substForChildren) :
    n ≤ es.length ∧ ∀ e ∈ es.take n, ∃ l, e = .answer ⟨true, l⟩ := by
  have key : ∀ (es : List Event) (n : Nat) (s s' : St), loop cur n es s = some (none, s') →
      n ≤ es.length ∧ ∀ e ∈ es.take n, ∃ l, e = .answer ⟨true, l⟩ := by
    intro es
    induction es with
    | nil =>
      intro n s s' h
      cases n with
      | zero => simp
      | succ n => simp [loop] at h
    | cons e es ih =>
      intro n s s' h
      cases n with
      | zero => simp
      | succ n =>
        cases e with
        | order q => simp [loop] at h
        | answer a =>
          obtain ⟨c, l⟩ := a
          cases c with
          | false => simp [loop] at h
          | true =>
            simp only [loop, if_true] at h
            obtain ⟨h1, h2⟩ := ih n _ _ h
            refine ⟨by simp; omega, fun e he => ?_⟩
            rw [List.take_succ_cons] at he
            rcases List.mem_cons.1 he with rfl | he
            · exact ⟨l, rfl⟩
            · exact h2 e he
  have other : ∀ (es : List Event) (n : Nat) (s s' : St) (x : Status), loop cur n es s = some (some x, s') →
      x = .quit ∨ x = .wait ∨ x = .opened := by
    intro es
    induction es with
    | nil => intro n s s' x h; cases n <;> simp [loop] at h
    | cons e es ih =>
      intro n s s' x h
      cases n with
      | zero => simp [loop] at h
      | succ n =>
        cases e with
        | order q =>
          simp only [loop, Option.some.injEq, Prod.mk.injEq] at h
          cases q <;> simp_all
        | answer a =>
          obtain ⟨c, l⟩ := a
          cases c with
          | false => simp only [loop] at h; simp_all
          | true => simp only [loop, if_true] at h; exact ih n _ _ x h
  unfold select at h
  split at h
  · cases h
  · rename_i status s' hl
    cases status with
    | none => exact key es n {} s' hl
    | some x =>
      exfalso
      have hx := other es n {} s' x hl
      simp only [finish, Option.map_some, Option.some.injEq, Prod.mk.injEq] at h
      obtain ⟨rfl, _⟩ := h
      rcases hst with rfl | rfl | rfl <;> rcases hx with h | h | h <;> cases h

/-- Conversely an open child is acted upon at once. -/
theorem C33_opened (mrg : Subst → Subst → Option Subst) (cur : Subst) (n : Nat) (ls : List (List Subst)) (l : List Subst)
    (es : List Event) (hn : ls.length < n) :
    ∃ r, select mrg cur n ((ls.map fun l => .answer ⟨true, l⟩) ++ .answer ⟨false, l⟩ :: es) = some (.opened, r) := by
  have key : ∀ (ls : List (List Subst)) (n : Nat) (s : St), ls.length < n →
      ∃ s', loop cur n ((ls.map fun l => .answer ⟨true, l⟩) ++ .answer ⟨false, l⟩ :: es) s = some (some .opened, s') := by
    intro ls
    induction ls with
    | nil =>
      intro n s h
      cases n with
      | zero => simp at h
      | succ n => exact ⟨s, by simp [loop]⟩
    | cons x ls ih =>
      intro n s h
      cases n with
      | zero => simp at h
      | succ n =>
        obtain ⟨s', h'⟩ := ih n (onClosed cur s x) (by simpa using h)
        exact ⟨s', by simpa [loop] using h'⟩
  obtain ⟨s', h⟩ := key ls n {} hn
  exact ⟨s'.res.filter fun s => !s.isEmpty, by simp only [select, h, finish, Option.map_some]⟩

theorem mem_addAll (cur : Subst) (vs res : List Subst) (x : Subst) :
    x ∈ addAll cur vs res ↔ x ∈ res ∨ (x ∈ vs ∧ x ≠ cur) := by
  induction vs generalizing res with
  | nil => simp [addAll]
  | cons v vs ih =>
    simp only [addAll]
    split
    · rename_i h
      rw [ih]
      constructor
      · rintro (h | ⟨h1, h2⟩)
        · exact Or.inl h
        · exact Or.inr ⟨List.mem_cons_of_mem _ h1, h2⟩
      · rintro (h' | ⟨h1, h2⟩)
        · exact Or.inl h'
        · rcases List.mem_cons.1 h1 with rfl | h1
          · exact absurd h h2
          · exact Or.inr ⟨h1, h2⟩
    · rename_i hne
      split
      · rename_i hm
        rw [ih]
        constructor
        · rintro (h | ⟨h1, h2⟩)
          · exact Or.inl h
          · exact Or.inr ⟨List.mem_cons_of_mem _ h1, h2⟩
        · rintro (h' | ⟨h1, h2⟩)
          · exact Or.inl h'
          · rcases List.mem_cons.1 h1 with rfl | h1
            · exact Or.inl hm
            · exact Or.inr ⟨h1, h2⟩
      · rw [ih]
        constructor
        · rintro (h | ⟨h1, h2⟩)
          · rcases List.mem_append.1 h with h | h
            · exact Or.inl h
            · simp only [List.mem_singleton] at h
              subst h
              exact Or.inr ⟨List.mem_cons_self, hne⟩
          · exact Or.inr ⟨List.mem_cons_of_mem _ h1, h2⟩
        · rintro (h' | ⟨h1, h2⟩)
          · exact Or.inl (List.mem_append_left _ h')
          · rcases List.mem_cons.1 h1 with rfl | h1
            · exact Or.inl (List.mem_append_right _ (by simp))
            · exact Or.inr ⟨h1, h2⟩

/-- The answers that count as returning substitutions. -/
def counting (cur : Subst) (ls : List (List Subst)) : List (List Subst) :=
  ls.filter fun l => decide (l ≠ [] ∧ l ≠ [cur])

theorem loop_answers (cur : Subst) (ls : List (List Subst)) (st : St) :
    loop cur ls.length (ls.map fun l => .answer ⟨true, l⟩) st = some (none, ls.foldl (onClosed cur) st) := by
  induction ls generalizing st with
  | nil => simp [loop]
  | cons l ls ih => simp only [List.length_cons, List.map_cons, loop, if_true, ih, List.foldl_cons]

/-- The state after all answers: only counting answers matter, apart from the flag. -/
theorem fold_counting (cur : Subst) (ls : List (List Subst)) (st : St) :
    (ls.foldl (onClosed cur) st).res = ((counting cur ls).foldl (onClosed cur) st).res ∧
    (ls.foldl (onClosed cur) st).common = ((counting cur ls).foldl (onClosed cur) st).common ∧
    (ls.foldl (onClosed cur) st).cpt = ((counting cur ls).foldl (onClosed cur) st).cpt ∧
    (ls.foldl (onClosed cur) st).curSeen = (st.curSeen || decide ([cur] ∈ ls)) := by
  have key : ∀ (ls : List (List Subst)) (st st' : St), st.res = st'.res → st.common = st'.common → st.cpt = st'.cpt →
      (ls.foldl (onClosed cur) st).res = ((counting cur ls).foldl (onClosed cur) st').res ∧
      (ls.foldl (onClosed cur) st).common = ((counting cur ls).foldl (onClosed cur) st').common ∧
      (ls.foldl (onClosed cur) st).cpt = ((counting cur ls).foldl (onClosed cur) st').cpt ∧
      (ls.foldl (onClosed cur) st).curSeen = (st.curSeen || decide ([cur] ∈ ls)) := by
    intro ls
    induction ls with
    | nil => intro st st' h1 h2 h3; simp [counting, h1, h2, h3]
    | cons l ls ih =>
      intro st st' h1 h2 h3
      by_cases he : l = []
      · subst he
        have hc : counting cur ([] :: ls) = counting cur ls := by simp [counting]
        rw [hc]
        have := ih st st' h1 h2 h3
        simpa [onClosed] using this
      · by_cases hc : l = [cur]
        · subst hc
          have hcc : counting cur ([cur] :: ls) = counting cur ls := by simp [counting]
          rw [hcc]
          have := ih { st with curSeen := true } st' h1 h2 h3
          simpa [onClosed] using this
        · have hcc : counting cur (l :: ls) = l :: counting cur ls := by simp [counting, he, hc]
          rw [hcc]
          have e : ∀ s : St, onClosed cur s l = { s with
              common := l.flatMap (fun v => s.res.filter (fun r => decide (v = r)))
              res := addAll cur l s.res
              cpt := s.cpt + 1 } := fun s => by simp only [onClosed, if_neg he, if_neg hc]
          have := ih (onClosed cur st l) (onClosed cur st' l) (by simp [e, h1]) (by simp [e, h1]) (by simp [e, h3])
          refine ⟨this.1, this.2.1, this.2.2.1, ?_⟩
          have h4 := this.2.2.2
          rw [List.foldl_cons, h4]
          have : [cur] ≠ l := fun h => hc h.symm
          simp [e, this]
  exact key ls st st rfl rfl rfl

theorem mergeAll_mem {mrg : Subst → Subst → Option Subst} {cur : Subst} {l rs : List Subst}
    (h : mergeAll mrg cur l = some rs) :
    (∀ r ∈ rs, ∃ s ∈ l, mrg s cur = some r) ∧ (rs = [] → ∀ s ∈ l, s = cur) := by
  induction l generalizing rs with
  | nil => simp [mergeAll] at h; subst h; simp
  | cons s l ih =>
    simp only [mergeAll] at h
    split at h
    · rename_i hs
      obtain ⟨h1, h2⟩ := ih h
      refine ⟨fun r hr => ?_, fun he t ht => ?_⟩
      · obtain ⟨t, ht, hm⟩ := h1 r hr
        exact ⟨t, List.mem_cons_of_mem _ ht, hm⟩
      · rcases List.mem_cons.1 ht with rfl | ht
        · exact hs
        · exact h2 he t ht
    · split at h
      · rename_i r rs' hm hms
        simp only [Option.some.injEq] at h
        subst h
        obtain ⟨h1, _⟩ := ih hms
        refine ⟨fun t ht => ?_, by simp⟩
        rcases List.mem_cons.1 ht with rfl | ht
        · exact ⟨s, List.mem_cons_self, hm⟩
        · obtain ⟨u, hu, hmu⟩ := h1 t ht
          exact ⟨u, List.mem_cons_of_mem _ hu, hmu⟩
      · cases h

theorem counting_mem {cur : Subst} {ls : List (List Subst)} {l : List Subst} (h : l ∈ ls) :
    l = [] ∨ l = [cur] ∨ l ∈ counting cur ls := by
  by_cases h1 : l = []
  · exact Or.inl h1
  · by_cases h2 : l = [cur]
    · exact Or.inr (Or.inl h2)
    · exact Or.inr (Or.inr (by simp [counting, h, h1, h2]))

theorem other_of_counting {cur : Subst} {l : List Subst} (hp : Proper cur l) (h1 : l ≠ []) (h2 : l ≠ [cur]) :
    ∃ v ∈ l, v ≠ cur := by
  cases l with
  | nil => exact absurd rfl h1
  | cons a l =>
    by_cases ha : a = cur
    · cases l with
      | nil => exact absurd (by rw [ha]) h2
      | cons b l =>
        refine ⟨b, by simp, ?_⟩
        rintro rfl
        have := hp.nodup
        simp [ha] at this
    · exact ⟨a, by simp, ha⟩

/-- All children are closed if the counting ones are and the current substitution is respected. -/
theorem closed_all {cur : Subst} {ls : List (List Subst)} {σ : Nat → UT}
    (hc : ∀ l ∈ counting cur ls, ClosedBy l σ) (hcur : [cur] ∈ ls → Respects σ cur) : ∀ l ∈ ls, ClosedBy l σ := by
  intro l hl
  rcases counting_mem (cur := cur) hl with rfl | rfl | h
  · exact Or.inl rfl
  · exact Or.inr ⟨cur, by simp, hcur hl⟩
  · exact hc l h

/-- **C33 for at most two children with substitutions of their own.** Any number of children may answer without
substitutions or with exactly the current one; whatever the order of arrival, what is reported to the parent closes all
children. (Missing: three children with own substitutions, where it is false.) -/
theorem C33_two_children_partial (mrg : Subst → Subst → Option Subst) (hm : MergeSound mrg) (cur : Subst)
    (ls : List (List Subst)) (st : Status) (r : List Subst) (hp : ∀ l ∈ ls, Proper cur l)
    (h2 : (counting cur ls).length ≤ 2)
    (h : select mrg cur ls.length (ls.map fun l => .answer ⟨true, l⟩) = some (st, r))
    (hst : st = .closeByItself ∨ st = .substForParent) (σ : Nat → UT) (hσ : ClosedBy r σ) :
    ∀ l ∈ ls, ClosedBy l σ := by
  unfold select at h
  rw [loop_answers] at h
  obtain ⟨e1, e2, e3, e4⟩ := fold_counting cur ls {}
  simp only [Bool.false_or] at e4
  generalize hS : ls.foldl (onClosed cur) {} = S at h e1 e2 e3 e4
  have hcp : ∀ l ∈ counting cur ls, Proper cur l ∧ l ≠ [] ∧ l ≠ [cur] := by
    intro l hl
    simp only [counting, List.mem_filter, decide_eq_true_eq] at hl
    exact ⟨hp l hl.1, hl.2.1, hl.2.2⟩
  simp only [finish] at h
  match hc : counting cur ls, h2 with
  | [], _ =>
    rw [hc] at e1 e2 e3
    simp only [List.foldl_nil] at e1 e2 e3
    rw [e3] at h
    simp only at h
    by_cases hs : [cur] ∈ ls
    · have hcur0 : cur ≠ [] := (hp _ hs).nonempty cur (by simp)
      simp only [e4, hs, decide_true, if_true, e1, List.nil_append, Option.map_some, Option.some.injEq, Prod.mk.injEq] at h
      obtain ⟨_, rfl⟩ := h
      refine closed_all (cur := cur) (by rw [hc]; simp) fun _ => ?_
      rcases hσ with hσ | ⟨s, hs', hσ⟩
      · simp [hcur0] at hσ
      · simp only [List.mem_filter, List.mem_singleton] at hs'
        rw [← hs'.1]; exact hσ
    · exact closed_all (cur := cur) (by rw [hc]; simp) fun h => absurd h hs
  | [l1], _ =>
    obtain ⟨p1, n1, c1⟩ := hcp l1 (by rw [hc]; simp)
    rw [hc] at e1 e2 e3
    simp only [List.foldl_cons, List.foldl_nil, onClosed, if_neg n1, if_neg c1] at e1 e2 e3
    rw [e3] at h
    simp only [Nat.zero_add] at h
    have hres : ∀ x, x ∈ S.res ↔ x ∈ l1 ∧ x ≠ cur := by
      intro x; rw [e1, mem_addAll]; simp
    obtain ⟨v, hv, hvc⟩ := other_of_counting p1 n1 c1
    by_cases hcur : cur = []
    · rw [if_pos hcur] at h
      simp only [Option.map_some, Option.some.injEq, Prod.mk.injEq] at h
      obtain ⟨_, rfl⟩ := h
      have hex : ∃ s ∈ l1, Respects σ s := by
        rcases hσ with hσ | ⟨s, hs, hσ⟩
        · rw [List.filter_eq_nil_iff] at hσ
          have := hσ v ((hres v).2 ⟨hv, hvc⟩)
          have hvn := p1.nonempty v hv
          simp [hvn] at this
        · exact ⟨s, ((hres s).1 (List.mem_filter.1 hs).1).1, hσ⟩
      refine closed_all (cur := cur) ?_ fun _ => ?_
      · rw [hc]; intro l hl; simp only [List.mem_singleton] at hl; subst hl; exact Or.inr hex
      · subst hcur; intro p hp; cases hp
    · rw [if_neg hcur] at h
      cases hma : mergeAll mrg cur S.res with
      | none => rw [hma] at h; simp at h
      | some rs =>
        rw [hma] at h
        simp only [Option.map_some, Option.some.injEq, Prod.mk.injEq] at h
        obtain ⟨_, rfl⟩ := h
        obtain ⟨hm1, hm2⟩ := mergeAll_mem hma
        have hmem : ∀ x ∈ rs, Respects σ x → (∃ s ∈ l1, Respects σ s) ∧ Respects σ cur := by
          intro x hx hσx
          obtain ⟨s, hs, hms⟩ := hm1 x hx
          obtain ⟨h5, h6⟩ := hm s cur x hms σ hσx
          exact ⟨⟨s, ((hres s).1 hs).1, h5⟩, h6⟩
        have hex : (∃ s ∈ l1, Respects σ s) ∧ Respects σ cur := by
          rcases hσ with hσ | ⟨s, hs, hσ⟩
          · rw [List.filter_eq_nil_iff] at hσ
            cases rs with
            | nil => exact absurd (hm2 rfl v ((hres v).2 ⟨hv, hvc⟩)) hvc
            | cons x rs =>
              have : x = [] := by simpa using hσ x (by simp)
              exact hmem x (by simp) (by rw [this]; intro p hp; cases hp)
          · exact hmem s (List.mem_filter.1 hs).1 hσ
        refine closed_all (cur := cur) ?_ fun _ => hex.2
        rw [hc]; intro l hl; simp only [List.mem_singleton] at hl; subst hl; exact Or.inr hex.1
  | [l1, l2], _ =>
    obtain ⟨p1, n1, c1⟩ := hcp l1 (by rw [hc]; simp)
    obtain ⟨p2, n2, c2⟩ := hcp l2 (by rw [hc]; simp)
    rw [hc] at e1 e2 e3
    simp only [List.foldl_cons, List.foldl_nil, onClosed, if_neg n1, if_neg c1, if_neg n2, if_neg c2] at e1 e2 e3
    rw [e3] at h
    simp only [Nat.zero_add, Nat.reduceAdd] at h
    have hcom : ∀ x, x ∈ S.common ↔ x ∈ l1 ∧ x ∈ l2 ∧ x ≠ cur := by
      intro x
      rw [e2]
      simp only [List.mem_flatMap, List.mem_filter, decide_eq_true_eq, mem_addAll, List.not_mem_nil, false_or]
      constructor
      · rintro ⟨v, hv, ⟨h1, h2⟩, rfl⟩; exact ⟨h1, hv, h2⟩
      · rintro ⟨h1, h2, h3⟩; exact ⟨x, h2, ⟨h1, h3⟩, rfl⟩
    by_cases hne : S.common ≠ []
    · rw [if_pos hne] at h
      simp only [Option.map_some, Option.some.injEq, Prod.mk.injEq] at h
      obtain ⟨_, rfl⟩ := h
      have hex : ∃ s, s ∈ l1 ∧ s ∈ l2 ∧ Respects σ s := by
        rcases hσ with hσ | ⟨s, hs, hσ⟩
        · exfalso
          rw [List.filter_eq_nil_iff] at hσ
          obtain ⟨x, hx⟩ := List.exists_mem_of_ne_nil _ hne
          have := hσ x hx
          have hxn := p1.nonempty x ((hcom x).1 hx).1
          simp [hxn] at this
        · obtain ⟨h1, h2, _⟩ := (hcom s).1 (List.mem_filter.1 hs).1
          exact ⟨s, h1, h2, hσ⟩
      obtain ⟨s, hs1, hs2, hσs⟩ := hex
      refine closed_all (cur := cur) ?_ fun _ => p1.extends' s hs1 σ hσs
      rw [hc]
      intro l hl
      simp only [List.mem_cons, List.not_mem_nil, or_false] at hl
      rcases hl with rfl | rfl
      · exact Or.inr ⟨s, hs1, hσs⟩
      · exact Or.inr ⟨s, hs2, hσs⟩
    · rw [if_neg hne] at h
      split at h
      · exfalso
        rename_i hlen
        obtain ⟨w, hw⟩ := List.length_eq_one_iff.1 hlen
        have hres : ∀ x, x ∈ S.res ↔ (x ∈ l1 ∨ x ∈ l2) ∧ x ≠ cur := by
          intro x
          rw [e1, mem_addAll, mem_addAll]
          simp only [List.not_mem_nil, false_or]
          constructor
          · rintro (⟨h1, h2⟩ | ⟨h1, h2⟩)
            · exact ⟨Or.inl h1, h2⟩
            · exact ⟨Or.inr h1, h2⟩
          · rintro ⟨h1 | h1, h2⟩
            · exact Or.inl ⟨h1, h2⟩
            · exact Or.inr ⟨h1, h2⟩
        obtain ⟨v1, hv1, hvc1⟩ := other_of_counting p1 n1 c1
        obtain ⟨v2, hv2, hvc2⟩ := other_of_counting p2 n2 c2
        have hw1 := (hres v1).2 ⟨Or.inl hv1, hvc1⟩
        have hw2 := (hres v2).2 ⟨Or.inr hv2, hvc2⟩
        rw [hw, List.mem_singleton] at hw1 hw2
        apply hne
        apply List.ne_nil_of_mem
        exact (hcom w).2 ⟨hw1 ▸ hv1, hw2 ▸ hv2, hw1 ▸ hvc1⟩
      · simp only [Option.map_some, Option.some.injEq, Prod.mk.injEq] at h
        obtain ⟨rfl, _⟩ := h
        rcases hst with h | h <;> cases h
  | _ :: _ :: _ :: _, h2 => simp at h2

open Sample in
/-- A case of the hypotheses: two children agree on `X ↦ b`, a third one is closed without substitutions. -/
example (mrg : Subst → Subst → Option Subst) :
    select mrg [] 3 ([[[(0, a)], [(0, b)]], [], [[(0, b)]]].map fun l => .answer ⟨true, l⟩) =
      some (.substForParent, [[(0, b)]]) ∧
    (counting [] [[[(0, a)], [(0, b)]], [], [[(0, b)]]]).length = 2 := by
  refine ⟨by simp [select, loop, onClosed, addAll, finish, a, b], by decide +kernel⟩

end Verif.Search.Select
