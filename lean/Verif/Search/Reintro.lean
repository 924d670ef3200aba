/-!
# Reintroduction of quantified formulas (`src/Core/meta_gen.go`)

A universal formula that was instantiated is kept with the number of its instantiations (`MetaGen`). When no
other rule applies, one of them is instantiated again. The formulas play no role for the choice, so a list
of `MetaGen` is the list of its counters; `src/Search/destructive.go:1379-1410` always passes index -1.
-/

namespace Verif.Search.Reintro

/-- The loop of `chooseLessReintroducedMeta` with `allowed_indexes = nil` (src/Core/meta_gen.go:121-128):
`i` is the position, `cpt` is `saved_cpt` (`none` for -1), `idx` is `saved_index`. -/
def chooseLoop : List Nat → Nat → Option Nat → Nat → Nat
  | [], _, _, idx => idx
  | c :: rest, i, cpt, idx =>
    match cpt with
    | none => chooseLoop rest (i + 1) (some c) i
    | some m => if c < m then chooseLoop rest (i + 1) (some c) i else chooseLoop rest (i + 1) (some m) idx

/-- `chooseLessReintroducedMeta` (src/Core/meta_gen.go:120-130). -/
def choose (cs : List Nat) : Nat := chooseLoop cs 0 none 0

/-- `ReintroduceMeta` (src/Core/meta_gen.go:159-169); index -1 is `none`. The result is the position of the
formula that is reintroduced and the new counters; access to an empty list panics. -/
def reintroduce (cs : List Nat) (index : Option Nat) (limit : Nat) : Option (Nat × List Nat) :=
  let less : Option (Nat × List Nat) :=
    match cs[choose cs]? with
    | some c => some (choose cs, cs.set (choose cs) (c + 1))
    | none => none
  match index with
  | none => less
  | some i => match cs[i]? with
    | none => none
    | some c => if c ≤ limit then some (i, cs.set i (c + 1)) else less

/-- `n` reintroductions one after the other; the positions chosen and the counters at the end. -/
def run : Nat → List Nat → Option (List Nat × List Nat)
  | 0, cs => some ([], cs)
  | n + 1, cs => do
    let (i, cs') ← reintroduce cs none 0
    let (is, cs'') ← run n cs'
    return (i :: is, cs'')

/-! ### The choice -/

theorem chooseLoop_spec (pre rest : List Nat) (m idx : Nat) (hidx : (pre ++ rest)[idx]? = some m)
    (hi : idx < pre.length) (hmin : ∀ c ∈ pre, m ≤ c) :
    ∃ m', (pre ++ rest)[chooseLoop rest pre.length (some m) idx]? = some m' ∧ ∀ c ∈ pre ++ rest, m' ≤ c := by
  induction rest generalizing pre m idx with
  | nil => exact ⟨m, by simpa [chooseLoop] using hidx, by simpa using hmin⟩
  | cons c rest ih =>
    have e : pre ++ c :: rest = (pre ++ [c]) ++ rest := by simp
    rw [e] at hidx ⊢
    have hl : (pre ++ [c]).length = pre.length + 1 := by simp
    simp only [chooseLoop]
    split
    · rename_i hlt
      rw [← hl]
      refine ih (pre ++ [c]) c pre.length ?_ (by omega) ?_
      · simp
      · intro d hd
        rcases List.mem_append.1 hd with hd | hd
        · have := hmin d hd; omega
        · simp at hd; omega
    · rename_i hlt
      rw [← hl]
      refine ih (pre ++ [c]) m idx hidx (by omega) ?_
      intro d hd
      rcases List.mem_append.1 hd with hd | hd
      · exact hmin d hd
      · simp at hd; omega

theorem choose_spec (cs : List Nat) (h : cs ≠ []) : ∃ m, cs[choose cs]? = some m ∧ ∀ c ∈ cs, m ≤ c := by
  cases cs with
  | nil => exact absurd rfl h
  | cons c rest =>
    have := chooseLoop_spec [c] rest c 0 (by simp) (by simp) (by simp)
    simpa [choose, chooseLoop] using this

theorem reintroduce_spec (cs : List Nat) (h : cs ≠ []) :
    ∃ i m, reintroduce cs none 0 = some (i, cs.set i (m + 1)) ∧ cs[i]? = some m ∧ ∀ c ∈ cs, m ≤ c := by
  obtain ⟨m, h1, h2⟩ := choose_spec cs h
  exact ⟨choose cs, m, by simp [reintroduce, h1], h1, h2⟩

/-! ### C31 -/

/-- **C31, choice.** What is reintroduced has been instantiated the fewest times; its counter grows by one and no
other counter changes. -/
theorem C31_least (cs : List Nat) (h : cs ≠ []) (limit : Nat) :
    ∃ i m, reintroduce cs none limit = some (i, cs.set i (m + 1)) ∧ cs[i]? = some m ∧ ∀ c ∈ cs, m ≤ c :=
  reintroduce_spec cs h

/-- **C31, a requested formula.** A formula asked for by its position (as the assisted mode does) is reintroduced as
long as its counter is within the limit; otherwise one of the least instantiated ones is. -/
theorem C31_requested (cs : List Nat) (i c limit : Nat) (h : cs[i]? = some c) :
    (c ≤ limit → reintroduce cs (some i) limit = some (i, cs.set i (c + 1))) ∧
    (limit < c → ∃ j m, reintroduce cs (some i) limit = some (j, cs.set j (m + 1)) ∧ cs[j]? = some m ∧
      ∀ d ∈ cs, m ≤ d) := by
  refine ⟨fun hl => by simp [reintroduce, h, hl], fun hl => ?_⟩
  have hne : cs ≠ [] := by rintro rfl; simp at h
  obtain ⟨m, h1, h2⟩ := choose_spec cs hne
  exact ⟨choose cs, m, by simp [reintroduce, h, Nat.not_le.2 hl, h1], h1, h2⟩

/-- The third formula is asked for: within the limit it is taken, beyond it the second one is. -/
example : reintroduce [2, 1, 3] (some 2) 3 = some (2, [2, 1, 4]) ∧
    reintroduce [2, 1, 3] (some 2) 2 = some (1, [2, 2, 3]) := by decide

theorem set_mem {cs : List Nat} {i m d : Nat} (h : cs[i]? = some m) (hd : d ∈ cs.set i (m + 1)) : d ∈ cs ∨ d = m + 1 :=
  List.mem_or_eq_of_mem_set hd

theorem reintroduce_spread (cs : List Nat) (k i : Nat) (cs' : List Nat) (hk : 1 ≤ k)
    (hs : ∀ c ∈ cs, ∀ d ∈ cs, c ≤ d + k) (h : reintroduce cs none 0 = some (i, cs')) :
    cs'.length = cs.length ∧ ∀ c ∈ cs', ∀ d ∈ cs', c ≤ d + k := by
  have hne : cs ≠ [] := by
    rintro rfl
    simp [reintroduce, choose, chooseLoop] at h
  obtain ⟨j, m, h1, h2, h3⟩ := reintroduce_spec cs hne
  rw [h1] at h
  simp only [Option.some.injEq, Prod.mk.injEq] at h
  obtain ⟨_, rfl⟩ := h
  refine ⟨by simp, fun c hc d hd => ?_⟩
  have hm : m ∈ cs := List.mem_of_getElem? h2
  rcases set_mem h2 hc with hc | rfl <;> rcases set_mem h2 hd with hd | rfl
  · exact hs c hc d hd
  · have := hs c hc m hm; omega
  · have := h3 d hd; omega
  · omega

/-- **C31, balance.** If the counters differ by at most `k ≥ 1` at the start, they do so after any number of
reintroductions. -/
theorem C31_balance (n : Nat) (cs : List Nat) (k : Nat) (hk : 1 ≤ k) (hs : ∀ c ∈ cs, ∀ d ∈ cs, c ≤ d + k)
    (is cs' : List Nat) (h : run n cs = some (is, cs')) :
    cs'.length = cs.length ∧ ∀ c ∈ cs', ∀ d ∈ cs', c ≤ d + k := by
  induction n generalizing cs is with
  | zero =>
    simp only [run, Option.some.injEq, Prod.mk.injEq] at h
    obtain ⟨_, rfl⟩ := h
    exact ⟨rfl, hs⟩
  | succ n ih =>
    simp only [run, Option.bind_eq_bind, Option.bind_eq_some_iff, Option.pure_def, Option.some.injEq,
      Prod.mk.injEq] at h
    obtain ⟨⟨i, cs1⟩, h1, ⟨is1, cs2⟩, h2, _, rfl⟩ := h
    obtain ⟨h3, h4⟩ := reintroduce_spread cs k i cs1 hk hs h1
    obtain ⟨h5, h6⟩ := ih cs1 h4 is1 h2
    exact ⟨h5.trans h3, h6⟩

/-- **C31, difference of at most one** when all formulas start with the same number of instantiations, as formulas
that enter the list do (`GetIndexMetaGenList`, src/Core/meta_gen.go:100-108, starts them with 1). -/
theorem C31_differ_by_one (n k len : Nat) (is cs' : List Nat) (h : run n (List.replicate len k) = some (is, cs')) :
    ∀ c ∈ cs', ∀ d ∈ cs', c ≤ d + 1 := by
  refine (C31_balance n _ 1 (Nat.le_refl 1) ?_ is cs' h).2
  intro c hc d hd
  rw [List.mem_replicate] at hc hd
  omega

/-- A run never panics on a non-empty list. -/
theorem C31_run_total (n : Nat) (cs : List Nat) (h : cs ≠ []) : ∃ r, run n cs = some r := by
  induction n generalizing cs with
  | zero => exact ⟨_, rfl⟩
  | succ n ih =>
    obtain ⟨i, m, h1, h2, _⟩ := reintroduce_spec cs h
    obtain ⟨r, hr⟩ := ih (cs.set i (m + 1)) (by
      intro e
      have := congrArg List.length e
      simp at this
      exact h this)
    exact ⟨(i :: r.1, r.2), by simp [run, h1, hr]⟩

/-! ### No starvation -/

/-- How much is to be done before everything has counter at least `k`. -/
def todo (k : Nat) (cs : List Nat) : Nat := (cs.map (fun c => k - c)).sum

theorem todo_set (k : Nat) (cs : List Nat) (i m : Nat) (h : cs[i]? = some m) (hm : m < k) :
    todo k (cs.set i (m + 1)) + 1 = todo k cs := by
  induction cs generalizing i with
  | nil => simp at h
  | cons c cs ih =>
    cases i with
    | zero =>
      simp only [List.getElem?_cons_zero, Option.some.injEq] at h
      subst h
      simp only [todo, List.set_cons_zero, List.map_cons, List.sum_cons]
      omega
    | succ i =>
      simp only [List.getElem?_cons_succ] at h
      have := ih i h
      simp only [todo, List.set_cons_succ, List.map_cons, List.sum_cons] at this ⊢
      omega

theorem set_get_ne {cs : List Nat} {i j v : Nat} (h : i ≠ j) : (cs.set i v)[j]? = cs[j]? := by
  rw [List.getElem?_set]; simp [h]

theorem reintroduced (n : Nat) (cs : List Nat) (j c : Nat) (hj : cs[j]? = some c) (is cs' : List Nat)
    (hn : todo (c + 1) cs ≤ n) (h : run n cs = some (is, cs')) : j ∈ is := by
  induction n generalizing cs is with
  | zero =>
    exfalso
    have : ∀ (l : List Nat), c ∈ l → 0 < todo (c + 1) l := by
      intro l
      induction l with
      | nil => simp
      | cons d l ih =>
        intro hc
        simp only [todo, List.map_cons, List.sum_cons]
        rcases List.mem_cons.1 hc with rfl | hc
        · omega
        · have := ih hc
          simp only [todo] at this
          omega
    have := this cs (List.mem_of_getElem? hj)
    omega
  | succ n ih =>
    simp only [run, Option.bind_eq_bind, Option.bind_eq_some_iff, Option.pure_def, Option.some.injEq,
      Prod.mk.injEq] at h
    obtain ⟨⟨i, cs1⟩, h1, ⟨is1, cs2⟩, h2, rfl, rfl⟩ := h
    have hne : cs ≠ [] := by rintro rfl; simp at hj
    obtain ⟨i', m, h3, h4, h5⟩ := reintroduce_spec cs hne
    rw [h3] at h1
    simp only [Option.some.injEq, Prod.mk.injEq] at h1
    obtain ⟨rfl, rfl⟩ := h1
    by_cases hij : i' = j
    · subst hij; exact List.mem_cons_self
    · have hm : m ≤ c := h5 c (List.mem_of_getElem? hj)
      have := todo_set (c + 1) cs i' m h4 (by omega)
      exact List.mem_cons_of_mem _ (ih (cs.set i' (m + 1)) (by rw [set_get_ne hij]; exact hj) is1 (by omega) h2)

/-- **C31, no starvation.** Whatever the counters are, every formula is reintroduced within a number of
reintroductions that is known in advance: what it takes to bring all counters above its own. -/
theorem C31_no_starvation (cs : List Nat) (j c : Nat) (hj : cs[j]? = some c) (n : Nat)
    (hn : (cs.map (fun d => c + 1 - d)).sum ≤ n) (is cs' : List Nat) (h : run n cs = some (is, cs')) : j ∈ is :=
  reintroduced n cs j c hj is cs' hn h

/-- Three formulas with counters 2, 1, 2: the second is first, then the first, … -/
example : run 4 [2, 1, 2] = some ([1, 0, 1, 2], [3, 3, 3]) := by decide

end Verif.Search.Reintro
