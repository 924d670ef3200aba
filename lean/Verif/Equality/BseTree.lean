import Verif.Unif.GroundAnswers
/-!
# The index of terms used by the equality reasoning (`src/Mods/equality/bse`, `src/Unif`)

The sides of the equalities of a branch are stored in a code tree, in which the terms unifiable with a given term are looked
up. The tree is that of `Verif.Unif.CodeTree`, the machine that of `Verif.Unif.Machine`; what is stored is a term
(`TermForm`) instead of an atomic formula, with a slightly different code.
-/

namespace Verif.Equality.Bse

open Verif.Unif

/-- `ParseFormula` for a term (src/Unif/parsing.go:125-139). -/
def code (t : UT) : List Instr := .begin :: (parseL 0 [] [t] ++ [.fin none])

/-- `makeDataStructFromEqualities` (src/Mods/equality/bse/equality_problem.go:138-144) with `makeCodeTree`
(src/Unif/code-trees.go:129-139). -/
def tree (E : List (UT × UT)) : Option (Node Instr UT) :=
  (Node.empty : Node Instr UT).insertAll ((E.flatMap fun e => [e.1, e.2]).map fun t => (code t, t))

/-- The results of a leaf (src/Unif/matching.go:177-187), as in `Verif.Unif.leafResults`. -/
def leaf (au : AU) (n : Nat) (m : M) : List UT → Option (List UT)
  | [] => some []
  | f :: rest =>
    match compute false au n f.occ m.subst m.mt with
    | .ok _ => (leaf au n m rest).map (f :: ·)
    | .fail => leaf au n m rest
    | .panic => none
    | .out => none

/-- `unifyAux` (src/Unif/matching.go:103-191) with `launchChildrenSearch` (205-240), as in `Verif.Unif.Search`; only the terms of the
answer are used (`checkUnifInTree`, src/Mods/equality/bse/equality_rules_try_apply.go:221-239). -/
inductive Finds (au : AU) (n : Nat) : Node Instr UT → M → List UT → Prop where
  | fail {v : List Instr} {ch : List (Node Instr UT)} {fs : List UT} {m : M} (h : exec au v m = .fail) :
      Finds au n (.mk v ch fs) m []
  | ok {v : List Instr} {ch : List (Node Instr UT)} {fs : List UT} {m m' : M} {own : List UT}
      {outs outs' : List (List UT)} (h : exec au v m = .ok m') (hown : leaf au n m' fs = some own)
      (hlen : outs.length = ch.length)
      (hch : ∀ i (h1 : i < ch.length) (h2 : i < outs.length), Finds au n ch[i] m' outs[i])
      (hperm : outs'.Perm outs) :
      Finds au n (.mk v ch fs) m (own ++ outs'.flatten)

/-- Running one sequence on its own. -/
def single (au : AU) (n : Nat) (m : M) (p : List Instr × UT) : List UT :=
  match exec au p.1 m with
  | .ok m' => match compute false au n p.2.occ m'.subst m'.mt with
    | .ok _ => [p.2]
    | _ => []
  | _ => []

theorem single_append {au : AU} {n : Nat} {m m' : M} {v : List Instr} (h : exec au v m = .ok m')
    (s : List Instr) (f : UT) : single au n m (v ++ s, f) = single au n m' (s, f) := by
  simp only [single, exec_append, h, Res.bind]

theorem single_fail {au : AU} {n : Nat} {m : M} {v : List Instr} (h : exec au v m = .fail)
    (s : List Instr) (f : UT) : single au n m (v ++ s, f) = [] := by
  simp only [single, exec_append, h, Res.bind]

theorem leaf_eq {au : AU} {n : Nat} {m m' : M} {v : List Instr} (h : exec au v m = .ok m') (fs : List UT)
    {own : List UT} (ho : leaf au n m' fs = some own) : own = (fs.map fun f => (v, f)).flatMap (single au n m) := by
  induction fs generalizing own with
  | nil => simp only [leaf, Option.some.injEq] at ho; simp [← ho]
  | cons f fs ih =>
    simp only [leaf] at ho
    simp only [List.map_cons, List.flatMap_cons]
    have hs : single au n m (v, f) = match compute false au n f.occ m'.subst m'.mt with
        | .ok _ => [f]
        | _ => [] := by
      simp only [single, h]
    rw [hs]
    cases hc : compute false au n f.occ m'.subst m'.mt with
    | ok r =>
      simp only [hc, Option.map_eq_some_iff] at ho
      obtain ⟨o, h1, rfl⟩ := ho
      rw [ih h1]; rfl
    | fail =>
      simp only [hc] at ho
      rw [ih ho]; rfl
    | panic => simp [hc] at ho
    | out => simp [hc] at ho

theorem pathsL_flatMap (g : List Instr × UT → List UT) (v : List Instr) (ch : List (Node Instr UT)) :
    (Node.pathsL v ch).flatMap g = ch.flatMap fun c => c.paths.flatMap fun p => g (v ++ p.1, p.2) := by
  induction ch with
  | nil => simp [Node.pathsL]
  | cons c rest ih => simp [Node.pathsL, ih, List.flatMap_map]

/-- What the search returns is, up to order, what running every stored sequence on its own would return. -/
theorem finds_perm {au : AU} {n : Nat} (t : Node Instr UT) (m : M) (out : List UT)
    (h : Finds au n t m out) : out.Perm (t.paths.flatMap (single au n m)) := by
  induction t using Node.ind generalizing m out with
  | h v ch fs ih =>
    cases h with
    | fail hf =>
      have : (Node.mk v ch fs).paths.flatMap (single au n m) = [] := by
        rw [List.flatMap_eq_nil_iff]
        rintro ⟨s, f⟩ hp
        obtain ⟨x, hx⟩ := Node.path_prefix hp
        simp only [Node.value] at hx
        rw [← hx]
        exact single_fail hf x f
      rw [this]
    | ok hok hown hlen hch hperm =>
      rename_i m' own outs outs'
      simp only [Node.paths, List.flatMap_append, pathsL_flatMap]
      rw [leaf_eq hok fs hown]
      refine List.Perm.append_left _ ((hperm.flatten).trans ?_)
      have hfun : ∀ c : Node Instr UT, (c.paths.flatMap fun p => single au n m (v ++ p.1, p.2)) =
          c.paths.flatMap (single au n m') := by
        intro c
        congr 1
        funext p
        exact single_append hok p.1 p.2
      simp only [hfun]
      clear hown hperm hok
      induction ch generalizing outs with
      | nil =>
        simp only [List.length_nil, List.length_eq_zero_iff] at hlen
        subst hlen
        simp
      | cons c rest ih2 =>
        cases outs with
        | nil => simp at hlen
        | cons o outs =>
          simp only [List.flatten_cons, List.flatMap_cons]
          refine List.Perm.append ?_ ?_
          · exact ih c (by simp) m' o (hch 0 (by simp) (by simp))
          · refine ih2 (fun c hc => ih c (List.mem_cons_of_mem _ hc)) (outs := outs) (by simpa using hlen) (fun i h1 h2 => ?_)
            exact hch (i + 1) (by simpa using h1) (by simpa using h2)

/-! ### What is stored -/

theorem eat_code (t : UT) (l : List Instr) : ∃ c, code t = .begin :: c ∧ eat 1 (c ++ l) = some l :=
  ⟨parseL 0 [] [t] ++ [.fin none], rfl, by simp [eat, List.append_assoc, eat_parseL [t] 0 [] 1 _ (Nat.le_refl _)]⟩

theorem code_prefix {f g : UT} (h : code f <+: code g) : code f = code g := by
  obtain ⟨x, hx⟩ := h
  obtain ⟨c, hc, h1⟩ := eat_code f x
  obtain ⟨d, hd, h2⟩ := eat_code g []
  rw [hc, hd] at hx
  simp only [List.cons_append, List.cons.injEq, true_and] at hx
  rw [List.append_nil] at h2
  rw [hx, h2] at h1
  have : x = [] := (Option.some.inj h1).symm
  subst this
  rw [hc, hd, ← hx]; simp

/-- A side of an equality of the list. -/
def IsSide (E : List (UT × UT)) (t : UT) : Prop := ∃ e ∈ E, t = e.1 ∨ t = e.2

/-- Building the tree never panics; it stores exactly the sides of the equalities. -/
theorem tree_built (E : List (UT × UT)) : ∃ n, tree E = some n ∧ (n = Node.empty ∨ n.WF) ∧
    ∀ s f, (s, f) ∈ n.paths ↔ s = code f ∧ IsSide E f := by
  have hside : ∀ f, f ∈ (E.flatMap fun e => [e.1, e.2]) ↔ IsSide E f := by
    intro f
    simp [IsSide, List.mem_flatMap]
  unfold tree
  generalize (E.flatMap fun e => [e.1, e.2]) = l at hside
  suffices h : ∃ n : Node Instr UT, (Node.empty : Node Instr UT).insertAll (l.map fun t => (code t, t)) = some n ∧
      (n = Node.empty ∨ n.WF) ∧ ∀ s f, (s, f) ∈ n.paths ↔ s = code f ∧ f ∈ l by
    obtain ⟨n, h1, h2, h3⟩ := h
    exact ⟨n, h1, h2, fun s f => by rw [h3, hside]⟩
  cases l with
  | nil => exact ⟨Node.empty, rfl, Or.inl rfl, by simp [Node.empty, Node.paths, Node.pathsL]⟩
  | cons f l =>
    have hw : (Node.mk (code f) [] [f]).WF := by
      refine Node.WF_iff.2 ⟨?_, by simp, by simp, Or.inl ⟨rfl, by simp, by simp⟩⟩
      simp [code]
    have hp : ∀ s g, (s, g) ∈ (Node.mk (code f) [] [f] : Node Instr UT).paths ↔ s = code g ∧ g ∈ [f] := by
      intro s g
      rw [Node.mem_paths]
      simp only [List.mem_singleton, List.not_mem_nil, false_and, exists_false, or_false]
      constructor
      · rintro ⟨rfl, rfl⟩; exact ⟨rfl, rfl⟩
      · rintro ⟨rfl, rfl⟩; exact ⟨rfl, rfl⟩
    have hcode : ∀ p ∈ (Node.mk (code f) [] [f] : Node Instr UT).paths ++ l.map (fun f => (code f, f)), ∃ f : UT, p.1 = code f := by
      intro p hp'
      simp only [List.mem_append, List.mem_map] at hp'
      rcases hp' with hp' | ⟨f, _, rfl⟩
      · exact ⟨p.2, ((hp p.1 p.2).1 hp').1⟩
      · exact ⟨f, rfl⟩
    obtain ⟨n1, e1, e2, e3, e4⟩ := (Node.mk (code f) [] [f]).insertAll_spec .begin (l.map fun f => (code f, f)) hw rfl
      (by intro p hp'; obtain ⟨f, hf⟩ := hcode p (by simp [hp']); rw [hf]; rfl)
      (by
        intro p hp' q hq hpq
        obtain ⟨f, hf⟩ := hcode p hp'
        obtain ⟨g, hg⟩ := hcode q hq
        rw [hf, hg] at hpq ⊢
        exact code_prefix hpq)
    refine ⟨n1, e1, Or.inr e2, fun s g => ?_⟩
    rw [e4, hp]
    simp only [List.mem_map, Prod.mk.injEq, List.mem_cons, List.not_mem_nil, or_false]
    constructor
    · rintro (⟨h, h'⟩ | ⟨g', hg, rfl, rfl⟩)
      · exact ⟨h, Or.inl h'⟩
      · exact ⟨rfl, Or.inr hg⟩
    · rintro ⟨h, h' | h'⟩
      · exact Or.inl ⟨h, h'⟩
      · exact Or.inr ⟨g, h', h.symm, rfl⟩

/-- Whatever is found is a side of an equality. -/
theorem finds_side {au : AU} {n : Nat} {E : List (UT × UT)} {t : Node Instr UT} (ht : tree E = some t) {m : M} {out : List UT}
    (h : Finds au n t m out) {l : UT} (hl : l ∈ out) : IsSide E l := by
  obtain ⟨t', h1, _, h3⟩ := tree_built E
  rw [ht] at h1
  obtain rfl := Option.some.inj h1
  have := (finds_perm t m out h).mem_iff.1 hl
  obtain ⟨⟨s, f⟩, hp, hs⟩ := List.mem_flatMap.1 this
  have : l = f := by
    simp only [single] at hs
    split at hs
    · split at hs
      · simpa using hs
      · cases hs
    · cases hs
  subst this
  exact ((h3 s l).1 hp).2

/-! ### Ground terms -/

section
variable {ar : Nat → Nat}

theorem code_gd {f : UT} (h : f.Gd ar) : ∀ i ∈ code f, i.Gd ar := by
  have hl := parseL_ground (l := [f]) (by simpa using h) 0 []
  intro i hi
  simp only [code, List.mem_cons, List.mem_append, List.not_mem_nil, or_false] at hi
  rcases hi with rfl | hi | rfl
  · trivial
  · exact hl i hi
  · trivial

/-- The code of a ground term on a ground term fails or runs through without bindings. -/
theorem exec_gd {au : AU} {f q : UT} (hf : f.Gd ar) (hq : q.Gd ar) : exec au (code f) { terms := [q] } = .fail ∨
    ∃ m, exec au (code f) { terms := [q] } = .ok m ∧ m.subst = [] ∧ m.mt = [] := by
  obtain ⟨p, l, rfl⟩ := hq.isFn
  have hcur : ({ terms := [.fn p l] } : M).terms[({ terms := [.fn p l] } : M).q]? = some (.fn p l) := rfl
  simp only [code, exec, parseL, List.append_nil]
  rw [step_begin_fn hcur, Res.ok_bind, exec_append]
  rcases runs (au := au) f hf (.fn p l) [] { terms := [.fn p l], beginCount := 0 + 1 } [] [] hq ⟨rfl, rfl, rfl, rfl, rfl⟩ with
    h | ⟨m, h, fr, hs, hm⟩
  · simp only [List.length_nil, List.isEmpty_nil, Bool.not_true] at h
    exact Or.inl (by simp only [List.isEmpty_nil, Bool.not_true, h]; rfl)
  · simp only [List.length_nil, List.isEmpty_nil, Bool.not_true] at h
    simp only [List.isEmpty_nil, Bool.not_true, h, Res.ok_bind, exec, step_fin fr.lock]
    rcases checkEnd_cases { m with beginCount := m.beginCount - 1 } with h | h
    · exact Or.inl (by rw [h]; rfl)
    · rw [h]; exact Or.inr ⟨_, rfl, hs, hm⟩

/-- It runs through on itself. -/
theorem exec_self {au : AU} {f : UT} (hf : f.Gd ar) : ∃ m, exec au (code f) { terms := [f] } = .ok m := by
  obtain ⟨p, l, rfl⟩ := hf.isFn
  have hcur : ({ terms := [.fn p l] } : M).terms[({ terms := [.fn p l] } : M).q]? = some (.fn p l) := rfl
  simp only [code, exec, parseL, List.append_nil]
  rw [step_begin_fn hcur, Res.ok_bind, exec_append]
  obtain ⟨m, h, fr, _, hc⟩ := through (planRight ar UT.mv au []) (.fn p l) (.fn p l) []
    { terms := [.fn p l], beginCount := 0 + 1 } [] [] ⟨(UT.inst_mv _).symm, hf⟩ ⟨rfl, rfl, rfl, rfl, rfl⟩
    ⟨by simp, by simp, rfl⟩ (fun h => by simp at h)
  simp only [List.length_nil, List.isEmpty_nil, Bool.not_true] at h
  simp only [List.isEmpty_nil, Bool.not_true, h, Res.ok_bind, exec, step_fin fr.lock]
  simp only [Counts, List.isEmpty_nil, if_true] at hc
  rw [checkEnd_top (by dsimp only; omega)]
  exact ⟨_, rfl⟩

/-- On a different term it fails. -/
theorem exec_diff {n : Nat} {f q : UT} (hf : f.Gd ar) (hq : q.Gd ar) {m : M}
    (h : exec (addUnif false n) (code f) { terms := [q] } = .ok m) : f = q := by
  have hb : AUBase ar (addUnif true n) := fun t1 t2 s r a1 a2 hk ha h =>
    ⟨(addUnif_spec.{0} ar true n t1 t2 s r a1 a2 hk ha h).solved.1, (addUnif_spec.{0} ar true n t1 t2 s r a1 a2 hk ha h).ar⟩
  have hs : AUSound.{0} ar (addUnif true n) := fun t1 t2 s r a1 a2 hk ha h =>
    (addUnif_spec.{0} ar true n t1 t2 s r a1 a2 hk ha h).snd rfl
  obtain ⟨a, b, c⟩ := G1.exec (ground_agree (ar := ar) n) (code f) (code_gd hf) (m := { terms := [q] }) rfl Subst.Gd.nil h
  obtain ⟨p, l, rfl⟩ := hq.isFn
  have hcur : ({ terms := [.fn p l] } : M).terms[({ terms := [.fn p l] } : M).q]? = some (.fn p l) := rfl
  simp only [code, exec, parseL, List.append_nil] at c
  rw [step_begin_fn hcur, Res.ok_bind, exec_append, Res.bind_ok] at c
  obtain ⟨m1, c1, c2⟩ := c
  have hi : Inv ar [] { terms := [.fn p l], beginCount := 0 + 1 } :=
    ⟨by simp, by simp, by simp [Subst.keys], by simp [Subst.Ar], by simp, by simpa using hq.1, by simp⟩
  obtain ⟨fr, po⟩ := exec_term.{0} hb f [] { terms := [.fn p l], beginCount := 0 + 1 } m1 [] (.fn p l) [] ⟨rfl, rfl, rfl, rfl, rfl⟩ hi
    hf.1 c1
  simp only [exec, step_fin fr.lock] at c2
  obtain ⟨m2, c2, c3⟩ := Res.bind_ok.1 c2
  have := checkEnd_ok c2
  subst this
  cases c3
  obtain ⟨_, _, d3⟩ := po.snd hs termAlg
  dsimp only at a
  have b' : m1.mt = [] ∨ m1.mt.Gd ar := Or.inr b
  have e := (d3 m1.mt.fn (by
    rcases b' with h | h
    · rw [h]; intro p hp; cases hp
    · exact Subst.Solved.sol ⟨h.1, fun p hp k _ hk => by rw [(h.2 p hp).2] at hk; cases hk⟩) (by rw [a]; intro p hp; cases hp)).2
  have e' : f.inst m1.mt.fn = (UT.fn p l).inst m1.mt.fn := e
  rwa [UT.inst_ground hf.2, UT.inst_ground hq.2] at e'

/-- Searching a tree of ground terms for a ground term: the term itself is answered if it is stored, nothing else. -/
theorem finds_gd {n : Nat} {E : List (UT × UT)} (hE : ∀ e ∈ E, e.1.Gd ar ∧ e.2.Gd ar) {t : Node Instr UT} (ht : tree E = some t)
    {q : UT} (hq : q.Gd ar) {out : List UT} (h : Finds (addUnif false (n + 1)) (n + 1) t { terms := [q] } out) (l : UT) :
    l ∈ out ↔ l = q ∧ IsSide E q := by
  obtain ⟨t', h1, _, h3⟩ := tree_built E
  rw [ht] at h1
  obtain rfl := Option.some.inj h1
  have hgd : ∀ f, IsSide E f → f.Gd ar := by
    rintro f ⟨e, he, rfl | rfl⟩
    · exact (hE e he).1
    · exact (hE e he).2
  rw [(finds_perm t _ out h).mem_iff, List.mem_flatMap]
  constructor
  · rintro ⟨⟨s, f⟩, hp, hs⟩
    obtain ⟨rfl, hf⟩ := (h3 s f).1 hp
    simp only [single] at hs
    split at hs
    · rename_i m' hm
      split at hs
      · have e := exec_diff (hgd f hf) hq hm
        have e2 : l = f := by simpa using hs
        subst e2 e
        exact ⟨rfl, hf⟩
      · cases hs
    · cases hs
  · rintro ⟨rfl, hs⟩
    refine ⟨(code l, l), (h3 _ _).2 ⟨rfl, hs⟩, ?_⟩
    obtain ⟨m, hm⟩ := exec_self (au := addUnif false (n + 1)) hq
    rcases exec_gd (au := addUnif false (n + 1)) hq hq with h' | ⟨m', h', h1, h2⟩
    · rw [hm] at h'; cases h'
    · rw [hm] at h'
      cases h'
      simp [single, hm, h1, h2, compute_nil]

/-- The search ends. -/
theorem finds_total {n : Nat} (t : Node Instr UT) (hw : t.WF) {au : AU} : ∀ m : M, (∀ p ∈ t.paths, exec au p.1 m = .fail ∨
    ∃ m', exec au p.1 m = .ok m' ∧ m'.subst = [] ∧ m'.mt = []) → ∃ out, Finds au (n + 1) t m out := by
  induction t using Node.ind with
  | h v ch fs ih =>
    intro m h
    obtain ⟨-, hch, -, hfs⟩ := Node.WF_iff.1 hw
    obtain ⟨s, f, hs, x, hx⟩ := hw.exists_path
    simp only [Node.value] at hx
    subst hx
    cases hv : exec au v m with
    | fail => exact ⟨[], .fail hv⟩
    | panic => rcases h _ hs with h | ⟨m', h, -⟩ <;> simp [exec_append, hv, Res.bind] at h
    | out => rcases h _ hs with h | ⟨m', h, -⟩ <;> simp [exec_append, hv, Res.bind] at h
    | ok m1 =>
      have hsub : ∀ c ∈ ch, ∃ out, Finds au (n + 1) c m1 out := by
        intro c hc
        refine ih c hc (hch c hc) m1 fun p hp => ?_
        have := h (v ++ p.1, p.2) (Node.mem_paths.2 (Or.inr ⟨c, hc, p.1, hp, rfl⟩))
        simpa [exec_append, hv, Res.bind] using this
      have houts : ∃ outs : List (List UT), outs.length = ch.length ∧
          ∀ i (h1 : i < ch.length) (h2 : i < outs.length), Finds au (n + 1) ch[i] m1 outs[i] := by
        refine ⟨ch.attach.map fun c => (hsub c.1 c.2).choose, by simp, fun i h1 h2 => ?_⟩
        simp only [List.getElem_map, List.getElem_attach]
        exact (hsub ch[i] (List.getElem_mem h1)).choose_spec
      obtain ⟨outs, hl, ho⟩ := houts
      have hnil : ∀ fs : List UT, ∀ m1 : M, m1.subst = [] → m1.mt = [] → leaf au (n + 1) m1 fs = some fs := by
        intro fs m1 h1 h2
        induction fs with
        | nil => rfl
        | cons f fs ih => simp only [leaf, h1, h2, compute_nil, ih, Option.map_some]
      have hown : ∃ own, leaf au (n + 1) m1 fs = some own := by
        cases fs with
        | nil => exact ⟨[], rfl⟩
        | cons f fs =>
          have hp : (v, f) ∈ (Node.mk v ch (f :: fs)).paths := Node.mem_paths.2 (Or.inl ⟨rfl, by simp⟩)
          rcases h _ hp with h | ⟨m', h, h1, h2⟩
          · simp [hv] at h
          · rw [hv] at h
            cases h
            exact ⟨_, hnil _ _ h1 h2⟩
      obtain ⟨own, hown⟩ := hown
      exact ⟨_, .ok hv hown hl ho (List.Perm.refl _)⟩

theorem finds_gd_total {n : Nat} {E : List (UT × UT)} (hE : ∀ e ∈ E, e.1.Gd ar ∧ e.2.Gd ar) {t : Node Instr UT} (ht : tree E = some t)
    {q : UT} (hq : q.Gd ar) {au : AU} : ∃ out, Finds au (n + 1) t { terms := [q] } out := by
  obtain ⟨t', h1, h2, h3⟩ := tree_built E
  rw [ht] at h1
  obtain rfl := Option.some.inj h1
  rcases h2 with rfl | hw
  · exact ⟨[] ++ ([] : List (List UT)).flatten, .ok (own := []) (outs := []) (m' := { terms := [q] }) rfl rfl rfl
      (fun i h1 _ => absurd h1 (by simp)) (List.Perm.refl _)⟩
  · refine finds_total t hw _ fun p hp => ?_
    obtain ⟨hc, e, he, hs⟩ := (h3 p.1 p.2).1 hp
    rw [hc]
    refine exec_gd ?_ hq
    rcases hs with hs | hs
    · rw [hs]; exact (hE e he).1
    · rw [hs]; exact (hE e he).2

end

end Verif.Equality.Bse
