import Verif.Lib.SetsProps
import Verif.Search.Memory
/-!
# The state of a branch and its copy (src/Search/state.go)

C46: what a child branch starts with, and that branches do not see each other's later changes.

Formulas, terms, substitutions and unifiers are data (`Val`, a tree of arrays) here. The two indexes (code
trees) are values: the search never changes an index it has built, it replaces it by a new one
(src/Search/destructive.go:365-366, 547-551, src/Search/state.go:430-434, 511-512; `AddToTreePos` and
`AddToTreeNeg`, which would change it in place, are not called). Metavariables are compared by their index and
are numbers here.
-/

namespace Verif.Search.Mem
open Verif.Lib

/-- The flags the copy depends on: `Glob.IsDestructive()`, `Glob.IncrEq`, `Glob.IsLoaded("dmt")`,
`Glob.GetProof()`. -/
structure Flags where
  destructive : Bool
  incrEq : Bool
  dmt : Bool
  proof : Bool

/-- `State` (src/Search/state.go:55-70), as data. `T` is the type of indexes. -/
structure VState (T : Type) where
  n : Nat
  lf : List Val
  atomic : List Val
  alpha : List Val
  beta : List Val
  delta : List Val
  gamma : List Val
  metaGen : List Val
  mm : GoSet Nat
  mc : GoSet Nat
  applied : Val
  lastApplied : Val
  found : List Val
  treePos : T
  treeNeg : T
  proof : List Val
  currentProof : Val
  bt : Bool
  forbidden : List Val
  unifier : List Val
  eq : Val

/-- `MakeEmptySubstAndForm` (src/Core/subst_and_form.go:98-100): an empty substitution and no formulas. -/
def emptySaf : Val := .arr [.arr [], .arr []]

/-- `State.Copy` (src/Search/state.go:385-442). Getters and setters copy deeply; on data a copy is the
identity, except that the copy of a set loses the heights (`GoSet.copy`). `mk` is `MakeDataStruct`,
`newEq` is `NewEqStruct`, `zeroProof` the zero value of a proof node and `emptyProof` is
`MakeEmptyProofStruct`. `Unifier.Copy` drops everything when no proof is asked for
(src/Core/global_unifier.go:150-153). -/
def child {T : Type} (fl : Flags) (mk : List Val → Bool → T) (newEq zeroProof emptyProof : Val) (st : VState T) :
    Option (VState T) :=
  (st.mm.copy.union st.mc.copy).map fun u =>
    { n := st.n
      lf := st.lf, atomic := st.atomic, alpha := st.alpha, beta := st.beta, delta := st.delta, gamma := st.gamma
      metaGen := st.metaGen
      mm := u.copy
      mc := GoSet.empty.copy
      eq := if fl.incrEq then st.eq else newEq
      applied := if fl.destructive then emptySaf else st.applied
      lastApplied := st.lastApplied
      found := if fl.destructive then [] else st.found
      unifier := if fl.proof then st.unifier else []
      treePos := if fl.dmt then mk st.atomic true else st.treePos
      treeNeg := if fl.dmt then mk st.atomic false else st.treeNeg
      proof := []
      currentProof := if fl.proof then emptyProof else zeroProof
      bt := st.bt
      forbidden := st.forbidden }

/-! ### In memory -/

/-- The nodes of a set in memory (src/Lib/sets.go:56-61). -/
def encNode : Node Nat → Val
  | .nil => .arr []
  | .node h l v r => .arr [.num h, encNode l, .num v, encNode r]

/-- The fields of a state in memory, without the two indexes. -/
def VState.enc {T : Type} (v : VState T) : List Val :=
  [.num v.n, .arr v.lf, .arr v.atomic, .arr v.alpha, .arr v.beta, .arr v.delta, .arr v.gamma, .arr v.metaGen,
   encNode v.mm.root, encNode v.mc.root, v.applied, v.lastApplied, .arr v.found, .arr v.proof, v.currentProof,
   .num (if v.bt then 1 else 0), .arr v.forbidden, .arr v.unifier, v.eq]

theorem encNode_inj : ∀ {s t : Node Nat}, encNode s = encNode t → s = t
  | .nil, .nil, _ => rfl
  | .nil, .node .., h => by simp [encNode] at h
  | .node .., .nil, h => by simp [encNode] at h
  | .node h l v r, .node h' l' v' r', e => by
    simp only [encNode, Val.arr.injEq, List.cons.injEq, Val.num.injEq, and_true] at e
    rw [e.1, encNode_inj e.2.1, e.2.2.1, encNode_inj e.2.2.2]

/-- Nothing is lost in memory: the contents of the fields determine the state. -/
theorem enc_inj {T : Type} {v w : VState T} (h : v.enc = w.enc) (hp : v.treePos = w.treePos)
    (hn : v.treeNeg = w.treeNeg) : v = w := by
  obtain ⟨n, lf, at_, al, be, de, ga, mg, ⟨mm⟩, ⟨mc⟩, ap, la, fo, tp, tn, pr, cp, bt, fb, un, eq⟩ := v
  obtain ⟨n', lf', at_', al', be', de', ga', mg', ⟨mm'⟩, ⟨mc'⟩, ap', la', fo', tp', tn', pr', cp', bt', fb', un', eq'⟩ := w
  simp only [VState.enc, List.cons.injEq, Val.num.injEq, Val.arr.injEq, and_true] at h
  obtain ⟨h1, h2, h3, h4, h5, h6, h7, h8, h9, h10, h11, h12, h13, h14, h15, h16, h17, h18, h19⟩ := h
  replace h9 := encNode_inj h9
  replace h10 := encNode_inj h10
  replace h16 : bt = bt' := by
    cases bt <;> cases bt' <;> simp_all
  simp only at hp hn
  subst h1 h2 h3 h4 h5 h6 h7 h8 h9 h10 h11 h12 h13 h14 h15 h16 h17 h18 h19 hp hn
  rfl

/-! ### C46 -/

section
variable {T : Type} {fl : Flags} {mk : List Val → Bool → T} {newEq zeroProof emptyProof : Val}

/-- **C46, contents.** The state made for a child exists (no crash). It has all the formulas of the parent, all
its generators of metavariables, its forbidden substitutions and its limit. All metavariables of the parent, its
own ones and those of its ancestors, are now the ancestors'; none is the child's own. -/
theorem C46_contents (v : VState T) (r1 : Reachable v.mm) (r2 : Reachable v.mc) :
    ∃ w, child fl mk newEq zeroProof emptyProof v = some w ∧
      w.n = v.n ∧ w.lf = v.lf ∧ w.atomic = v.atomic ∧ w.alpha = v.alpha ∧ w.beta = v.beta ∧ w.delta = v.delta ∧
      w.gamma = v.gamma ∧ w.metaGen = v.metaGen ∧ w.forbidden = v.forbidden ∧
      (∀ x, w.mm.contains x = true ↔ v.mm.contains x = true ∨ v.mc.contains x = true) ∧
      (∀ x, w.mc.contains x = false) ∧ Reachable w.mm ∧ Reachable w.mc := by
  obtain ⟨u, e, hu⟩ := C02_union r1.copy r2.copy
  have ru : Reachable u := .union r1.copy r2.copy e
  rw [child, e]
  refine ⟨_, rfl, rfl, rfl, rfl, rfl, rfl, rfl, rfl, rfl, rfl, fun x => ?_, fun x => rfl, ru.copy, Reachable.copy .empty⟩
  show u.copy.contains x = true ↔ _
  rw [(copy_inv ru.inv).2, hu, (copy_inv r1.inv).2, (copy_inv r2.inv).2]

/-- **C46, isolation.** A branch whose state is `v` starts a child with `State.Copy`. The child then sees `w`
of `C46_contents`. Whatever the other branches do afterwards, the parent included, as long as the child itself
does not move it sees the same state; and whatever the other branches do, the child included, the parent sees
its own state unchanged as long as it does not move. -/
theorem C46_isolated {s : Sys} (hi : Inv s) {i : Nat} {t : Thread} (ht : s.threads[i]? = some t) {v w : VState T}
    (hv : Sees s t v.enc) (hc : child fl mk newEq zeroProof emptyProof v = some w) :
    ∃ s1 tc, Step i s s1 ∧ Inv s1 ∧ s1.threads[s.threads.length]? = some tc ∧ Sees s1 tc w.enc ∧
      s1.threads[i]? = some t ∧ Sees s1 t v.enc ∧
      ∀ l s2, Run s1 l s2 →
        (s.threads.length ∉ l → s2.threads[s.threads.length]? = some tc ∧ Sees s2 tc w.enc) ∧
        (i ∉ l → s2.threads[i]? = some t ∧ Sees s2 t v.enc) := by
  obtain ⟨h, ths⟩ := s
  have hlt := (List.getElem?_eq_some_iff.1 ht).1
  have hsplit : ths = ths.take i ++ t :: ths.drop (i + 1) := by
    have h2 := (List.getElem?_eq_some_iff.1 ht).2
    simp only at h2 hlt
    rw [← h2, List.getElem_cons_drop, List.take_append_drop]
  have hlen : (ths.take i).length = i := by
    simp only at hlt
    rw [List.length_take]; omega
  have hstep : Step i ⟨h, ths⟩ ⟨(buildL h w.enc).1, ths ++ [⟨refs (buildL h w.enc).2, (buildL h w.enc).2⟩]⟩ := by
    have := Step.spawn (h := h) (pre := ths.take i) (t := t) (post := ths.drop (i + 1)) (vs := w.enc)
    rw [hlen, ← hsplit] at this
    exact this
  have ha : Above h.length h := by
    intro a cs hge e
    rw [List.getElem?_eq_none hge] at e; cases e
  obtain ⟨hp, -, -, hr, -⟩ := build_spec.2 w.enc h h.length hi.sound ha (Nat.le_refl _)
  have hi1 := hi.step hstep
  have htc : (ths ++ [⟨refs (buildL h w.enc).2, (buildL h w.enc).2⟩])[ths.length]? =
      some (⟨refs (buildL h w.enc).2, (buildL h w.enc).2⟩ : Thread) := by
    rw [List.getElem?_append_right (Nat.le_refl _)]; simp
  have hti : (ths ++ [⟨refs (buildL h w.enc).2, (buildL h w.enc).2⟩])[i]? = some t :=
    (List.getElem?_append_left hlt).trans ht
  have hv1 : ReadsL (buildL h w.enc).1 t.state v.enc := readsL_extend hp hv
  refine ⟨_, _, hstep, hi1, htc, hr, hti, hv1, fun l s2 r => ⟨fun hl => ?_, fun hl => ?_⟩⟩
  · exact run_other hi1 r hl htc hr
  · exact run_other hi1 r hl hti hv1

/-- **C46, siblings.** No branch ever sees an effect of a step of another branch. -/
theorem C46_others {s s' : Sys} {l : List Nat} (hi : Inv s) (r : Run s l s') {j : Nat} (hj : j ∉ l) {t : Thread}
    (ht : s.threads[j]? = some t) {v : VState T} (hv : Sees s t v.enc) :
    s'.threads[j]? = some t ∧ Sees s' t v.enc ∧ ∀ w : VState T, Sees s' t w.enc → w.enc = v.enc := by
  obtain ⟨h1, h2⟩ := run_other hi r hj ht hv
  refine ⟨h1, h2, fun w hw => ?_⟩
  have key : ∀ (cs : List Cell) (vs vs' : List Val), ReadsL s'.heap cs vs → ReadsL s'.heap cs vs' → vs = vs' := by
    intro cs vs
    induction vs generalizing cs with
    | nil => intro vs' a b; cases a; cases b; rfl
    | cons x xs ih =>
      intro vs' a b
      cases a with | cons a1 a2 => cases b with | cons b1 b2 => rw [a1.unique b1, ih _ _ a2 b2]
  exact key _ _ _ hw h2

end

/-! ### A concrete case -/

/-- A state with a formula in `lf`, one of the ancestors' metavariables and one of its own. -/
def sample : VState Unit :=
  ⟨3, [.arr [.num 1]], [], [], [], [], [], [], ⟨.node 1 .nil 1 .nil⟩, ⟨.node 1 .nil 2 .nil⟩, emptySaf, emptySaf, [.num 7],
   (), (), [], .arr [], false, [], [], .arr []⟩

def sampleFlags : Flags := ⟨true, false, false, true⟩

/-- The state of its child: both metavariables belong to the ancestors, and the substitutions found are dropped. -/
example : ((child sampleFlags (fun _ _ => ()) (.arr []) (.arr []) (.arr []) sample).map
    fun w => (w.mm.elements, w.mc.elements, w.found.length, w.lf.length)) = some ([2, 1], [], 0, 1) := by
  decide +kernel

example : Reachable sample.mm ∧ Reachable sample.mc :=
  ⟨.add (s := .empty) [1] .empty (by decide), .add (s := .empty) [2] .empty (by decide)⟩

/-- The initial system with one branch that has the sample state. -/
def sys0 : Sys :=
  ⟨(buildL [] sample.enc).1, [⟨refs (buildL [] sample.enc).2, (buildL [] sample.enc).2⟩]⟩

theorem sys0_inv : Inv sys0 ∧ Sees sys0 ⟨refs (buildL [] sample.enc).2, (buildL [] sample.enc).2⟩ sample.enc := by
  have hs : Sound [] := by intro a cs e; simp at e
  have ha : Above 0 [] := by intro a cs _ e; simp at e
  obtain ⟨-, h1, -, h2, h3⟩ := build_spec.2 sample.enc [] 0 hs ha (Nat.le_refl _)
  refine ⟨⟨h1, ?_, ?_, List.pairwise_singleton _ _⟩, h2⟩
  · intro t ht a hm
    rw [sys0, List.mem_singleton] at ht; subst ht
    exact (h3 a (mem_refs.1 hm)).2
  · intro t ht a hm
    rw [sys0, List.mem_singleton] at ht; subst ht
    exact mem_refs.2 hm

/-- The parent starts a child and then overwrites the first formula in its own list `lf`: its own view has changed
and the child's has not. -/
example : ∃ s1 s2, Step 0 sys0 s1 ∧ Run s1 [0, 0] s2 ∧ s2.heap ≠ s1.heap ∧
    ∀ (w : VState Unit), child sampleFlags (fun _ _ => ()) (.arr []) (.arr []) (.arr []) sample = some w →
      ∀ tc, s1.threads[1]? = some tc → Sees s1 tc w.enc → Sees s2 tc w.enc := by
  obtain ⟨hi, hv⟩ := sys0_inv
  obtain ⟨w, hc, -⟩ := C46_contents (fl := sampleFlags) (mk := fun _ _ => ()) (newEq := .arr []) (zeroProof := .arr [])
    (emptyProof := .arr []) sample (.add (s := .empty) [1] .empty (by decide))
    (.add (s := .empty) [2] .empty (by decide))
  have hsp : Step 0 sys0 ⟨(buildL sys0.heap w.enc).1, sys0.threads ++ [⟨refs (buildL sys0.heap w.enc).2,
      (buildL sys0.heap w.enc).2⟩]⟩ :=
    Step.spawn (pre := []) (post := [])
  have hpre : sys0.heap <+: (buildL sys0.heap w.enc).1 := by
    have ha : Above sys0.heap.length sys0.heap := by
      intro a cs hge e
      rw [List.getElem?_eq_none hge] at e; cases e
    exact (build_spec.2 w.enc sys0.heap sys0.heap.length hi.sound ha (Nat.le_refl _)).1
  have h0 : (buildL sys0.heap w.enc).1[1]? = some [.ref 0] := by
    rw [prefix_get hpre (by decide)]; decide
  have hl := Step.load (h := (buildL sys0.heap w.enc).1) (pre := []) (t := ⟨refs (buildL [] sample.enc).2,
    (buildL [] sample.enc).2⟩) (post := [⟨refs (buildL sys0.heap w.enc).2, (buildL sys0.heap w.enc).2⟩]) (a := 1) (p := 0)
    (by decide) h0 rfl
  have h1 : (buildL sys0.heap w.enc).1[0]? = some [.val 1] := by
    rw [prefix_get hpre (by decide)]; decide
  have hst := Step.store (h := (buildL sys0.heap w.enc).1) (pre := []) (t := ⟨0 :: refs (buildL [] sample.enc).2,
    (buildL [] sample.enc).2⟩) (post := [⟨refs (buildL sys0.heap w.enc).2, (buildL sys0.heap w.enc).2⟩]) (a := 0) (p := 0)
    (c := .val 9) (by decide) h1 trivial
  refine ⟨_, _, hsp, .cons hl (.cons hst .nil), ?_, ?_⟩
  · intro e
    have := congrArg (fun h : Heap => h[0]?) e
    simp only [h1] at this
    rw [List.getElem?_set_self (List.getElem?_eq_some_iff.1 h1).1] at this
    simp at this
  · intro w' hc' tc htc hsee
    exact (run_other (hi.step hsp) (.cons hl (.cons hst .nil)) (by decide) htc hsee).2

end Verif.Search.Mem
