import Verif.Mods.Gs3Spec
/-!
# C67: the GS3 proof is a proof

The tree that `makeProof` builds from a closed tableau in which no Skolem symbol is used before it is
introduced is a GS3 refutation.
-/
set_option linter.unusedSimpArgs false
set_option linter.unusedVariables false

namespace Verif.Gs3
open Verif.AST

/-! ## Trees in the heap -/

mutual
/-- The heap contains the tree at the address, in sequents allocated from the address `lo` on. -/
def Repr (lo : Nat) (h : Heap) (a : Nat) : Tree → Prop
  | .hole cs => lo ≤ a ∧ ∃ s, h[a]? = some s ∧ s.isEmpty = true ∧ ReprL lo h s.children cs
  | .node rule f t forms cs => lo ≤ a ∧ ∃ s, h[a]? = some s ∧ s.isEmpty = false ∧ s.rule = rule ∧
      s.hyps[s.appliedOn]? = some f ∧ s.term = t ∧ s.forms = forms ∧ ReprL lo h s.children cs
def ReprL (lo : Nat) (h : Heap) : List Nat → List Tree → Prop
  | [], [] => True
  | a :: l, t :: ts => Repr lo h a t ∧ ReprL lo h l ts
  | _, _ => False
end

mutual
theorem Repr.frame {lo : Nat} {h h' : Heap} (hh : ∀ b, lo ≤ b → b < h.length → h'[b]? = h[b]?) :
    ∀ (T : Tree) {a : Nat}, Repr lo h a T → Repr lo h' a T
  | .hole cs, a, ⟨hlo, s, hs, he, hc⟩ =>
    ⟨hlo, s, by rw [hh a hlo (List.getElem?_eq_some_iff.1 hs).1, hs], he, ReprL.frame hh cs hc⟩
  | .node rule f t forms cs, a, ⟨hlo, s, hs, he, h1, h2, h3, h4, hc⟩ =>
    ⟨hlo, s, by rw [hh a hlo (List.getElem?_eq_some_iff.1 hs).1, hs], he, h1, h2, h3, h4,
      ReprL.frame hh cs hc⟩
theorem ReprL.frame {lo : Nat} {h h' : Heap} (hh : ∀ b, lo ≤ b → b < h.length → h'[b]? = h[b]?) :
    ∀ (ts : List Tree) {l : List Nat}, ReprL lo h l ts → ReprL lo h' l ts
  | [], [], _ => trivial
  | [], _ :: _, hl => by simp [ReprL] at hl
  | t :: ts, [], hl => by simp [ReprL] at hl
  | t :: ts, a :: l, hl => ⟨Repr.frame hh t hl.1, ReprL.frame hh ts hl.2⟩
end

mutual
theorem Repr.mono {lo lo' : Nat} {h : Heap} (hlo : lo' ≤ lo) :
    ∀ (T : Tree) {a : Nat}, Repr lo h a T → Repr lo' h a T
  | .hole cs, a, ⟨h0, s, hs, he, hc⟩ => ⟨by omega, s, hs, he, ReprL.mono hlo cs hc⟩
  | .node rule f t forms cs, a, ⟨h0, s, hs, he, h1, h2, h3, h4, hc⟩ =>
    ⟨by omega, s, hs, he, h1, h2, h3, h4, ReprL.mono hlo cs hc⟩
theorem ReprL.mono {lo lo' : Nat} {h : Heap} (hlo : lo' ≤ lo) :
    ∀ (ts : List Tree) {l : List Nat}, ReprL lo h l ts → ReprL lo' h l ts
  | [], [], _ => trivial
  | [], _ :: _, hl => by simp [ReprL] at hl
  | t :: ts, [], hl => by simp [ReprL] at hl
  | t :: ts, a :: l, hl => ⟨Repr.mono hlo t hl.1, ReprL.mono hlo ts hl.2⟩
end

theorem ReprL.snoc {lo : Nat} {h : Heap} : ∀ {l : List Nat} {ts : List Tree} {a : Nat} {t : Tree},
    ReprL lo h l ts → Repr lo h a t → ReprL lo h (l ++ [a]) (ts ++ [t])
  | [], [], a, t, _, ht => ⟨ht, trivial⟩
  | [], _ :: _, _, _, hl, _ => by simp [ReprL] at hl
  | _ :: _, [], _, _, hl, _ => by simp [ReprL] at hl
  | b :: l, u :: ts, a, t, hl, ht => ⟨hl.1, ReprL.snoc hl.2 ht⟩

mutual
/-- A tree computed by `unfold` is in the heap. -/
theorem unfold_repr {h : Heap} : ∀ (n a : Nat) (T : Tree), unfold h n a = some T → Repr 0 h a T
  | 0, a, T, hu => by simp [unfold] at hu
  | n + 1, a, T, hu => by
    simp only [unfold] at hu
    split at hu
    · cases hu
    · rename_i s hs
      split at hu
      · cases hu
      · rename_i cs hcs
        have hl := unfoldL_repr n s.children cs hcs
        split at hu
        · rename_i he
          simp only [Option.some.injEq] at hu; subst hu
          exact ⟨Nat.zero_le _, s, hs, he, hl⟩
        · rename_i he
          split at hu
          · cases hu
          · rename_i f hf
            simp only [Option.some.injEq] at hu; subst hu
            exact ⟨Nat.zero_le _, s, hs, by simpa using he, rfl, hf, rfl, rfl, hl⟩
theorem unfoldL_repr {h : Heap} : ∀ (n : Nat) (l : List Nat) (ts : List Tree),
    unfoldL h n l = some ts → ReprL 0 h l ts
  | 0, [], ts, hu => by simp only [unfoldL, Option.some.injEq] at hu; subst hu; trivial
  | n + 1, [], ts, hu => by simp only [unfoldL, Option.some.injEq] at hu; subst hu; trivial
  | 0, a :: l, ts, hu => by simp [unfoldL] at hu
  | n + 1, a :: l, ts, hu => by
    simp only [unfoldL] at hu
    split at hu
    · cases hu
    · rename_i t ht
      split at hu
      · cases hu
      · rename_i ts' hts
        simp only [Option.some.injEq] at hu; subst hu
        exact ⟨unfold_repr n a t ht, unfoldL_repr n l ts' hts⟩
end

mutual
/-- A sequent of the heap is the root of at most one tree. -/
theorem Repr.unique {lo lo' : Nat} {h : Heap} : ∀ {T U : Tree} {a : Nat},
    Repr lo h a T → Repr lo' h a U → T = U
  | .hole cs, .hole cs', a, ⟨_, s, hs, he, hc⟩, ⟨_, s', hs', he', hc'⟩ => by
    rw [hs] at hs'; cases hs'; rw [ReprL.unique hc hc']
  | .node .., .node .., a, ⟨_, s, hs, he, h1, h2, h3, h4, hc⟩, ⟨_, s', hs', he', h1', h2', h3', h4', hc'⟩ => by
    rw [hs] at hs'; cases hs'
    rw [h2] at h2'; cases h2'
    rw [ReprL.unique hc hc', ← h1, ← h1', ← h3, ← h3', ← h4, ← h4']
  | .hole cs, .node .., a, ⟨_, s, hs, he, hc⟩, ⟨_, s', hs', he', _⟩ => by
    rw [hs] at hs'; cases hs'; rw [he] at he'; cases he'
  | .node .., .hole cs, a, ⟨_, s, hs, he, _⟩, ⟨_, s', hs', he', _⟩ => by
    rw [hs] at hs'; cases hs'; rw [he] at he'; cases he'
theorem ReprL.unique {lo lo' : Nat} {h : Heap} : ∀ {ts us : List Tree} {l : List Nat},
    ReprL lo h l ts → ReprL lo' h l us → ts = us
  | [], [], [], _, _ => rfl
  | t :: ts, u :: us, a :: l, h1, h2 => by rw [Repr.unique h1.1 h2.1, ReprL.unique h1.2 h2.2]
  | [], [], _ :: _, h1, _ => by simp [ReprL] at h1
  | [], _ :: _, [], _, h2 => by simp [ReprL] at h2
  | [], _ :: _, _ :: _, h1, _ => by simp [ReprL] at h1
  | _ :: _, [], [], h1, _ => by simp [ReprL] at h1
  | _ :: _, [], _ :: _, _, h2 => by simp [ReprL] at h2
  | _ :: _, _ :: _, [], h1, _ => by simp [ReprL] at h1
end

/-! ## Specification of the input -/

/-- A closed tableau for the hypotheses `Γ`, as a list of steps, in which the symbol of each Skolem
term is new in the branch and the variable of each Skolemised formula occurs. The variables of
quantified formulas are no function symbols and not bound again, and the terms contain no variables. -/
inductive Closed : List Form → List PS → Prop
  | ax {Γ : List Form} {f : Form} {n : Int} : closes Γ f = true → Closed Γ [.mk f n .ax [] []]
  | reintro {Γ : List Form} {f : Form} {n : Int} {res : List (List Form)} {l : List PS} :
      Closed Γ l → Closed Γ (.mk f n .r res [] :: l)
  | alpha {Γ : List Form} {f : Form} {n : Int} {rule : Rule} {ps gs : List Form} {l : List PS} :
      f ∈ Γ → rule.isAlpha = true → alphaParts rule f = some ps → (∀ g ∈ gs, g ∈ ps) →
      Closed (Γ ++ gs) l → Closed Γ (.mk f n rule [gs] [] :: l)
  | gamma {Γ : List Form} {f : Form} {n : Int} {rule : Rule} {x : Nat} {b : Form} {t : Term} {l : List PS} :
      f ∈ Γ → rule.isGamma = true → quantParts rule f = some (x, b) → x ∉ b.funs → x ∉ b.binders → t.vars = [] →
      Closed (Γ ++ [(b.replaceTermByTerm (.var x) t).1]) l →
      Closed Γ (.mk f n rule [[(b.replaceTermByTerm (.var x) t).1]] [] :: l)
  | delta {Γ : List Form} {f : Form} {n : Int} {rule : Rule} {x : Nat} {b : Form} {sk : Nat}
      {tys : List Ty} {args : List Term} {l : List PS} :
      f ∈ Γ → rule.isDelta = true → quantParts rule f = some (x, b) → x ∉ b.funs → x ∉ b.binders → x ∈ allVars b →
      Term.varsL args = [] → sk ∉ Form.funsL Γ →
      Closed (Γ ++ [(b.replaceTermByTerm (.var x) (.fn sk tys args)).1]) l →
      Closed Γ (.mk f n rule [[(b.replaceTermByTerm (.var x) (.fn sk tys args)).1]] [] :: l)
  | beta {Γ : List Form} {f : Form} {n : Int} {rule : Rule} {ps : List (List Form)} {cs : List (List PS)} :
      f ∈ Γ → rule.isBeta = true → betaParts rule f = some ps → cs.length = ps.length →
      (∀ (i : Nat) (G : List Form) (c : List PS), ps[i]? = some G → cs[i]? = some c → Closed (Γ ++ G) c) →
      Closed Γ [.mk f n rule ps cs]

theorem Closed.ne_nil {Γ : List Form} {l : List PS} (h : Closed Γ l) : l ≠ [] := by
  cases h <;> simp

/-! ## Lemmas on single functions -/

theorem length_addChild (h : Heap) (a b : Nat) : (addChild h a b).length = h.length := by
  simp [addChild]

theorem addChild_other {h : Heap} {a b c : Nat} (hc : c ≠ a) : (addChild h a b)[c]? = h[c]? := by
  simp [addChild, List.getElem?_modify, Ne.symm hc]

theorem addChild_same {h : Heap} {a b : Nat} :
    (addChild h a b)[a]? = (h[a]?).map fun s => { s with children := s.children ++ [b] } := by
  simp [addChild, List.getElem?_modify]

theorem setAppliedOn_ok {s : Seq} {f : Form} (hf : f ∈ s.hyps) :
    ∃ i, setAppliedOn s f = .ok { s with appliedOn := i } ∧ s.hyps[i]? = some f := by
  unfold setAppliedOn
  cases hi : s.hyps.findIdx? (fun g => decide (f = g)) with
  | none =>
    rw [List.findIdx?_eq_none_iff] at hi
    exact absurd (hi f hf) (by simp)
  | some i =>
    obtain ⟨hlt, h1, _⟩ := List.findIdx?_eq_some_iff_getElem.1 hi
    refine ⟨i, rfl, ?_⟩
    rw [List.getElem?_eq_getElem hlt]
    simp only [decide_eq_true_eq] at h1
    rw [← h1]

/-- What a step does to the heap: the sequent `s` is at the address `p`, as a child of the last
node; nothing else changes. -/
structure Placed (h h1 : Heap) (last : Option Nat) (p : Nat) (s : Seq) : Prop where
  here : h1[p]? = some s
  other : ∀ b, b < h.length → b ≠ p → last ≠ some b → h1[b]? = h[b]?
  link : ∀ l, last = some l → l ≠ p → h1[l]? = (h[l]?).map fun s => { s with children := s.children ++ [p] }
  len : h.length ≤ h1.length

/-- The address where `place` puts a sequent. -/
def spot (h : Heap) (parent : Nat) : Nat := if isEmptyAt h parent then parent else h.length

theorem place_spec {h : Heap} {parent : Nat} {s : Seq} (hp : parent < h.length) :
    (place h parent s).1 = spot h parent ∧ Placed h (place h parent s).2 none (spot h parent) s := by
  unfold place spot
  split
  · refine ⟨rfl, ?_, ?_, ?_, ?_⟩
    · simp [store, hp]
    · intro b hb hne _; simp [store, List.getElem?_set, Ne.symm hne]
    · intro l hl; cases hl
    · simp [store]
  · refine ⟨rfl, ?_, ?_, ?_, ?_⟩
    · simp [alloc]
    · intro b hb hne _; simp [alloc, List.getElem?_append_left hb]
    · intro l hl; cases hl
    · simp [alloc]

/-- The link of a new sequent below the last node. -/
def linkTo (h : Heap) (last : Option Nat) (p : Nat) : Heap :=
  match last with
  | some l => addChild h l p
  | none => h

/-- Linking the placed sequent below the last node. -/
theorem Placed.linked {h h1 : Heap} {p : Nat} {s : Seq} (hP : Placed h h1 none p s) {last : Option Nat}
    (hl : ∀ l, last = some l → l ≠ p ∧ l < h.length) :
    Placed h (linkTo h1 last p) last p s := by
  unfold linkTo
  cases last with
  | none => exact hP
  | some l =>
    obtain ⟨hne, hlt⟩ := hl l rfl
    refine ⟨?_, ?_, ?_, ?_⟩
    · dsimp only; rw [addChild_other (Ne.symm hne)]; exact hP.here
    · intro b hb hbp hbl
      dsimp only; rw [addChild_other (fun e => hbl (by rw [e]))]
      exact hP.other b hb hbp (by simp)
    · intro l' hl' hl'p
      cases hl'
      dsimp only; rw [addChild_same, hP.other l hlt hne (by simp)]
    · dsimp only; rw [length_addChild]; exact hP.len

theorem Placed.modify {h h1 : Heap} {last : Option Nat} {p : Nat} {s : Seq} (hP : Placed h h1 last p s)
    (f : Seq → Seq) : Placed h (h1.modify p f) last p (f s) := by
  refine ⟨?_, ?_, ?_, ?_⟩
  · simp [List.getElem?_modify, hP.here]
  · intro b hb hbp hbl
    simp only [List.getElem?_modify, if_neg (Ne.symm hbp), Option.map_eq_map]
    rw [hP.other b hb hbp hbl]; simp
  · intro l hl hlp
    simp only [List.getElem?_modify, if_neg (Ne.symm hlp), Option.map_eq_map]
    rw [hP.link l hl hlp, Option.map_map]; rfl
  · simpa using hP.len

/-- What is known about the state in a branch with the hypotheses `Γ`. -/
structure Inv (gs : GS) (Γ : List Form) : Prop where
  branch : ∀ f, f ∈ gs.branch ↔ f ∈ Γ
  dep : ∀ e ∈ gs.dep, ∀ u, e.1 = some u → ∀ p ∈ u.funs, p ∈ Form.funsL Γ
  delta : ∀ e ∈ gs.delta, ∃ u, e.1 = some u ∧ ∀ p ∈ u.funs, p ∈ Form.funsL Γ

theorem funsL_append_left {Γ Δ : List Form} {p : Nat} (h : p ∈ Form.funsL Γ) : p ∈ Form.funsL (Γ ++ Δ) := by
  rw [Form.mem_funsL] at h ⊢
  obtain ⟨f, hf, hp⟩ := h
  exact ⟨f, by simp [hf], hp⟩

theorem Inv.extend {gs : GS} {Γ Δ : List Form} (hI : Inv gs Γ) {branch : List Form}
    (hb : ∀ f, f ∈ branch ↔ f ∈ gs.branch ∨ f ∈ Δ) : Inv { gs with branch := branch } (Γ ++ Δ) := by
  refine ⟨?_, ?_, ?_⟩
  · intro f; simp only [hb, List.mem_append, hI.branch]
  · intro e he u hu p hp; exact funsL_append_left (hI.dep e he u hu p hp)
  · intro e he
    obtain ⟨u, hu, hp⟩ := hI.delta e he
    exact ⟨u, hu, fun p h => funsL_append_left (hp p h)⟩

theorem Inv.congr {gs gs' : GS} {Γ : List Form} (hI : Inv gs Γ) (hb : gs'.branch = gs.branch)
    (hd : gs'.dep = gs.dep) (hde : gs'.delta = gs.delta) : Inv gs' Γ :=
  ⟨by rw [hb]; exact hI.branch, by rw [hd]; exact hI.dep, by rw [hde]; exact hI.delta⟩

theorem finish_spec {step : PS} {gs : GS} {h0 h1 : Heap} {p : Nat} {s : Seq} (hP : Placed h0 h1 none p s)
    (hl : ∀ l, gs.last = some l → l ≠ p ∧ l < h0.length)
    (hr : (postForms step).head?.isSome = true ∨
      (step.rule.isAlpha || step.rule.isGamma || step.rule.isDelta) = false) :
    ∃ gs' h2, finish step p gs h1 = .ok (gs', h2) ∧ gs'.last = some p ∧ gs'.dep = gs.dep ∧
      gs'.delta = gs.delta ∧
      gs'.branch = gs.branch ++ (if step.rule.isAlpha || step.rule.isGamma || step.rule.isDelta then
        (postForms step).head?.getD [] else []) ∧
      Placed h0 h2 gs.last p { s with forms := postForms step, proof := gs'.copy } := by
  unfold finish
  have hL := hP.linked hl
  by_cases hk : (step.rule.isAlpha || step.rule.isGamma || step.rule.isDelta) = true
  · obtain ⟨fs, hfs⟩ : ∃ fs, (postForms step).head? = some fs := by
      rcases hr with hr | hr
      · exact Option.isSome_iff_exists.1 hr
      · rw [hk] at hr; cases hr
    simp only [hk, if_true, hfs, R.ofOpt, R.bind, Option.getD_some]
    refine ⟨_, _, rfl, rfl, rfl, rfl, rfl, ?_⟩
    exact (hL.modify _).modify _
  · simp only [hk, if_false, R.bind]
    refine ⟨_, _, rfl, rfl, rfl, rfl, (List.append_nil _).symm, ?_⟩
    exact (hL.modify _).modify _

/-- What a step leaves behind: the new sequent at its place, and the new state. -/
structure Did (gs gs' : GS) (h h1 : Heap) (parent : Nat) (rule : Rule) (f : Form) (t : Option Term)
    (forms : List (List Form)) : Prop where
  last : gs'.last = some (spot h parent)
  seq : ∃ s, Placed h h1 gs.last (spot h parent) s ∧ s.isEmpty = false ∧ s.rule = rule ∧
    s.hyps[s.appliedOn]? = some f ∧ s.term = t ∧ s.forms = forms ∧ s.children = []

theorem mem_withHyps {cfg : Cfg} {l : List Form} {f : Form} (h : f ∈ l) : f ∈ (withHyps cfg l).hyps := by
  simp [withHyps, h]

theorem withHyps_ne (cfg : Cfg) (l : List Form) : (withHyps cfg l).hyps.isEmpty = false := by
  simp [withHyps]

/-- Steps without quantifier. -/
theorem oneStep_simple {cfg : Cfg} {mk : GS → List PS → Heap → R (Nat × Heap)} {f : Form} {n : Int}
    {rule : Rule} {res : List (List Form)} {cs : List (List PS)} {parent : Nat} {gs : GS} {h : Heap}
    (hk : rule.isAlpha = true ∨ rule.isBeta = true ∨ rule = .ax)
    (hf : f ∈ gs.branch) (hp : parent < h.length)
    (hl : ∀ l, gs.last = some l → l ≠ spot h parent ∧ l < h.length)
    (hr : rule.isAlpha = true → (postForms (.mk f n rule res cs)).head?.isSome = true) :
    ∃ gs' h1, oneStep cfg mk (.mk f n rule res cs) parent gs h = .ok (gs', h1) ∧
      Did gs gs' h h1 parent rule f none (postForms (.mk f n rule res cs)) ∧ gs'.dep = gs.dep ∧
      gs'.delta = gs.delta ∧
      gs'.branch = gs.branch ++ (if rule.isAlpha then (postForms (.mk f n rule res cs)).head?.getD [] else []) := by
  obtain ⟨i, hi, hi'⟩ := setAppliedOn_ok (s := { withHyps cfg gs.branch with rule := rule, node := n })
    (f := f) (mem_withHyps hf)
  have hmain : oneStep cfg mk (.mk f n rule res cs) parent gs h =
      finish (.mk f n rule res cs)
        (place h parent { withHyps cfg gs.branch with rule := rule, node := n, appliedOn := i }).1 gs
        (place h parent { withHyps cfg gs.branch with rule := rule, node := n, appliedOn := i }).2 := by
    unfold oneStep
    simp only [PS.rule, PS.node, PS.form]
    cases rule <;> simp_all [Rule.isAlpha, Rule.isBeta, R.bind]
  obtain ⟨h1, h2⟩ := place_spec (s := { withHyps cfg gs.branch with rule := rule, node := n, appliedOn := i }) hp
  obtain ⟨gs', h3, e1, e2, e3, e4, e5, e6⟩ := finish_spec (step := .mk f n rule res cs) h2 hl (by
    by_cases ha : rule.isAlpha = true
    · exact .inl (hr ha)
    · right
      simp only [PS.rule]
      cases rule <;> simp_all [Rule.isAlpha, Rule.isBeta, Rule.isGamma, Rule.isDelta])
  refine ⟨gs', h3, ?_, ⟨e2, _, e6, withHyps_ne _ _, rfl, hi', rfl, rfl, rfl⟩, e3, e4, ?_⟩
  · rw [hmain, h1]; exact e1
  · rw [e5]
    congr 1
    simp only [PS.rule]
    cases rule <;> simp_all [Rule.isAlpha, Rule.isBeta, Rule.isGamma, Rule.isDelta]

theorem quantParts_spec {rule : Rule} {f b : Form} {x : Nat} (h : quantParts rule f = some (x, b)) :
    firstVar f = some x ∧ nextForm f = b ∧
      ((rule.isGamma = true ∧ Search.showKind f = .gamma) ∨ (rule.isDelta = true ∧ Search.showKind f = .delta)) := by
  unfold quantParts at h
  split at h
  · rename_i v vs g
    simp only [Option.some.injEq, Prod.mk.injEq] at h
    obtain ⟨rfl, rfl⟩ := h
    refine ⟨rfl, ?_, .inl ⟨rfl, rfl⟩⟩
    cases vs <;> simp [nextForm]
  · rename_i v vs g
    simp only [Option.some.injEq, Prod.mk.injEq] at h
    obtain ⟨rfl, rfl⟩ := h
    refine ⟨rfl, ?_, .inl ⟨rfl, rfl⟩⟩
    cases vs <;> simp [nextForm]
  · rename_i v vs g
    simp only [Option.some.injEq, Prod.mk.injEq] at h
    obtain ⟨rfl, rfl⟩ := h
    refine ⟨rfl, ?_, .inr ⟨rfl, rfl⟩⟩
    cases vs <;> simp [nextForm]
  · rename_i v vs g
    simp only [Option.some.injEq, Prod.mk.injEq] at h
    obtain ⟨rfl, rfl⟩ := h
    refine ⟨rfl, ?_, .inr ⟨rfl, rfl⟩⟩
    cases vs <;> simp [nextForm]
  · cases h

theorem gammaTerm_of {rule : Rule} {f b : Form} {x : Nat} {t : Term} (hq : quantParts rule f = some (x, b))
    (hg : rule.isGamma = true) (hx : x ∉ b.funs) :
    gammaTerm f (b.replaceTermByTerm (.var x) t).1 = some (if x ∈ allVars b then some t else none) := by
  obtain ⟨h1, rfl, h3⟩ := quantParts_spec hq
  have hk : Search.showKind f = .gamma := by
    rcases h3 with h3 | h3
    · exact h3.2
    · cases rule <;> simp_all [Rule.isGamma, Rule.isDelta]
  rw [funs_nextForm] at hx
  rw [allVars_nextForm]
  have := gammaTerm_stepResult (t := t) hk h1 hx
  simpa only [stepResult, h1] using this

theorem deltaTerm_of {rule : Rule} {f b : Form} {x : Nat} {t : Term} (hq : quantParts rule f = some (x, b))
    (hg : rule.isDelta = true) (hx : x ∉ b.funs) :
    deltaTerm f (b.replaceTermByTerm (.var x) t).1 = some (if x ∈ allVars b then some t else none) := by
  obtain ⟨h1, rfl, h3⟩ := quantParts_spec hq
  have hk : Search.showKind f = .delta := by
    rcases h3 with h3 | h3
    · cases rule <;> simp_all [Rule.isGamma, Rule.isDelta]
    · exact h3.2
  rw [funs_nextForm] at hx
  rw [allVars_nextForm]
  have := deltaTerm_stepResult (t := t) hk h1 hx
  simpa only [stepResult, h1] using this

/-! ### Symbols -/

theorem replT_funs_ge {x : Nat} {t a : Term} (hf : x ∉ a.funs) (hv : x ∈ a.vars) :
    ∀ p ∈ t.funs, p ∈ (replT (.var x) t a).1.funs := by
  induction a using Term.ind with
  | var i =>
    simp only [Term.vars, List.mem_singleton] at hv
    rw [replT_var_fst, if_pos hv]; exact fun p hp => hp
  | mv i => simp [Term.vars] at hv
  | fn q tys args ih =>
    simp only [Term.funs, List.mem_cons, not_or, Term.mem_funsL, not_exists, not_and] at hf
    simp only [Term.vars, Term.mem_varsL] at hv
    obtain ⟨a, ha, hav⟩ := hv
    rw [replT_fn_fst, if_neg hf.1]
    intro p hp
    simp only [Term.funs, List.mem_cons, Term.mem_funsL, List.mem_map]
    exact .inr ⟨_, ⟨a, ha, rfl⟩, ih a ha (hf.2 a ha) hav p hp⟩

theorem replace_funs_ge {x : Nat} {t : Term} {f : Form} (hf : x ∉ f.funs) (hv : x ∈ allVars f) :
    ∀ p ∈ t.funs, p ∈ (f.replaceTermByTerm (.var x) t).1.funs := by
  intro p hp
  induction f using Form.ind with
  | pred q tys args =>
    simp only [Form.funs, Term.mem_funsL, not_exists, not_and] at hf
    simp only [allVars, Term.mem_varsL] at hv
    obtain ⟨a, ha, hav⟩ := hv
    simp only [Form.replaceTermByTerm, Form.funs, replTL_fst, Term.mem_funsL, List.mem_map]
    exact ⟨_, ⟨a, ha, rfl⟩, replT_funs_ge (hf a ha) hav p hp⟩
  | top => simp [allVars] at hv
  | bot => simp [allVars] at hv
  | neg f ih => exact ih hf hv
  | and fs ih =>
    simp only [Form.funs, Form.mem_funsL, not_exists, not_and] at hf
    simp only [allVars, mem_allVarsL] at hv
    obtain ⟨a, ha, hav⟩ := hv
    simp only [Form.replaceTermByTerm, Form.funs, Form.replaceTermByTermL_fst, Form.mem_funsL, List.mem_map]
    exact ⟨_, ⟨a, ha, rfl⟩, ih a ha (hf a ha) hav⟩
  | or fs ih =>
    simp only [Form.funs, Form.mem_funsL, not_exists, not_and] at hf
    simp only [allVars, mem_allVarsL] at hv
    obtain ⟨a, ha, hav⟩ := hv
    simp only [Form.replaceTermByTerm, Form.funs, Form.replaceTermByTermL_fst, Form.mem_funsL, List.mem_map]
    exact ⟨_, ⟨a, ha, rfl⟩, ih a ha (hf a ha) hav⟩
  | imp f g ihf ihg =>
    simp only [Form.funs, List.mem_append, not_or] at hf
    simp only [allVars, List.mem_append] at hv
    simp only [Form.replaceTermByTerm, Form.funs, List.mem_append]
    rcases hv with hv | hv
    · exact .inl (ihf hf.1 hv)
    · exact .inr (ihg hf.2 hv)
  | equ f g ihf ihg =>
    simp only [Form.funs, List.mem_append, not_or] at hf
    simp only [allVars, List.mem_append] at hv
    simp only [Form.replaceTermByTerm, Form.funs, List.mem_append]
    rcases hv with hv | hv
    · exact .inl (ihf hf.1 hv)
    · exact .inr (ihg hf.2 hv)
  | all vs f ih => exact ih hf hv
  | ex vs f ih => exact ih hf hv

theorem replace_absent {x : Nat} {t : Term} {f : Form} (hf : x ∉ f.funs) (hv : x ∉ allVars f)
    (ht : t ≠ .var x) : (f.replaceTermByTerm (.var x) t).1 = f := by
  induction f using Form.ind with
  | pred q tys args =>
    simp only [Form.funs, Term.mem_funsL, not_exists, not_and] at hf
    simp only [allVars, Term.mem_varsL, not_exists, not_and] at hv
    simp only [Form.replaceTermByTerm, replTL_fst]
    congr 1
    calc _ = args.map id := List.map_congr_left (fun a ha => replT_absent (hv a ha) (hf a ha) ht)
      _ = args := by simp
  | top => rfl
  | bot => rfl
  | neg f ih => simp only [Form.replaceTermByTerm]; rw [ih hf hv]
  | and fs ih =>
    simp only [Form.funs, Form.mem_funsL, not_exists, not_and] at hf
    simp only [allVars, mem_allVarsL, not_exists, not_and] at hv
    simp only [Form.replaceTermByTerm, Form.replaceTermByTermL_fst]
    congr 1
    calc _ = fs.map id := List.map_congr_left (fun a ha => ih a ha (hf a ha) (hv a ha))
      _ = fs := by simp
  | or fs ih =>
    simp only [Form.funs, Form.mem_funsL, not_exists, not_and] at hf
    simp only [allVars, mem_allVarsL, not_exists, not_and] at hv
    simp only [Form.replaceTermByTerm, Form.replaceTermByTermL_fst]
    congr 1
    calc _ = fs.map id := List.map_congr_left (fun a ha => ih a ha (hf a ha) (hv a ha))
      _ = fs := by simp
  | imp f g ihf ihg =>
    simp only [Form.funs, List.mem_append, not_or] at hf
    simp only [allVars, List.mem_append, not_or] at hv
    simp only [Form.replaceTermByTerm]; rw [ihf hf.1 hv.1, ihg hf.2 hv.2]
  | equ f g ihf ihg =>
    simp only [Form.funs, List.mem_append, not_or] at hf
    simp only [allVars, List.mem_append, not_or] at hv
    simp only [Form.replaceTermByTerm]; rw [ihf hf.1 hv.1, ihg hf.2 hv.2]
  | all vs f ih => simp only [Form.replaceTermByTerm]; rw [ih hf hv]
  | ex vs f ih => simp only [Form.replaceTermByTerm]; rw [ih hf hv]

theorem mem_subTermsTL {u : Term} {l : List Term} : u ∈ subTermsTL l ↔ ∃ a ∈ l, u ∈ subTermsT a := by
  induction l with
  | nil => simp [subTermsTL]
  | cons a l ih => simp [subTermsTL, ih]

theorem mem_subTermsL {u : Term} {l : List Form} : u ∈ subTermsL l ↔ ∃ a ∈ l, u ∈ subTerms a := by
  induction l with
  | nil => simp [subTermsL]
  | cons a l ih => simp [subTermsL, ih]

theorem subTermsT_funs {u a : Term} (h : u ∈ subTermsT a) : ∀ p ∈ u.funs, p ∈ a.funs := by
  induction a using Term.ind with
  | var i => simp only [subTermsT, List.mem_singleton] at h; subst h; exact fun p hp => hp
  | mv i => simp only [subTermsT, List.mem_singleton] at h; subst h; exact fun p hp => hp
  | fn q tys args ih =>
    simp only [subTermsT, List.mem_cons, mem_subTermsTL] at h
    rcases h with rfl | ⟨a, ha, hu⟩
    · exact fun p hp => hp
    · intro p hp
      simp only [Term.funs, List.mem_cons, Term.mem_funsL]
      exact .inr ⟨a, ha, ih a ha hu p hp⟩

theorem subTerms_funs {u : Term} {f : Form} (h : u ∈ subTerms f) : ∀ p ∈ u.funs, p ∈ f.funs := by
  intro p hp
  induction f using Form.ind with
  | pred q tys args =>
    simp only [subTerms, mem_subTermsTL] at h
    obtain ⟨a, ha, hu⟩ := h
    simp only [Form.funs, Term.mem_funsL]
    exact ⟨a, ha, subTermsT_funs hu p hp⟩
  | top => simp [subTerms] at h
  | bot => simp [subTerms] at h
  | neg f ih => exact ih h
  | and fs ih =>
    simp only [subTerms, mem_subTermsL] at h
    obtain ⟨a, ha, hu⟩ := h
    simp only [Form.funs, Form.mem_funsL]
    exact ⟨a, ha, ih a ha hu⟩
  | or fs ih =>
    simp only [subTerms, mem_subTermsL] at h
    obtain ⟨a, ha, hu⟩ := h
    simp only [Form.funs, Form.mem_funsL]
    exact ⟨a, ha, ih a ha hu⟩
  | imp f g ihf ihg =>
    simp only [subTerms, List.mem_append] at h
    simp only [Form.funs, List.mem_append]
    exact h.imp ihf ihg
  | equ f g ihf ihg =>
    simp only [subTerms, List.mem_append] at h
    simp only [Form.funs, List.mem_append]
    exact h.imp ihf ihg
  | all vs f ih => exact ih h
  | ex vs f ih => exact ih h

theorem mem_depTermsL {cfg : Cfg} {u : Term} {l : List Term} :
    u ∈ depTermsL cfg l ↔ ∃ a ∈ l, u ∈ depTerms cfg a := by
  induction l with
  | nil => simp [depTermsL]
  | cons a l ih => simp [depTermsL, ih]

theorem depTerms_funs {cfg : Cfg} {u t : Term} (h : u ∈ depTerms cfg t) : ∀ p ∈ u.funs, p ∈ t.funs := by
  induction t using Term.ind with
  | var i => simp only [depTerms, List.mem_singleton] at h; subst h; exact fun p hp => hp
  | mv i => simp only [depTerms, List.mem_singleton] at h; subst h; exact fun p hp => hp
  | fn q tys args ih =>
    simp only [depTerms] at h
    split at h
    · simp only [List.mem_singleton] at h; subst h; exact fun p hp => hp
    · simp only [mem_depTermsL] at h
      obtain ⟨a, ha, hu⟩ := h
      intro p hp
      simp only [Term.funs, List.mem_cons, Term.mem_funsL]
      exact .inr ⟨a, ha, ih a ha hu p hp⟩

/-! ### Dependencies -/

theorem depAddLoop_keys {t : Option Term} : ∀ {d : List (Option Term × List Form)} {fl : List Form} {b : Bool}
    {e : Option Term × List Form}, e ∈ (depAddLoop t d fl b).1 → e.1 = t ∨ ∃ e' ∈ d, e'.1 = e.1
  | [], _, _, e, h => by simp [depAddLoop] at h
  | (k, v) :: d, fl, b, e, h => by
    simp only [depAddLoop] at h
    split at h
    · simp only [List.mem_cons] at h
      rcases h with rfl | h
      · exact .inl rfl
      · rcases depAddLoop_keys h with h | ⟨e', he', h⟩
        · exact .inl h
        · exact .inr ⟨e', by simp [he'], h⟩
    · simp only [List.mem_cons] at h
      rcases h with rfl | h
      · exact .inr ⟨(k, v), by simp, rfl⟩
      · rcases depAddLoop_keys h with h | ⟨e', he', h⟩
        · exact .inl h
        · exact .inr ⟨e', by simp [he'], h⟩

theorem depAdd_keys {d : List (Option Term × List Form)} {t : Option Term} {f : Form}
    {e : Option Term × List Form} (h : e ∈ depAdd d t f) : e.1 = t ∨ ∃ e' ∈ d, e'.1 = e.1 := by
  unfold depAdd at h
  dsimp only at h
  split at h
  · exact depAddLoop_keys h
  · simp only [List.mem_append, List.mem_singleton] at h
    rcases h with h | rfl
    · exact depAddLoop_keys h
    · exact .inl rfl

theorem depFold_keys {f : Form} {l : List (Option Term)} : ∀ {d : List (Option Term × List Form)}
    {e : Option Term × List Form}, e ∈ l.foldl (fun d u => depAdd d u f) d →
    e.1 ∈ l ∨ ∃ e' ∈ d, e'.1 = e.1 := by
  induction l with
  | nil => intro d e h; exact .inr ⟨e, h, rfl⟩
  | cons u l ih =>
    intro d e h
    rcases ih h with h | ⟨e', he', h⟩
    · exact .inl (by simp [h])
    · rcases depAdd_keys he' with h' | ⟨e'', he'', h'⟩
      · left; rw [← h, h']; simp
      · exact .inr ⟨e'', he'', h'.trans h⟩

theorem funsL_append_right {Γ Δ : List Form} {p : Nat} (h : p ∈ Form.funsL Δ) : p ∈ Form.funsL (Γ ++ Δ) := by
  rw [Form.mem_funsL] at h ⊢
  obtain ⟨f, hf, hp⟩ := h
  exact ⟨f, by simp [hf], hp⟩

theorem Inv.step {gs gs' : GS} {Γ G : List Form} (hI : Inv gs Γ)
    (hb : ∀ f, f ∈ gs'.branch ↔ f ∈ gs.branch ∨ f ∈ G)
    (hd : ∀ e ∈ gs'.dep, ∀ u, e.1 = some u →
      (∃ e' ∈ gs.dep, e'.1 = some u) ∨ ∀ p ∈ u.funs, p ∈ Form.funsL G)
    (hde : ∀ e ∈ gs'.delta, e ∈ gs.delta ∨ ∃ u, e.1 = some u ∧ ∀ p ∈ u.funs, p ∈ Form.funsL G) :
    Inv gs' (Γ ++ G) := by
  refine ⟨?_, ?_, ?_⟩
  · intro f; simp only [hb, List.mem_append, hI.branch]
  · intro e he u hu p hp
    rcases hd e he u hu with ⟨e', he', hu'⟩ | h
    · exact funsL_append_left (hI.dep e' he' u hu' p hp)
    · exact funsL_append_right (h p hp)
  · intro e he
    rcases hde e he with he | ⟨u, hu, h⟩
    · obtain ⟨u, hu, hp⟩ := hI.delta e he
      exact ⟨u, hu, fun p h => funsL_append_left (hp p h)⟩
    · exact ⟨u, hu, fun p hp => funsL_append_right (h p hp)⟩

theorem oneStep_gamma {cfg : Cfg} {mk : GS → List PS → Heap → R (Nat × Heap)} {f b : Form} {n : Int}
    {rule : Rule} {x : Nat} {t : Term} {parent : Nat} {gs : GS} {h : Heap} {Γ : List Form} (hI : Inv gs Γ)
    (hf : f ∈ Γ) (hg : rule.isGamma = true) (hq : quantParts rule f = some (x, b)) (hx : x ∉ b.funs)
    (hp : parent < h.length) (hl : ∀ l, gs.last = some l → l ≠ spot h parent ∧ l < h.length) :
    ∃ gs' h1, oneStep cfg mk (.mk f n rule [[(b.replaceTermByTerm (.var x) t).1]] []) parent gs h = .ok (gs', h1) ∧
      Did gs gs' h h1 parent rule f (if x ∈ allVars b then some t else none)
        [[(b.replaceTermByTerm (.var x) t).1]] ∧
      Inv gs' (Γ ++ [(b.replaceTermByTerm (.var x) t).1]) := by
  have hT := gammaTerm_of (t := t) hq hg hx
  generalize hG : (b.replaceTermByTerm (.var x) t).1 = g at hT ⊢
  generalize hu : (if x ∈ allVars b then some t else none) = u at hT ⊢
  have hpf : postForms (.mk f n rule [[g]] []) = [[g]] := by
    cases rule <;> simp_all [postForms, Rule.isGamma, PS.rule, PS.results]
  have hmem : f ∈ gs.branch := (hI.branch f).2 hf
  obtain ⟨i, hi, hi'⟩ := setAppliedOn_ok (s := { withHyps cfg gs.branch with rule := rule })
    (f := f) (mem_withHyps hmem)
  have hmain : oneStep cfg mk (.mk f n rule [[g]] []) parent gs h =
      finish (.mk f n rule [[g]] [])
        (place h parent { withHyps cfg gs.branch with rule := rule, appliedOn := i, term := u }).1
        { gs with dep := (depFromTerm cfg u).foldl (fun d u => depAdd d u f) gs.dep }
        (place h parent { withHyps cfg gs.branch with rule := rule, appliedOn := i, term := u }).2 := by
    unfold oneStep
    simp only [PS.rule, PS.node, PS.form, PS.results, List.head?_cons, Option.bind_some, R.ofOpt, R.bind, hT]
    cases rule <;> simp_all [Rule.isGamma, R.bind]
  obtain ⟨h1, h2⟩ := place_spec (s := { withHyps cfg gs.branch with rule := rule, appliedOn := i, term := u }) hp
  obtain ⟨gs', h3, e1, e2, e3, e4, e5, e6⟩ := finish_spec (step := .mk f n rule [[g]] [])
    (gs := { gs with dep := (depFromTerm cfg u).foldl (fun d u => depAdd d u f) gs.dep }) h2 hl
    (.inl (by rw [hpf]; rfl))
  refine ⟨gs', h3, ?_, ⟨e2, _, e6, withHyps_ne _ _, rfl, hi', rfl, hpf, rfl⟩, ?_⟩
  · rw [hmain, h1]; exact e1
  · refine hI.step ?_ ?_ ?_
    · intro k
      rw [e5]
      simp [PS.rule, hg, hpf]
    · intro e he w hw
      rw [e3] at he
      rcases depFold_keys he with h' | ⟨e', he', h'⟩
      · right
        subst hu
        rw [hw] at h'
        split at h'
        · rename_i hxv
          simp only [depFromTerm, List.mem_map, Option.some.injEq, exists_eq_right] at h'
          intro p hp
          rw [Form.mem_funsL]
          refine ⟨g, by simp, ?_⟩
          rw [← hG]
          exact replace_funs_ge hx hxv p (depTerms_funs h' p hp)
        · simp [depFromTerm] at h'
      · exact .inl ⟨e', he', h'.trans hw⟩
    · intro e he; rw [e4] at he; exact .inl he

theorem introducedByBranch_new {t : Option Term} {node : Int} : ∀ {l : List (Option Term × Form × Int)},
    (∀ e ∈ l, ∃ u, e.1 = some u ∧ some u ≠ t) → introducedByBranch t node l = .ok true
  | [], _ => rfl
  | e :: l, h => by
    obtain ⟨u, hu, hne⟩ := h e (by simp)
    simp only [introducedByBranch, hu, if_neg hne]
    exact introducedByBranch_new (fun e he => h e (by simp [he]))

theorem relatedTo_none {t : Term} {rules : List (Rule × PS)} : ∀ {l : List Form},
    (∀ f ∈ l, t ∉ subTerms f) → relatedTo (some t) rules l = .ok ([], [])
  | [], _ => rfl
  | f :: l, h => by
    simp only [relatedTo, containsTerm, R.bind, relatedTo_none (l := l) (rules := rules) (fun f hf => h f (List.mem_cons_of_mem _ hf))]
    simp [h f (by simp)]

theorem offspringsOf_none {t : Term} : ∀ {l : List Form},
    (∀ f ∈ l, t ∉ subTerms f) → offspringsOf (some t) l = .ok []
  | [], _ => rfl
  | f :: l, h => by
    simp only [offspringsOf, containsTerm, R.bind, offspringsOf_none (l := l) (fun f hf => h f (List.mem_cons_of_mem _ hf))]
    simp [h f (by simp)]

theorem oneStep_delta {cfg : Cfg} {mk : GS → List PS → Heap → R (Nat × Heap)} {f b : Form} {n : Int}
    {rule : Rule} {x : Nat} {sk : Nat} {tys : List Ty} {args : List Term} {parent : Nat} {gs : GS} {h : Heap}
    {Γ : List Form} (hI : Inv gs Γ)
    (hf : f ∈ Γ) (hg : rule.isDelta = true) (hq : quantParts rule f = some (x, b)) (hx : x ∉ b.funs)
    (hxv : x ∈ allVars b) (hsk : sk ∉ Form.funsL Γ)
    (hp : parent < h.length) (hl : ∀ l, gs.last = some l → l ≠ spot h parent ∧ l < h.length) :
    ∃ gs' h1, oneStep cfg mk (.mk f n rule [[(b.replaceTermByTerm (.var x) (.fn sk tys args)).1]] []) parent gs h =
        .ok (gs', h1) ∧
      Did gs gs' h h1 parent rule f (some (.fn sk tys args))
        [[(b.replaceTermByTerm (.var x) (.fn sk tys args)).1]] ∧
      Inv gs' (Γ ++ [(b.replaceTermByTerm (.var x) (.fn sk tys args)).1]) := by
  have hT := deltaTerm_of (t := .fn sk tys args) hq hg hx
  rw [if_pos hxv] at hT
  have hge := replace_funs_ge (t := .fn sk tys args) hx hxv
  have hskt : sk ∈ Term.funs (.fn sk tys args) := by simp [Term.funs]
  generalize hG : (b.replaceTermByTerm (.var x) (.fn sk tys args)).1 = g at hT hge ⊢
  generalize hu : Term.fn sk tys args = t at hT hge hskt ⊢
  have hpf : postForms (.mk f n rule [[g]] []) = [[g]] := by
    cases rule <;> simp_all [postForms, Rule.isDelta, PS.rule, PS.results]
  have hmem : f ∈ gs.branch := (hI.branch f).2 hf
  obtain ⟨i, hi, hi'⟩ := setAppliedOn_ok (s := { withHyps cfg gs.branch with rule := rule })
    (f := f) (mem_withHyps hmem)
  -- nothing of the branch mentions the new term
  have hsub : ∀ k ∈ gs.branch, t ∉ subTerms k := fun k hk hm =>
    hsk (Form.mem_funsL.2 ⟨k, (hI.branch k).1 hk, subTerms_funs hm sk hskt⟩)
  have hdelta : ∀ e ∈ gs.delta, ∃ u, e.1 = some u ∧ some u ≠ some t := fun e he => by
    obtain ⟨u, hu, hp⟩ := hI.delta e he
    exact ⟨u, hu, fun h => hsk (hp sk (by cases h; exact hskt))⟩
  have hdep : depGet gs.dep (some t) = none := by
    simp only [depGet, Option.map_eq_none_iff, List.find?_eq_none]
    intro e he h
    exact hsk (hI.dep e he t (by simpa using h) sk hskt)
  have hfind : findDelta gs (some t) [] = ([], false) := by
    have : gs.delta.find? (fun p => p.1.isSome && p.1 = some t) = none := by
      rw [List.find?_eq_none]
      intro e he h
      obtain ⟨u, hu, hne⟩ := hdelta e he
      simp only [hu, Option.isSome_some, Bool.true_and, decide_eq_true_eq] at h
      exact hne h
    simp only [findDelta, this]
  have hintro : (if cfg.preInner = true then introducedByBranch (some t) n gs.delta else .ok true) = .ok true := by
    split
    · exact introducedByBranch_new hdelta
    · rfl
  -- the state and the sequent
  generalize hgs2 : ({ gs with branch := gs.branch ++ [g], delta := gs.delta ++ [(some t, g, n)], rules := gs.rules ++ [(rule, psFrom f g rule)] } : GS) = gs2
  generalize hs : ({ withHyps cfg gs.branch with rule := rule, appliedOn := i, term := some t, forms := [[g]], proof := gs2.copy } : Seq) = s
  have hap : applyDelta cfg gs f g rule (some t) n = .ok (s, gs2) := by
    unfold applyDelta
    rw [hi]
    simp only [R.bind, hgs2]
    rw [← hs]
  obtain ⟨h1, h2⟩ := place_spec (s := s) (h := h) (parent := parent) hp
  have hL := h2.linked hl
  have hmain : deltaStep cfg mk (.mk f n rule [[g]] []) parent gs h =
      .ok ({ gs2 with last := some (spot h parent), rules := gs.rules },
        linkTo (place h parent s).2 gs.last (spot h parent)) := by
    unfold deltaStep
    simp only [PS.rule, PS.node, PS.form, PS.results, List.head?_cons, Option.bind_some, R.ofOpt, R.bind, hT,
      hintro, hdep, rulesInOrder, offspringsOf_none hsub, relatedTo_none hsub, weakenForms, hfind, hap]
    simp only [Bool.not_true, Option.isSome_none, Bool.false_and, Bool.false_eq_true, if_false,
      List.isEmpty_nil, if_true, hap, R.bind, h1]
    have hlast : gs2.last = gs.last := by rw [← hgs2]
    rw [hlast]
    rfl
  have hone : oneStep cfg mk (.mk f n rule [[g]] []) parent gs h =
      .ok ({ gs2 with last := some (spot h parent), rules := gs.rules ++ [(rule, .mk f n rule [[g]] [])],
                      branch := gs2.branch ++ [g] },
        linkTo (place h parent s).2 gs.last (spot h parent)) := by
    unfold oneStep
    simp only [hmain, hpf]
    cases rule <;> simp_all [Rule.isDelta, R.bind, R.ofOpt, PS.rule]
  refine ⟨_, _, hone, ⟨rfl, s, hL, ?_, ?_, ?_, ?_, ?_, ?_⟩, ?_⟩
  · rw [← hs]; exact withHyps_ne _ _
  · rw [← hs]
  · rw [← hs]; exact hi'
  · rw [← hs]
  · rw [← hs]
  · rw [← hs]; rfl
  · refine hI.step ?_ ?_ ?_
    · intro k
      rw [← hgs2]
      simp
    · intro e he u hu'
      rw [← hgs2] at he
      exact .inl ⟨e, he, hu'⟩
    · intro e he
      rw [← hgs2] at he
      simp only [List.mem_append, List.mem_singleton] at he
      rcases he with he | rfl
      · exact .inl he
      · exact .inr ⟨t, rfl, fun p hp => Form.mem_funsL.2 ⟨g, by simp, hge p hp⟩⟩

/-! ## The translation of a whole tableau -/

/-- The loops of `makeProof`: the steps, then the children of the last one. -/
def run (cfg : Cfg) (n parent : Nat) (l : List PS) (gs : GS) (h : Heap) : R Heap :=
  (steps cfg (makeProof cfg n) parent l gs h).bind fun r =>
    match l.getLast? with
    | none => .panic
    | some last => childLoop (makeProof cfg n) r.1 last.node (postForms last) 0 last.children r.2

theorem run_cons {cfg : Cfg} {n parent : Nat} {s : PS} {l : List PS} {gs : GS} {h : Heap} (hl : l ≠ []) :
    run cfg n parent (s :: l) gs h =
      (oneStep cfg (makeProof cfg n) s parent gs h).bind fun r => run cfg n parent l r.1 r.2 := by
  unfold run
  simp only [steps]
  cases oneStep cfg (makeProof cfg n) s parent gs h with
  | ok r =>
    simp only [R.bind]
    obtain ⟨a, l', rfl⟩ : ∃ a l', l = a :: l' := List.exists_cons_of_ne_nil hl
    simp only [List.getLast?_cons_cons]
  | panic => rfl
  | out => rfl

theorem makeProof_run {cfg : Cfg} {n : Nat} {gs : GS} {l : List PS} {h : Heap} (hl : l ≠ [])
    (hb : gs.branch ≠ []) :
    makeProof cfg (n + 1) gs l h =
      (run cfg n h.length l gs (h ++ [({} : Seq)])).bind fun h' => .ok (h.length, h') := by
  obtain ⟨a, l', rfl⟩ : ∃ a l', l = a :: l' := List.exists_cons_of_ne_nil hl
  have hbe : gs.branch.isEmpty = false := by simpa using hb
  simp only [makeProof, run, alloc, hbe, Bool.false_eq_true, if_false,
    List.getLast?_eq_some_getLast (l := a :: l') (by simp)]
  cases steps cfg (makeProof cfg n) h.length (a :: l') gs (h ++ [({} : Seq)]) with
  | ok r => simp only [R.bind]
  | panic => rfl
  | out => rfl

theorem isEmptyAt_of {h : Heap} {a : Nat} {s : Seq} (hs : h[a]? = some s) : isEmptyAt h a = s.isEmpty := by
  simp only [isEmptyAt, hs]

theorem spot_le {h : Heap} {parent : Nat} (hp : parent < h.length) : spot h parent ≤ h.length := by
  unfold spot; split <;> omega

/-- The same hypotheses up to order and repetition. -/
def Same (Γ Δ : List Form) : Prop := ∀ f, f ∈ Γ ↔ f ∈ Δ

theorem Same.append {Γ Δ G G' : List Form} (h : Same Γ Δ) (h' : Same G G') : Same (Γ ++ G) (Δ ++ G') := fun f => by
  simp only [List.mem_append, h f, h' f]

theorem Same.funsL {Γ Δ : List Form} (h : Same Γ Δ) {p : Nat} : p ∈ Form.funsL Γ ↔ p ∈ Form.funsL Δ := by
  simp only [Form.mem_funsL]
  exact ⟨fun ⟨a, ha, hp⟩ => ⟨a, (h a).1 ha, hp⟩, fun ⟨a, ha, hp⟩ => ⟨a, (h a).2 ha, hp⟩⟩

theorem Same.closes {Γ Δ : List Form} (h : Same Γ Δ) (f : Form) : closes Γ f = closes Δ f := by
  have hd : ∀ g, decide (g ∈ Γ) = decide (g ∈ Δ) := fun g => by simp only [h g]
  unfold Gs3.closes
  rw [hd f, hd f.neg]
  cases f with
  | neg g => dsimp only; rw [hd g]
  | _ => rfl

/-- What the translation of the steps `l` in a branch with the hypotheses `Γ` does, from depth `n`. -/
def Does (cfg : Cfg) (n : Nat) (Γ : List Form) (l : List PS) : Prop :=
  ∀ (parent : Nat) (gs : GS) (h : Heap), Inv gs Γ → parent < h.length →
    ((gs.last = none ∧ isEmptyAt h parent = true ∧ parent + 1 = h.length) ∨
      (∃ a, gs.last = some a ∧ a < h.length ∧ isEmptyAt h parent = false)) →
    ∃ h2 T, run cfg n parent l gs h = .ok h2 ∧
      (∀ b, b < spot h parent → gs.last ≠ some b → h2[b]? = h[b]?) ∧
      (∀ a, gs.last = some a → h2[a]? = (h[a]?).map fun s => { s with children := s.children ++ [spot h parent] }) ∧
      h.length ≤ h2.length ∧ Repr (spot h parent) h2 (spot h parent) T ∧
      ∀ Γ', Same Γ' Γ → valid Γ' T = true

theorem last_ok {gs : GS} {h : Heap} {parent : Nat}
    (hc : (gs.last = none ∧ isEmptyAt h parent = true ∧ parent + 1 = h.length) ∨
      (∃ a, gs.last = some a ∧ a < h.length ∧ isEmptyAt h parent = false)) :
    ∀ l, gs.last = some l → l ≠ spot h parent ∧ l < h.length := by
  intro l hl
  rcases hc with ⟨h1, _⟩ | ⟨a, h1, h2, h3⟩
  · rw [h1] at hl; cases hl
  · rw [h1] at hl; cases hl
    refine ⟨?_, h2⟩
    unfold spot; rw [h3]; simp; omega

theorem Placed.len_lt {h h1 : Heap} {last : Option Nat} {p : Nat} {s : Seq} (hP : Placed h h1 last p s) :
    p < h1.length := (List.getElem?_eq_some_iff.1 hP.here).1

/-- After a step the parent is not empty. -/
theorem parent_full {gs : GS} {h h1 : Heap} {parent : Nat} {s : Seq} (hp : parent < h.length)
    (hc : (gs.last = none ∧ isEmptyAt h parent = true ∧ parent + 1 = h.length) ∨
      (∃ a, gs.last = some a ∧ a < h.length ∧ isEmptyAt h parent = false))
    (hP : Placed h h1 gs.last (spot h parent) s) (hs : s.isEmpty = false) : isEmptyAt h1 parent = false := by
  rcases hc with ⟨h1', h2, h3⟩ | ⟨a, ha, hlt, hne⟩
  · have : spot h parent = parent := by unfold spot; rw [h2]; simp
    rw [this] at hP
    rw [isEmptyAt_of hP.here]; exact hs
  · have hsp : spot h parent = h.length := by unfold spot; rw [hne]; simp
    rw [hsp] at hP
    obtain ⟨s0, hs0⟩ : ∃ s0, h[parent]? = some s0 := ⟨_, List.getElem?_eq_getElem hp⟩
    rw [isEmptyAt_of hs0] at hne
    by_cases hpa : parent = a
    · subst hpa
      have := hP.link parent ha (by omega)
      rw [hs0] at this
      rw [isEmptyAt_of this]
      exact hne
    · have := hP.other parent hp (by omega) (by rw [ha]; simpa using Ne.symm hpa)
      rw [isEmptyAt_of (this.trans hs0)]
      exact hne

/-- A step with one child, followed by the rest. -/
theorem does_cons {cfg : Cfg} {n : Nat} {Γ G : List Form} {step : PS} {l : List PS} {rule : Rule} {f : Form}
    {t : Option Term} {forms : List (List Form)} (hl : l ≠ [])
    (hstep : ∀ (parent : Nat) (gs : GS) (h : Heap), Inv gs Γ → parent < h.length →
      (∀ l, gs.last = some l → l ≠ spot h parent ∧ l < h.length) →
      ∃ gs' h1, oneStep cfg (makeProof cfg n) step parent gs h = .ok (gs', h1) ∧
        Did gs gs' h h1 parent rule f t forms ∧ Inv gs' (Γ ++ G))
    (hvalid : ∀ Γ' T, Same Γ' Γ → (∀ Γ'', Same Γ'' (Γ ++ G) → valid Γ'' T = true) →
      valid Γ' (.node rule f t forms [T]) = true)
    (hrest : Does cfg n (Γ ++ G) l) : Does cfg n Γ (step :: l) := by
  intro parent gs h hI hp hc
  obtain ⟨gs1, h1, hs1, ⟨hlast, s, hP, he, hr, ha, ht, hf, hch⟩, hI1⟩ := hstep parent gs h hI hp (last_ok hc)
  have hfull := parent_full hp hc hP he
  have hplt := hP.len_lt
  have hp1 : parent < h1.length := by have := hP.len; omega
  have hsp1 : spot h1 parent = h1.length := by unfold spot; rw [hfull]; simp
  obtain ⟨h2, T, hrun, hfr, hlk, hlen, hR, hV⟩ := hrest parent gs1 h1 hI1 hp1
    (.inr ⟨spot h parent, hlast, hplt, hfull⟩)
  rw [hsp1] at hfr hlk hR
  have hsle := spot_le hp
  refine ⟨h2, .node rule f t forms [T], ?_, ?_, ?_, ?_, ?_, ?_⟩
  · rw [run_cons hl, hs1]; exact hrun
  · intro b hb hbl
    rw [hfr b (by omega) (by rw [hlast]; intro e; cases e; omega)]
    exact hP.other b (by omega) (by omega) hbl
  · intro a haa
    have := last_ok hc a haa
    have hlen1 := hP.len
    rw [hfr a (by omega) (by rw [hlast]; intro e; cases e; exact this.1 rfl)]
    exact hP.link a haa this.1
  · have := hP.len; omega
  · refine ⟨Nat.le_refl _, { s with children := s.children ++ [h1.length] }, ?_, he, hr, ha, ht, hf, ?_⟩
    · rw [hlk _ hlast, hP.here]; rfl
    · rw [hch]
      exact ⟨Repr.mono (by omega) T hR, trivial⟩
  · intro Γ' hΓ'
    exact hvalid Γ' T hΓ' hV

theorem depCopy_sub {d : List (Option Term × List Form)} {e : Option Term × List Form} (h : e ∈ depCopy d) : e ∈ d :=
  (List.mem_filter.1 h).1

/-- The loop over the children of a beta step. -/
theorem childLoop_spec {cfg : Cfg} {n : Nat} {Γ : List Form} {gs : GS} {node : Int} {results : List (List Form)}
    {a : Nat} (hI : Inv gs Γ) (hΓ : Γ ≠ []) (ha : gs.last = some a) :
    ∀ (cs : List (List PS)) (i : Nat) (h : Heap), i + cs.length = results.length → a < h.length →
      (∀ (j : Nat) (c : List PS) (G : List Form), cs[j]? = some c → results[i + j]? = some G →
        c ≠ [] ∧ Does cfg n (Γ ++ G) c) →
      ∃ h2 ls ts, childLoop (makeProof cfg (n + 1)) gs node results i cs h = .ok h2 ∧ h.length ≤ h2.length ∧
        (∀ b, b < h.length → b ≠ a → h2[b]? = h[b]?) ∧
        h2[a]? = (h[a]?).map (fun s => { s with children := s.children ++ ls }) ∧
        ReprL (a + 1) h2 ls ts ∧ ts.length = cs.length ∧
        ∀ Γ', Same Γ' Γ → validL ((results.drop i).map (Γ' ++ ·)) ts = true
  | [], i, h, hlen, hah, _ => by
    refine ⟨h, [], [], rfl, Nat.le_refl _, fun _ _ _ => rfl, ?_, trivial, rfl, ?_⟩
    · simp
    · intro Γ' _; cases (results.drop i).map (Γ' ++ ·) <;> rfl
  | c :: cs, i, h, hlen, hah, hcl => by
    simp only [List.length_cons] at hlen
    have hil : i < results.length := by omega
    obtain ⟨G, hG⟩ : ∃ G, results[i]? = some G := ⟨_, List.getElem?_eq_getElem hil⟩
    obtain ⟨hcne, hdo⟩ := hcl 0 c G rfl (by simpa using hG)
    have hI' : Inv { gs with dep := depCopy gs.dep, branch := gs.branch ++ G, last := none, beta := gs.beta ++ [(i, node)] }
        (Γ ++ G) := hI.step (by simp) (fun e he u hu => .inl ⟨e, depCopy_sub he, hu⟩) (fun e he => .inl he)
    have hbne : gs.branch ++ G ≠ [] := by
      obtain ⟨f, hf⟩ := List.exists_mem_of_ne_nil Γ hΓ
      have := (hI.branch f).2 hf
      intro e
      have : f ∈ gs.branch ++ G := List.mem_append_left _ this
      rw [e] at this; simp at this
    have hemp : isEmptyAt (h ++ [({} : Seq)]) h.length = true := by
      rw [isEmptyAt_of (s := {}) (by simp)]; rfl
    have hsp : spot (h ++ [({} : Seq)]) h.length = h.length := by unfold spot; rw [hemp]; simp
    obtain ⟨h1, T, hrun, hfr, _, hlen1, hR, hV⟩ := hdo h.length _ (h ++ [({} : Seq)]) hI' (by simp)
      (.inl ⟨rfl, hemp, by simp⟩)
    rw [hsp] at hfr hR
    have hlen1 : h.length + 1 ≤ h1.length := by simpa using hlen1
    obtain ⟨h2, ls, ts, hrec, hlen2, hfr2, ha2, hRL, htl, hVL⟩ := childLoop_spec (cfg := cfg) (n := n) (node := node) (results := results) hI hΓ ha cs (i + 1)
      (addChild h1 a h.length) (by omega) (by rw [length_addChild]; omega)
      (fun j c' G' hc' hG' => hcl (j + 1) c' G' (by simpa using hc') (by rw [← hG']; congr 1; omega))
    rw [length_addChild] at hlen2 hfr2
    have hold : ∀ b, b < h.length → h1[b]? = h[b]? := fun b hb => by
      rw [hfr b hb (by simp), List.getElem?_append_left hb]
    refine ⟨h2, h.length :: ls, T :: ts, ?_, ?_, ?_, ?_, ⟨?_, hRL⟩, by simp [htl], ?_⟩
    · have hmk := makeProof_run (cfg := cfg) (n := n) (gs := { gs with dep := depCopy gs.dep, branch := gs.branch ++ G, last := none, beta := gs.beta ++ [(i, node)] }) (h := h) hcne hbne
      rw [hrun] at hmk
      simp only [childLoop, hG, R.ofOpt, R.bind, ha]
      rw [hmk]
      exact hrec
    · omega
    · intro b hb hba
      rw [hfr2 b (by omega) hba, addChild_other hba, hold b hb]
    · rw [ha2, addChild_same, hold a hah, Option.map_map]
      congr 1
      funext s
      simp
    · refine Repr.mono (lo := h.length) (by omega) T (Repr.frame ?_ T hR)
      intro b hb hb1
      rw [hfr2 b hb1 (by omega), addChild_other (by omega)]
    · intro Γ' hΓ'
      rw [List.drop_eq_getElem_cons hil]
      have hGe : results[i] = G := by rw [List.getElem?_eq_getElem hil] at hG; simpa using hG
      simp only [List.map_cons, validL, Bool.and_eq_true, hGe]
      exact ⟨hV _ (hΓ'.append (fun _ => Iff.rfl)), hVL Γ' hΓ'⟩

theorem bound_all {P : Nat → Nat → Prop} : ∀ (k : Nat), (∀ i, i < k → ∃ N, ∀ n, N ≤ n → P i n) →
    ∃ N, ∀ n, N ≤ n → ∀ i, i < k → P i n
  | 0, _ => ⟨0, fun _ _ i hi => absurd hi (Nat.not_lt_zero i)⟩
  | k + 1, h => by
    obtain ⟨N, hN⟩ := bound_all k (fun i hi => h i (by omega))
    obtain ⟨M, hM⟩ := h k (by omega)
    refine ⟨N + M, fun n hn i hi => ?_⟩
    by_cases hik : i = k
    · subst hik; exact hM n (by omega)
    · exact hN n (by omega) i (by omega)

theorem alpha_kind {rule : Rule} (h : rule.isAlpha = true) :
    rule.isBeta = false ∧ rule.isGamma = false ∧ rule.isDelta = false ∧ rule ≠ .ax ∧ rule ≠ .w ∧ rule ≠ .r := by
  cases rule <;> simp_all [Rule.isAlpha, Rule.isBeta, Rule.isGamma, Rule.isDelta]

theorem postForms_alpha {f : Form} {n : Int} {rule : Rule} {gs : List Form} {cs : List (List PS)} :
    ∃ gs', postForms (.mk f n rule [gs] cs) = [gs'] ∧ Same gs' gs := by
  refine ⟨if rule = .nor ∨ rule = .nimp ∨ rule = .and ∨ rule = .equ then
    (match gs with | [f] => [f, f] | _ => gs) else gs, rfl, ?_⟩
  intro g
  by_cases hr : rule = .nor ∨ rule = .nimp ∨ rule = .and ∨ rule = .equ
  · rw [if_pos hr]
    rcases gs with _ | ⟨a, _ | ⟨b, l⟩⟩ <;> simp
  · rw [if_neg hr]

theorem postForms_beta {f : Form} {n : Int} {rule : Rule} {ps : List (List Form)} {cs : List (List PS)}
    (hb : rule.isBeta = true) (hp : betaParts rule f = some ps) : postForms (.mk f n rule ps cs) = ps := by
  unfold postForms
  simp only [PS.results, PS.rule]
  cases rule
  case equ =>
    cases f with
    | equ f g => simp only [betaParts, Option.some.injEq] at hp; subst hp; rfl
    | neg g => cases g <;> simp [betaParts] at hp
    | _ => simp [betaParts] at hp
  all_goals simp_all [Rule.isBeta]

/-- The translation of a closed tableau builds a refutation. -/
theorem closed_does (cfg : Cfg) {Γ : List Form} {l : List PS} (hcl : Closed Γ l) :
    ∃ N, ∀ n, N ≤ n → Does cfg n Γ l := by
  induction hcl with
  | @ax Γ f n hcl =>
    refine ⟨0, fun m _ parent gs h hI hp hc => ?_⟩
    have hfΓ : f ∈ Γ := by
      unfold closes at hcl; simp only [Bool.and_eq_true, decide_eq_true_eq] at hcl; exact hcl.1
    obtain ⟨gs1, h1, hs1, ⟨hlast, s, hP, he, hr, ha, ht, hf, hch⟩, _⟩ :=
      oneStep_simple (cfg := cfg) (mk := makeProof cfg m) (n := n) (res := []) (cs := []) (rule := .ax) (.inr (.inr rfl))
        ((hI.branch f).2 hfΓ) hp (last_ok hc) (by intro h; cases h)
    have hsle := spot_le hp
    refine ⟨h1, .node .ax f none [] [], ?_, ?_, ?_, hP.len, ?_, ?_⟩
    · simp [run, steps, hs1, R.bind, childLoop, PS.children]
    · intro b hb hbl; exact hP.other b (by omega) (by omega) hbl
    · intro a haa; exact hP.link a haa (last_ok hc a haa).1
    · exact ⟨Nat.le_refl _, s, hP.here, he, hr, ha, ht, hf, by rw [hch]; trivial⟩
    · intro Γ' hΓ'
      simp only [valid, Bool.and_eq_true, decide_eq_true_eq, List.isEmpty_nil, and_true]
      exact ⟨(hΓ' f).2 hfΓ, by rw [hΓ'.closes]; exact hcl⟩
  | @reintro Γ f n res l hcl ih =>
    obtain ⟨N, hN⟩ := ih
    refine ⟨N, fun m hm parent gs h hI hp hc => ?_⟩
    have := hN m hm parent { gs with rules := gs.rules ++ [(.r, .mk f n .r res [])] } h
      (hI.congr rfl rfl rfl) hp hc
    rw [run_cons hcl.ne_nil]
    simpa only [oneStep, PS.rule, R.bind] using this
  | @alpha Γ f n rule ps gs l hf ha hps hgs hcl ih =>
    obtain ⟨N, hN⟩ := ih
    refine ⟨N, fun m hm => ?_⟩
    obtain ⟨gs', hgs', hsame⟩ := postForms_alpha (f := f) (n := n) (rule := rule) (gs := gs) (cs := [])
    obtain ⟨k1, k2, k3, k4, k5, k6⟩ := alpha_kind ha
    refine does_cons (G := gs) (rule := rule) (f := f) (t := none) (forms := [gs']) hcl.ne_nil ?_ ?_ (hN m hm)
    · intro parent st h hI hp hlast
      obtain ⟨st1, h1, hs1, hdid, hd, hde, hb⟩ := oneStep_simple (cfg := cfg) (mk := makeProof cfg m) (n := n)
        (res := [gs]) (cs := []) (.inl ha) ((hI.branch f).2 hf) hp hlast (by rw [hgs']; intro _; rfl)
      rw [hgs'] at hdid hb
      refine ⟨st1, h1, hs1, hdid, hI.step ?_ ?_ ?_⟩
      · intro g; rw [hb]; simp [ha, hsame g]
      · intro e he u hu; rw [hd] at he; exact .inl ⟨e, he, hu⟩
      · intro e he; rw [hde] at he; exact .inl he
    · intro Γ' T hΓ' hT
      have h1 : f ∈ Γ' := (hΓ' f).2 hf
      have h2 : gs'.all (fun g => decide (g ∈ ps)) = true := by
        simp only [List.all_eq_true, decide_eq_true_eq]
        exact fun g hg => hgs g ((hsame g).1 hg)
      have h3 : valid (Γ' ++ gs') T = true := hT _ (hΓ'.append hsame)
      cases rule <;> simp_all [Rule.isAlpha, valid, validL]
  | @gamma Γ f n rule x b t l hf hg hq hx hxb htv hcl ih =>
    obtain ⟨N, hN⟩ := ih
    refine ⟨N, fun m hm => ?_⟩
    refine does_cons (G := [(b.replaceTermByTerm (.var x) t).1]) (rule := rule) (f := f)
      (t := if x ∈ allVars b then some t else none) (forms := [[(b.replaceTermByTerm (.var x) t).1]])
      hcl.ne_nil ?_ ?_ (hN m hm)
    · intro parent st h hI hp hlast
      exact oneStep_gamma hI hf hg hq hx hp hlast
    · intro Γ' T hΓ' hT
      have h1 : f ∈ Γ' := (hΓ' f).2 hf
      have h3 : valid (Γ' ++ [(b.replaceTermByTerm (.var x) t).1]) T = true :=
        hT _ (hΓ'.append (fun _ => Iff.rfl))
      have h2 : isInstance x b (if x ∈ allVars b then some t else none) (b.replaceTermByTerm (.var x) t).1 = true := by
        by_cases hxv : x ∈ allVars b
        · simp [hxv, isInstance, htv, hx, hxb]
        · simp only [hxv, if_false, isInstance]
          have : (b.replaceTermByTerm (.var x) t).1 = b :=
            replace_absent hx hxv (by rintro rfl; simp [Term.vars] at htv)
          simp [this, hx, hxb, hxv]
      generalize (b.replaceTermByTerm (.var x) t).1 = g at h2 h3
      generalize (if x ∈ allVars b then some t else none) = u at h2
      cases rule <;> simp_all [Rule.isGamma, Rule.isAlpha, Rule.isBeta, Rule.isDelta, valid, validL]
  | @delta Γ f n rule x b sk tys args l hf hg hq hx hxb hxv hargs hsk hcl ih =>
    obtain ⟨N, hN⟩ := ih
    refine ⟨N, fun m hm => ?_⟩
    refine does_cons (G := [(b.replaceTermByTerm (.var x) (.fn sk tys args)).1]) (rule := rule) (f := f)
      (t := some (.fn sk tys args)) (forms := [[(b.replaceTermByTerm (.var x) (.fn sk tys args)).1]])
      hcl.ne_nil ?_ ?_ (hN m hm)
    · intro parent st h hI hp hlast
      exact oneStep_delta hI hf hg hq hx hxv hsk hp hlast
    · intro Γ' T hΓ' hT
      have h1 : f ∈ Γ' := (hΓ' f).2 hf
      have h3 : valid (Γ' ++ [(b.replaceTermByTerm (.var x) (.fn sk tys args)).1]) T = true :=
        hT _ (hΓ'.append (fun _ => Iff.rfl))
      have h2 : isInstance x b (some (.fn sk tys args)) (b.replaceTermByTerm (.var x) (.fn sk tys args)).1 = true := by
        simp [isInstance, Term.vars, hargs, hx, hxb]
      have h4 : sk ∉ Form.funsL Γ' := fun h => hsk (hΓ'.funsL.1 h)
      generalize (b.replaceTermByTerm (.var x) (.fn sk tys args)).1 = g at h2 h3
      cases rule <;> simp_all [Rule.isGamma, Rule.isAlpha, Rule.isBeta, Rule.isDelta, valid, validL]
  | @beta Γ f n rule ps cs hf hb hps hlen hcs ih =>
    obtain ⟨N, hN⟩ := bound_all (P := fun i n => ∀ (G : List Form) (c : List PS), ps[i]? = some G → cs[i]? = some c →
        c ≠ [] ∧ Does cfg n (Γ ++ G) c) cs.length (by
      intro i hi
      obtain ⟨N, hN⟩ := ih i ps[i] cs[i] (List.getElem?_eq_getElem (by omega)) (List.getElem?_eq_getElem hi)
      refine ⟨N, fun n hn G c hG hc => ?_⟩
      have hne := (hcs i G c hG hc).ne_nil
      rw [List.getElem?_eq_getElem (by omega)] at hG
      rw [List.getElem?_eq_getElem hi] at hc
      cases hG; cases hc
      exact ⟨hne, hN n hn⟩)
    refine ⟨N + 1, fun m hm parent gs h hI hp hc => ?_⟩
    obtain ⟨m, rfl⟩ : ∃ k, m = k + 1 := ⟨m - 1, by omega⟩
    have hpf := postForms_beta (n := n) (cs := cs) hb hps
    obtain ⟨gs1, h1, hs1, ⟨hlast, s, hP, he, hr, ha, ht, hfo, hch⟩, hd, hde, hbr⟩ :=
      oneStep_simple (cfg := cfg) (mk := makeProof cfg (m + 1)) (n := n) (res := ps) (cs := cs) (.inr (.inl hb))
        ((hI.branch f).2 hf) hp (last_ok hc) (by
          intro h; cases rule <;> simp_all [Rule.isAlpha, Rule.isBeta])
    rw [hpf] at hfo
    have hnal : rule.isAlpha = false := by cases rule <;> simp_all [Rule.isAlpha, Rule.isBeta]
    rw [hnal] at hbr
    have hI1 : Inv gs1 Γ := hI.congr (by simpa using hbr) hd hde
    have hsle := spot_le hp
    have hplt := hP.len_lt
    obtain ⟨h2, ls, ts, hrun, hlen2, hfr, hat, hRL, htl, hV⟩ := childLoop_spec (cfg := cfg) (n := m) (node := n)
      (results := ps) hI1 (by intro e; subst e; simp at hf) hlast cs 0 h1 (by omega) hplt
      (fun j c G hj hG => hN m (by omega) j (List.getElem?_eq_some_iff.1 hj).1 G c (by simpa using hG) hj)
    have hsl : spot h parent < h1.length := hplt
    refine ⟨h2, .node rule f none ps ts, ?_, ?_, ?_, ?_, ?_, ?_⟩
    · simp only [run, steps, hs1, R.bind, List.getLast?_singleton, PS.node, hpf, PS.children]
      exact hrun
    · intro b hb' hbl
      rw [hfr b (by omega) (by omega)]
      exact hP.other b (by omega) (by omega) hbl
    · intro a haa
      have := last_ok hc a haa
      have hle := hP.len
      rw [hfr a (by omega) this.1]
      exact hP.link a haa this.1
    · have := hP.len; omega
    · refine ⟨Nat.le_refl _, { s with children := s.children ++ ls }, ?_, he, hr, ha, ht, hfo, ?_⟩
      · rw [hat, hP.here]; rfl
      · rw [hch]
        exact ReprL.mono (by omega) ts hRL
    · intro Γ' hΓ'
      have h1 : f ∈ Γ' := (hΓ' f).2 hf
      have h3 := hV Γ' hΓ'
      simp only [List.drop_zero] at h3
      have h4 : ts.length = ps.length := htl.trans hlen
      cases rule <;> simp_all [Rule.isAlpha, Rule.isBeta, valid]

/-- **C67 (partial).** From a closed tableau for `F` in which no Skolem symbol occurs in the branch
before it is introduced, and no variable of a Skolemised formula is absent from it, the translation
builds, without failure, a GS3 refutation of `F`. Missing: tableaux that use a Skolem symbol before its
introduction, which is where the translation reorders the steps (`C67_violated_weakening`). -/
theorem C67_ordered_partial (cfg : Cfg) (F : Form) (l : List PS) (hcl : Closed [F] l)
    (hfirst : l.head?.map PS.form = some F) :
    ∃ N, ∀ n, N ≤ n → ∃ a h T, makeGS3 cfg n l = .ok (a, h) ∧ Repr 0 h a T ∧ valid [F] T = true := by
  obtain ⟨N, hN⟩ := closed_does cfg hcl
  refine ⟨N + 1, fun n hn => ?_⟩
  obtain ⟨n, rfl⟩ : ∃ k, n = k + 1 := ⟨n - 1, by omega⟩
  obtain ⟨s, l, rfl⟩ := List.exists_cons_of_ne_nil hcl.ne_nil
  simp only [List.head?_cons, Option.map_some, Option.some.injEq] at hfirst
  have hemp : isEmptyAt [({} : Seq)] 0 = true := rfl
  obtain ⟨h2, T, hrun, _, _, _, hR, hV⟩ := hN n (by omega) 0 { branch := [F] } [({} : Seq)]
    ⟨fun _ => Iff.rfl, by simp, by simp⟩ (by simp) (.inl ⟨rfl, hemp, rfl⟩)
  refine ⟨0, h2, T, ?_, ?_, hV _ (fun _ => Iff.rfl)⟩
  · have := makeProof_run (cfg := cfg) (n := n) (gs := { branch := [F] }) (l := s :: l) (h := []) (by simp) (by simp)
    simp only [List.nil_append, List.length_nil, hrun, R.bind] at this
    rw [← this]
    unfold makeGS3
    simp only [makeProof, hfirst, List.isEmpty_nil, if_true, List.isEmpty_cons, Bool.false_eq_true, if_false]
  · exact Repr.mono (Nat.zero_le _) T hR

/-! ## Refutations are sound -/

theorem holds_append {D : Type u} {I : Interp D} {μ ρ : Nat → D} {Γ G : List Form}
    (h : ∀ f ∈ Γ, Form.holds I μ ρ f) (h' : ∀ f ∈ G, Form.holds I μ ρ f) :
    ∀ f ∈ Γ ++ G, Form.holds I μ ρ f := by
  intro f hf
  rcases List.mem_append.1 hf with hf | hf
  · exact h f hf
  · exact h' f hf

theorem alphaParts_sound {D : Type u} {I : Interp D} {μ ρ : Nat → D} {rule : Rule} {f : Form} {ps : List Form}
    (hp : alphaParts rule f = some ps) (h : Form.holds I μ ρ f) : ∀ g ∈ ps, Form.holds I μ ρ g := by
  unfold alphaParts at hp
  split at hp
  all_goals first
    | cases hp
    | skip
  all_goals simp_all

theorem betaParts_sound {D : Type u} {I : Interp D} {μ ρ : Nat → D} {rule : Rule} {f : Form} {ps : List (List Form)}
    (hp : betaParts rule f = some ps) (h : Form.holds I μ ρ f) : ∃ G ∈ ps, ∀ g ∈ G, Form.holds I μ ρ g := by
  unfold betaParts at hp
  split at hp
  · cases hp
    simp only [Form.holds_neg, Form.holds_and, Classical.not_forall] at h
    obtain ⟨g, hg, h⟩ := h
    exact ⟨[.neg g], List.mem_map.2 ⟨g, hg, rfl⟩, by simpa using h⟩
  · rename_i f g
    cases hp
    simp only [Form.holds_neg, Form.holds_equ] at h
    by_cases hf : Form.holds I μ ρ f
    · exact ⟨[f, .neg g], by simp, by simpa [hf] using h⟩
    · exact ⟨[.neg f, g], by simp, by simpa [hf] using h⟩
  · cases hp
    simp only [Form.holds_or] at h
    obtain ⟨g, hg, h⟩ := h
    exact ⟨[g], List.mem_map.2 ⟨g, hg, rfl⟩, by simpa using h⟩
  · rename_i f g
    cases hp
    simp only [Form.holds_imp] at h
    by_cases hf : Form.holds I μ ρ f
    · exact ⟨[g], by simp, by simpa using h hf⟩
    · exact ⟨[.neg f], by simp, by simpa using hf⟩
  · rename_i f g
    cases hp
    simp only [Form.holds_equ] at h
    by_cases hf : Form.holds I μ ρ f
    · exact ⟨[f, g], by simp, by simpa [hf] using h⟩
    · exact ⟨[.neg f, .neg g], by simp, by simpa [hf] using h⟩
  · cases hp

theorem quant_gamma {D : Type u} {I : Interp D} {μ ρ : Nat → D} {rule : Rule} {f b : Form} {x : Nat}
    (hq : quantParts rule f = some (x, b)) (hg : rule.isGamma = true) (h : Form.holds I μ ρ f) (d : D) :
    Form.holds I μ (upd ρ x d) b := by
  unfold quantParts at hq
  split at hq
  · rename_i v vs g
    cases hq
    rw [Form.holds_all] at h
    have := h d
    cases vs with
    | nil => exact this
    | cons w vs => rw [List.isEmpty_cons, if_neg (by simp), Form.holds_all]; exact this
  · rename_i v vs g
    cases hq
    rw [Form.holds_neg, Form.holds_ex] at h
    rw [Form.holds_neg]
    intro h'
    refine h ⟨d, ?_⟩
    cases vs with
    | nil => exact h'
    | cons w vs => rw [List.isEmpty_cons, if_neg (by simp), Form.holds_ex] at h'; exact h'
  · cases hg
  · cases hg
  · cases hq

theorem existsVars_neg {D : Type u} {P : (Nat → D) → Prop} {vs : List TVar} {ρ : Nat → D}
    (h : ¬ forallVars P vs ρ) : existsVars (fun ρ => ¬ P ρ) vs ρ := by
  induction vs generalizing ρ with
  | nil => exact h
  | cons v vs ih =>
    simp only [forallVars, Classical.not_forall] at h
    obtain ⟨d, hd⟩ := h
    exact ⟨d, ih hd⟩

theorem quant_delta {D : Type u} {I : Interp D} {μ ρ : Nat → D} {rule : Rule} {f b : Form} {x : Nat}
    (hq : quantParts rule f = some (x, b)) (hg : rule.isDelta = true) (h : Form.holds I μ ρ f) :
    ∃ d, Form.holds I μ (upd ρ x d) b := by
  unfold quantParts at hq
  split at hq
  · cases hg
  · cases hg
  · rename_i v vs g
    cases hq
    rw [Form.holds_ex] at h
    obtain ⟨d, h⟩ := h
    refine ⟨d, ?_⟩
    cases vs with
    | nil => exact h
    | cons w vs => rw [List.isEmpty_cons, if_neg (by simp), Form.holds_ex]; exact h
  · rename_i v vs g
    cases hq
    rw [Form.holds_neg, Form.holds_all] at h
    simp only [forallVars, Classical.not_forall] at h
    obtain ⟨d, h⟩ := h
    refine ⟨d, ?_⟩
    rw [Form.holds_neg]
    cases vs with
    | nil => exact h
    | cons w vs => rw [List.isEmpty_cons, if_neg (by simp), Form.holds_all]; exact h
  · cases hq

theorem quantParts_funs {rule : Rule} {f b : Form} {x : Nat} (hq : quantParts rule f = some (x, b)) :
    b.funs = f.funs := by
  obtain ⟨_, rfl, _⟩ := quantParts_spec hq
  exact funs_nextForm f

/-- The variables with values that matter for a formula are among those that occur in it. -/
theorem fvs_allVars {f : Form} {i : Nat} (h : i ∈ f.fvs) : i ∈ allVars f := by
  induction f using Form.ind with
  | pred p tys args => exact h
  | top => exact h
  | bot => exact h
  | neg f ih => exact ih h
  | and fs ih =>
    simp only [Form.fvs, Form.mem_fvsL] at h
    obtain ⟨f, hf, h⟩ := h
    simp only [allVars, mem_allVarsL]
    exact ⟨f, hf, ih f hf h⟩
  | or fs ih =>
    simp only [Form.fvs, Form.mem_fvsL] at h
    obtain ⟨f, hf, h⟩ := h
    simp only [allVars, mem_allVarsL]
    exact ⟨f, hf, ih f hf h⟩
  | imp f g ihf ihg =>
    simp only [Form.fvs, List.mem_append] at h
    simp only [allVars, List.mem_append]
    exact h.imp ihf ihg
  | equ f g ihf ihg =>
    simp only [Form.fvs, List.mem_append] at h
    simp only [allVars, List.mem_append]
    exact h.imp ihf ihg
  | all vs f ih =>
    simp only [Form.fvs, List.mem_filter] at h
    exact ih h.1
  | ex vs f ih =>
    simp only [Form.fvs, List.mem_filter] at h
    exact ih h.1

/-- The truth of an instance. -/
theorem instance_holds {D : Type u} {I : Interp D} {μ ρ : Nat → D} {x : Nat} {b g : Form} {t : Option Term}
    (hi : isInstance x b t g = true) {d : D} (hd : ∀ u, t = some u → Term.eval I ρ μ u = d)
    (h : Form.holds I μ (upd ρ x d) b) : Form.holds I μ ρ g := by
  unfold isInstance at hi
  simp only [Bool.and_eq_true, decide_eq_true_eq] at hi
  obtain ⟨⟨hx, hb⟩, hi⟩ := hi
  cases t with
  | none =>
    simp only [Bool.and_eq_true, decide_eq_true_eq] at hi
    obtain ⟨hv, rfl⟩ := hi
    refine (Form.holds_congr (fun i hi => ?_) (fun _ _ => rfl) (fun _ _ => rfl) rfl).1 h
    exact upd_other _ _ (fun e => hv (e ▸ fvs_allVars hi))
  | some u =>
    simp only [Bool.and_eq_true, decide_eq_true_eq, List.isEmpty_iff] at hi
    obtain ⟨hu, rfl⟩ := hi
    rw [holds_replaceTermByTerm hx hb (by rintro rfl; simp [Term.vars] at hu) (by simp [hu]), hd u rfl]
    exact h

mutual
/-- **C67, soundness.** If a tree of sequents is valid for the hypotheses, no interpretation makes all of
them true. -/
theorem C67_valid_sound : ∀ (T : Tree) {Γ : List Form}, valid Γ T = true →
    ∀ (D : Type u) (I : Interp D) (μ ρ : Nat → D), ¬ ∀ f ∈ Γ, Form.holds I μ ρ f
  | .hole cs, Γ, hv => by
    intro D I μ ρ h
    simp only [valid, Bool.and_eq_true, beq_iff_eq] at hv
    match cs, hv with
    | [c], hv =>
      simp only [List.map_cons, List.map_nil, validL, Bool.and_true] at hv
      exact C67_valid_sound c hv.2 D I μ ρ h
  | .node rule f t forms cs, Γ, hv => by
    intro D I μ ρ h
    simp only [valid, Bool.and_eq_true, decide_eq_true_eq] at hv
    obtain ⟨hf, hv⟩ := hv
    have hfh := h f hf
    split at hv
    · -- axiom
      simp only [closes, Bool.and_eq_true, Bool.or_eq_true, decide_eq_true_eq] at hv
      obtain ⟨⟨_, hv⟩, _⟩ := hv
      rcases hv with ((rfl | rfl) | hv) | hv
      · simp at hfh
      · simp at hfh
      · exact absurd hfh (by simpa using h _ hv)
      · cases f with
        | neg g =>
          simp only [decide_eq_true_eq] at hv
          simp only [Form.holds_neg] at hfh
          exact hfh (h g hv)
        | _ => simp at hv
    · -- weakening
      split at hv
      · simp only [Bool.and_eq_true, beq_iff_eq] at hv
        obtain ⟨hl, hv⟩ := hv
        exact validL_sound cs [Γ.erase f] hv (by simp [hl]) D I μ ρ
          ⟨_, List.mem_singleton.2 rfl, fun g hg => h g (List.mem_of_mem_erase hg)⟩
      · simp only [Bool.and_eq_true, beq_iff_eq] at hv
        obtain ⟨⟨_, hl⟩, hv⟩ := hv
        exact validL_sound cs [Γ] hv (by simp [hl]) D I μ ρ ⟨_, List.mem_singleton.2 rfl, h⟩
    · cases hv
    · split at hv
      · split at hv
        · rename_i ps gs hps
          simp only [Bool.and_eq_true, List.all_eq_true, decide_eq_true_eq, beq_iff_eq] at hv
          obtain ⟨⟨hg, hl⟩, hv⟩ := hv
          exact validL_sound cs _ hv (by simp [hl]) D I μ ρ
            ⟨_, List.mem_singleton.2 rfl, holds_append h (fun g hg' => alphaParts_sound hps hfh g (hg g hg'))⟩
        · cases hv
      · split at hv
        · split at hv
          · rename_i ps hps
            simp only [Bool.and_eq_true, decide_eq_true_eq, beq_iff_eq] at hv
            obtain ⟨⟨_, hl⟩, hv⟩ := hv
            obtain ⟨G, hG, hGh⟩ := betaParts_sound hps hfh
            exact validL_sound cs _ hv (by simp [hl]) D I μ ρ
              ⟨_, List.mem_map.2 ⟨G, hG, rfl⟩, holds_append h hGh⟩
          · cases hv
        · split at hv
          · rename_i x b g hq
            simp only [Bool.and_eq_true, beq_iff_eq] at hv
            obtain ⟨⟨⟨hi, hsk⟩, hl⟩, hv⟩ := hv
            rcases (quantParts_spec hq).2.2 with ⟨hg, _⟩ | ⟨hg, _⟩
            · cases ht : t with
              | none =>
                exact validL_sound cs _ hv (by simp [hl]) D I μ ρ ⟨_, List.mem_singleton.2 rfl, holds_append h (by
                  simp only [List.mem_singleton, forall_eq]
                  exact instance_holds (d := ρ 0) hi (by simp [ht]) (quant_gamma hq hg hfh _))⟩
              | some u =>
                exact validL_sound cs _ hv (by simp [hl]) D I μ ρ ⟨_, List.mem_singleton.2 rfl, holds_append h (by
                  simp only [List.mem_singleton, forall_eq]
                  exact instance_holds (d := Term.eval I ρ μ u) hi (by simp [ht]) (quant_gamma hq hg hfh _))⟩
            · obtain ⟨d, hd⟩ := quant_delta hq hg hfh
              simp only [hg, Bool.not_true, Bool.false_or] at hsk
              split at hsk
              · rename_i p tys args
                simp only [decide_eq_true_eq] at hsk
                let J : Interp D := { I with fn := fun q tys ds => if q = p then d else I.fn q tys ds }
                have hJ : ∀ k, p ∉ Form.funs k → ∀ ρ, Form.holds J μ ρ k ↔ Form.holds I μ ρ k := fun k hk ρ =>
                  Form.holds_congr (fun _ _ => rfl) (fun _ _ => rfl) (fun q hq => by
                    funext tys ds; exact if_neg (fun e : q = p => hk (e ▸ hq))) rfl
                have hΓ : ∀ k ∈ Γ, p ∉ Form.funs k := fun k hk hp => hsk (Form.mem_funsL.2 ⟨k, hk, hp⟩)
                refine validL_sound cs _ hv (by simp [hl]) D J μ ρ ⟨_, List.mem_singleton.2 rfl, holds_append
                  (fun k hk => (hJ k (hΓ k hk) ρ).2 (h k hk)) ?_⟩
                simp only [List.mem_singleton, forall_eq]
                refine instance_holds (d := d) hi (fun u hu => by cases hu; simp [Term.eval, J]) ?_
                exact (hJ b (by rw [quantParts_funs hq]; exact hΓ f hf) _).2 hd
              · cases hsk
              · exact validL_sound cs _ hv (by simp [hl]) D I μ ρ ⟨_, List.mem_singleton.2 rfl, holds_append h (by
                  simp only [List.mem_singleton, forall_eq]
                  exact instance_holds (d := d) hi (by simp) hd)⟩
          · cases hv
theorem validL_sound : ∀ (cs : List Tree) (Γs : List (List Form)), validL Γs cs = true → Γs.length = cs.length →
    ∀ (D : Type u) (I : Interp D) (μ ρ : Nat → D), ¬ ∃ Γ ∈ Γs, ∀ f ∈ Γ, Form.holds I μ ρ f
  | [], Γs, _, hl => by
    intro D I μ ρ ⟨Γ, hΓ, _⟩
    have : Γs = [] := List.length_eq_zero_iff.1 (by simpa using hl)
    subst this; cases hΓ
  | c :: cs, [], _, hl => by simp at hl
  | c :: cs, Γ :: Γs, hv, hl => by
    intro D I μ ρ ⟨Δ, hΔ, h⟩
    simp only [validL, Bool.and_eq_true] at hv
    rcases List.mem_cons.1 hΔ with rfl | hΔ
    · exact C67_valid_sound c hv.1 D I μ ρ h
    · exact validL_sound cs Γs hv.2 (by simpa using hl) D I μ ρ ⟨Δ, hΔ, h⟩
end

/-- **C67 (partial), in terms of the formula.** A tableau as in `C67_ordered_partial` gives a tree of
sequents that the soundness theorem applies to: the formula has no model. -/
theorem C67_ordered_unsat (F : Form) (l : List PS) (hcl : Closed [F] l)
    (hfirst : l.head?.map PS.form = some F) (D : Type u) (I : Interp D) (μ ρ : Nat → D) :
    ¬ Form.holds I μ ρ F := by
  obtain ⟨N, hN⟩ := C67_ordered_partial ⟨fun _ => false, false, 0⟩ F l hcl hfirst
  obtain ⟨a, h, T, _, _, hT⟩ := hN N (Nat.le_refl _)
  intro hF
  exact C67_valid_sound T hT D I μ ρ (by simpa using hF)

/-! ## A case

`∃x (p(x) ∧ (∀y ¬p(y) ∨ ⊥))`: a delta step, two alpha steps, a beta step, and a gamma step with the Skolem
term. -/

namespace Case
def v (i : Nat) : TVar := ⟨"x", i, .constr "$i" []⟩
def c : Term := .fn 100 [] []
def dis : Form := .or [.all [v 11] (.neg (.pred 1 [] [.var 11])), .bot]
def body (t : Term) : Form := .and [.pred 1 [] [t], dis]
def F : Form := .ex [v 10] (body (.var 10))
def proof : List PS := [
  .mk F 1 .ex [[body c]] [],
  .mk (body c) 2 .and [[.pred 1 [] [c], dis]] [],
  .mk dis 3 .or [[.all [v 11] (.neg (.pred 1 [] [.var 11]))], [.bot]] [
    [.mk (.all [v 11] (.neg (.pred 1 [] [.var 11]))) 4 .all [[.neg (.pred 1 [] [c])]] [],
     .mk (.neg (.pred 1 [] [c])) 5 .ax [] []],
    [.mk .bot 6 .ax [] []]]]
end Case

open Case in
/-- The proof meets the hypotheses of `C67_ordered_partial`. -/
example : Closed [Case.F] Case.proof ∧ Case.proof.head?.map PS.form = some Case.F := by
  refine ⟨?_, rfl⟩
  refine .delta (x := 10) (b := body (.var 10)) (sk := 100) (tys := []) (args := []) (rule := .ex)
    (by decide +kernel) rfl rfl (by decide +kernel) (by decide +kernel) (by decide +kernel) rfl
    (by decide +kernel) ?_
  refine .alpha (rule := .and) (ps := [.pred 1 [] [c], dis]) (by decide +kernel) rfl rfl (by simp) ?_
  refine .beta (rule := .or) (by decide +kernel) rfl rfl rfl ?_
  intro i G cs hG hcs
  match i, hG, hcs with
  | 0, hG, hcs =>
    simp only [List.map_cons, List.getElem?_cons_zero, Option.some.injEq] at hG hcs
    subst hG hcs
    refine .gamma (rule := .all) (x := 11) (b := .neg (.pred 1 [] [.var 11])) (t := c) (by decide +kernel) rfl rfl
      (by decide +kernel) (by decide +kernel) rfl ?_
    exact .ax (by decide +kernel)
  | 1, hG, hcs =>
    simp only [List.map_cons, List.map_nil, List.getElem?_cons_succ, List.getElem?_cons_zero, Option.some.injEq] at hG hcs
    subst hG hcs
    exact .ax (by decide +kernel)
  | i + 2, hG, hcs => simp at hG

/-- The model evaluated on the proof. -/
example : outputValid Case.F (makeGS3 ⟨fun p => decide (100 ≤ p), true, 0⟩ 10 Case.proof) = true := by
  decide +kernel

end Verif.Gs3
