import Verif.Search.MainLate
/-!
# C65: the verdict "closed" is right for formulas without disjunctions under a universal quantifier

The rounds of the main search on branches of such formulas: a model of the branch, for all values of the metavariables, is kept by
every rule, and a branch with a model is not closed.
-/

namespace Verif.Search.Main.Sound
open Verif.AST Verif.Search Verif.Unif Incr

variable {V : Bool → Nat → Prop} {ar : Nat → Nat} {eq : Nat}

section
variable {c : Nat}

/-! ### Dispatching -/

/-- The formulas of a state, without the new ones. -/
def kept (d : Data) : List Form :=
  fs d.atomic ++ fs d.alpha ++ fs d.beta ++ fs d.delta ++ fs d.gamma ++ fs (d.metaGen.map (·.1))

theorem mem_kept {d : Data} {g : Form} : g ∈ kept d ↔ g ∈ fs d.atomic ∨ g ∈ fs d.alpha ∨ g ∈ fs d.beta ∨ g ∈ fs d.delta ∨
    g ∈ fs d.gamma ∨ g ∈ fs (d.metaGen.map (·.1)) := by
  simp [kept, or_assoc]

/-- The formulas `add` have been put into the lists of their kinds. -/
structure Adds (d d' : Data) (add : List Form) : Prop where
  atomic : ∀ g, g ∈ fs d'.atomic ↔ g ∈ fs d.atomic ∨ (g ∈ add ∧ IsLiteral g)
  alpha : ∀ g, g ∈ fs d'.alpha ↔ g ∈ fs d.alpha ∨ (g ∈ add ∧ IsConjunctive g)
  beta : ∀ g, g ∈ fs d'.beta ↔ g ∈ fs d.beta ∨ (g ∈ add ∧ IsDisjunctive g)
  delta : ∀ g, g ∈ fs d'.delta ↔ g ∈ fs d.delta ∨ (g ∈ add ∧ IsExistential g)
  gamma : ∀ g, g ∈ fs d'.gamma ↔ g ∈ fs d.gamma ∨ (g ∈ add ∧ IsUniversal g)
  rest : d'.lf = d.lf ∧ d'.metaGen = d.metaGen ∧ d'.mm = d.mm ∧ d'.mc = d.mc ∧ d'.applied = d.applied ∧ d'.found = d.found

theorem Adds.refl (d : Data) : Adds d d [] := by
  constructor <;> simp

theorem Adds.trans {d d' d'' : Data} {a b : List Form} (h : Adds d d' a) (h' : Adds d' d'' b) : Adds d d'' (a ++ b) := by
  constructor
  · intro g; rw [h'.atomic, h.atomic]; simp only [List.mem_append]; tauto
  · intro g; rw [h'.alpha, h.alpha]; simp only [List.mem_append]; tauto
  · intro g; rw [h'.beta, h.beta]; simp only [List.mem_append]; tauto
  · intro g; rw [h'.delta, h.delta]; simp only [List.mem_append]; tauto
  · intro g; rw [h'.gamma, h.gamma]; simp only [List.mem_append]; tauto
  · have a := h.rest; have b := h'.rest
    simp only [b, a, and_self]

theorem Adds.one (d : Data) (f : FT) : Adds d (d.dispatch f) [f.form] := by
  obtain ⟨s1, s2, s3, s4, s5⟩ := showKind_spec f.form
  have yes : ∀ {P : Form → Prop} {l : List FT} {g : Form}, P f.form → (g ∈ fs (addFT l f) ↔ g ∈ fs l ∨ (g ∈ [f.form] ∧ P g)) := by
    intro P l g h
    rw [mem_fs_addFT, List.mem_singleton]
    constructor
    · rintro (h | rfl)
      · exact Or.inl h
      · exact Or.inr ⟨rfl, h⟩
    · rintro (h | ⟨h, -⟩)
      · exact Or.inl h
      · exact Or.inr h
  have no : ∀ {P : Form → Prop} {l : List FT} {g : Form}, ¬ P f.form → (g ∈ fs l ↔ g ∈ fs l ∨ (g ∈ [f.form] ∧ P g)) := by
    intro P l g h
    rw [List.mem_singleton]
    constructor
    · exact Or.inl
    · rintro (h' | ⟨rfl, h'⟩)
      · exact h'
      · exact absurd h' h
  unfold Data.dispatch
  cases hk : showKind f.form <;> simp only [hk, true_iff, false_iff, reduceCtorEq] at s1 s2 s3 s4 s5 <;>
    constructor <;> first | exact fun g => yes s1 | exact fun g => yes s2 | exact fun g => yes s3 | exact fun g => yes s4 |
      exact fun g => yes s5 | exact fun g => no s1 | exact fun g => no s2 | exact fun g => no s3 | exact fun g => no s4 |
      exact fun g => no s5 | simp

theorem Adds.foldl : ∀ (l : List FT) (d : Data), Adds d (l.foldl Data.dispatch d) (fs l)
  | [], d => Adds.refl d
  | f :: l, d => (Adds.one d f).trans (Adds.foldl l (d.dispatch f))

theorem Adds.congr {d d' : Data} {a b : List Form} (h : Adds d d' a) (e : ∀ g, g ∈ a ↔ g ∈ b) : Adds d d' b := by
  obtain ⟨h1, h2, h3, h4, h5, h6⟩ := h
  simp only [e] at h1 h2 h3 h4 h5
  exact ⟨h1, h2, h3, h4, h5, h6⟩

/-- The loop over the new formulas. -/
theorem dispatchLF_adds : ∀ (l : List FT) (d : Data) (new : List FT),
    (∃ a, Adds d (dispatchLF l d new).1 a ∧ ∀ g ∈ a, g ∈ fs l) ∧
    ((dispatchLF l d new).2.2 = true → ∃ g ∈ fs l, obvious g = true) ∧
    ((dispatchLF l d new).2.2 = false → ∃ a b, (dispatchLF l d new).2.1 = new ++ b ∧ Adds d (dispatchLF l d new).1 a ∧
      ∀ g, g ∈ fs l ↔ g ∈ a ∨ g ∈ fs b)
  | [], d, new => by
    simp only [dispatchLF]
    exact ⟨⟨[], Adds.refl d, by simp⟩, by simp, fun _ => ⟨[], [], by simp, Adds.refl d, by simp [fs]⟩⟩
  | f :: l, d, new => by
    simp only [dispatchLF]
    split
    · split
      · rename_i ho
        exact ⟨⟨[], Adds.refl d, by simp⟩, fun _ => ⟨f.form, by simp [fs], ho⟩, by simp⟩
      · obtain ⟨⟨a, h1, h2⟩, h3, h4⟩ := dispatchLF_adds l d (new ++ [f])
        refine ⟨⟨a, h1, fun g hg => ?_⟩, fun h => ?_, fun h => ?_⟩
        · have := h2 g hg; simp only [fs, List.map_cons, List.mem_cons] at this ⊢; exact Or.inr this
        · obtain ⟨g, hg, x⟩ := h3 h
          exact ⟨g, by simp only [fs, List.map_cons, List.mem_cons] at hg ⊢; exact Or.inr hg, x⟩
        · obtain ⟨a, b, e1, e2, e3⟩ := h4 h
          refine ⟨a, f :: b, by rw [e1]; simp, e2, fun g => ?_⟩
          have := e3 g
          simp only [fs, List.map_cons, List.mem_cons] at this ⊢
          rw [this]; tauto
    · obtain ⟨⟨a, h1, h2⟩, h3, h4⟩ := dispatchLF_adds l (d.dispatch f) new
      refine ⟨⟨[f.form] ++ a, (Adds.one d f).trans h1, fun g hg => ?_⟩, fun h => ?_, fun h => ?_⟩
      · simp only [List.cons_append, List.nil_append, List.mem_cons] at hg
        simp only [fs, List.map_cons, List.mem_cons]
        exact hg.imp id (h2 g)
      · obtain ⟨g, hg, x⟩ := h3 h
        exact ⟨g, by simp only [fs, List.map_cons, List.mem_cons] at hg ⊢; exact Or.inr hg, x⟩
      · obtain ⟨a, b, e1, e2, e3⟩ := h4 h
        refine ⟨[f.form] ++ a, b, e1, (Adds.one d f).trans e2, fun g => ?_⟩
        have := e3 g
        simp only [fs, List.map_cons, List.mem_cons, List.cons_append, List.nil_append] at this ⊢
        rw [this]; tauto

/-! ### Closing without metavariables of the father -/

theorem clean_empty {n : Nat} {s r : Subst} (h : Clean.clean n s [] = .ok r) : r = [] := by
  have hf : ∀ l : Subst, l.foldl Clean.step { rel := [], changed := false } = { rel := [], changed := false } := by
    intro l
    induction l with
    | nil => rfl
    | cons p l ih =>
      rw [List.foldl_cons]
      have : Clean.step { rel := [], changed := false } p = { rel := [], changed := false } := by
        unfold Clean.step
        split <;> simp
      rw [this, ih]
  cases n with
  | zero => simp [Clean.clean, Clean.rounds, Res.bind] at h
  | succ k =>
    simp only [Clean.clean, Clean.rounds, hf, Bool.false_eq_true, if_false, Res.bind] at h
    have e : Clean.reorganize [] = [] := rfl
    simp only [e, elimBoth_ground (ar := fun _ => 0) k Subst.Gd.nil, merge, Clean.failPanic] at h
    simpa using h.symm

theorem dispatch_without {n : Nat} : ∀ {substs : List Subst} {o o' : Clean.Sorted}, Clean.dispatch n [] substs o = .ok o' →
    substs ≠ [] ∨ o.withoutMM ≠ [] → o'.withoutMM ≠ []
  | [], o, o', h, hn => by
    simp only [Clean.dispatch, Res.ok.injEq] at h
    subst h
    exact hn.resolve_left (by simp)
  | s :: rest, o, o', h, hn => by
    simp only [Clean.dispatch] at h
    cases hc : Clean.clean n s [] with
    | ok r =>
      obtain rfl := clean_empty hc
      rw [hc] at h
      simp only [Res.bind] at h
      refine dispatch_without h (Or.inr ?_)
      simp only [Clean.sortOne, List.isEmpty_nil, if_true, Clean.addNew]
      split
      · rename_i hm; exact List.ne_nil_of_mem hm
      · simp
    | _ => rw [hc] at h; simp [Res.bind] at h

theorem close_tidy {e : Env} {d : Data} (hm : d.mm = []) (ha : d.applied = []) {substs : List Subst} {o : Out} (h : close e d substs = some o) :
    o = .answer true false { d with found := [[]] } := by
  have e0 : uni d.mm (substMetas d.applied) = [] := by rw [hm, ha]; rfl
  unfold close at h
  rw [e0] at h
  split at h
  · rename_i o' hd
    by_cases hs : substs = []
    · rw [if_pos (Or.inl hs), ha] at h; rw [ha]; exact (Option.some.inj h).symm
    · rw [if_pos (Or.inr (dispatch_without hd (Or.inl hs))), ha] at h; rw [ha]; exact (Option.some.inj h).symm
  · cases h

theorem closeFirst_mem {e : Env} {time : Nat} {pos neg : List Atom} {d : Data} {o : Out} : ∀ {l : List FT},
    closeFirst e time pos neg d l = some (some o) → ∃ f ∈ fs l, ∃ substs, closure e time pos neg f = some (some substs) ∧ close e d substs = some o
  | [], h => by simp [closeFirst] at h
  | f :: l, h => by
    simp only [closeFirst] at h
    split at h
    · cases h
    · rename_i substs hc
      obtain ⟨x, hx, e1⟩ := Option.map_eq_some_iff.1 h
      cases e1
      exact ⟨f.form, by simp [fs], substs, hc, hx⟩
    · obtain ⟨g, hg, r⟩ := closeFirst_mem h
      exact ⟨g, by simp only [fs, List.map_cons, List.mem_cons] at hg ⊢; exact Or.inr hg, r⟩

/-! ### Branches -/

/-- A formula of such a branch: with metavariables of the branch and without disjunctions, or as at the beginning. -/
structure Fine (V : Bool → Nat → Prop) (eq c : Nat) (ar : Nat → Nat) (mc : List Nat) (F : Form) : Prop where
  wf : WF F c
  sig : Sig (fun i => i ∈ mc) ar eq c F
  cl : NoSplit V true F ∨ Late V true F ∧ Sig (fun _ => False) ar eq c F

theorem Fine.mono {mc mc' : List Nat} {F : Form} (h : Fine V eq c ar mc F) {ar' : Nat → Nat} (ha : ∀ p, p < c → ar' p = ar p)
    (hm : ∀ i ∈ mc, i ∈ mc') : Fine V eq (c + 1) ar' mc' F :=
  ⟨h.wf.mono (Nat.le_succ c), h.sig.mono hm (Nat.le_succ c) ha, h.cl.imp id fun x => ⟨x.1, x.2.mono (fun _ h => h) (Nat.le_succ c) ha⟩⟩

theorem Fine.alpha {mc : List Nat} {F : Form} (h : Fine V eq c ar mc F) : ∀ g ∈ applyAlpha F, Fine V eq c ar mc g := fun g hg =>
  ⟨WF.alpha h.wf g hg, h.sig.alpha g hg, h.cl.imp (fun x => x.alpha g hg) fun x => ⟨x.1.alpha g hg, x.2.alpha g hg⟩⟩

/-- A branch of such a formula at time `t`. -/
structure Branch (V : Bool → Nat → Prop) (eq : Nat) (b : Start) (t : Nat) (ar : Nat → Nat) (d : Data) : Prop where
  kept : ∀ F ∈ kept d, Fine V eq (b.sk + t) ar d.mc F
  lf : ∀ F ∈ fs d.lf, Fine V eq (b.sk + t) ar d.mc F
  atomic : ∀ f ∈ fs d.atomic, IsLiteral f
  alpha : ∀ f ∈ fs d.alpha, IsConjunctive f
  beta : ∀ f ∈ fs d.beta, IsDisjunctive f
  delta : ∀ f ∈ fs d.delta, IsExistential f
  gamma : ∀ f ∈ fs d.gamma, IsUniversal f
  gen : ∀ f ∈ fs (d.metaGen.map (·.1)), IsUniversal f
  split : d.mc = [] ∨ ∀ f, f ∈ fs d.lf ∨ f ∈ fs d.alpha ∨ f ∈ fs d.beta ∨ f ∈ fs d.delta → NoSplit V true f
  metas : ∀ i ∈ d.mc, i < b.m + t
  mm : d.mm = []
  applied : d.applied = []
  found : d.found = []

/-- Branches at time `t`; the arities of the Skolem symbols become known during the search. -/
def Br (V : Bool → Nat → Prop) (eq : Nat) (b : Start) (t : Nat) (d : Data) : Prop := ∃ ar, Branch V eq b t ar d

/-- The branch has a model: a non-empty interpretation in which its formulas hold for all values of the metavariables. -/
def Modelled.{u} (d : Data) : Prop := ∃ (D : Type u) (I : Interp D) (_ : D), ∀ F, F ∈ kept d ∨ F ∈ fs d.lf → ∀ μ ρ : Nat → D, Form.holds I μ ρ F

/-- The index answers rightly if of two opposite literals with the same predicate one is outside of `V`, hence without metavariables. -/
def Usable (V : Bool → Nat → Prop) (U : Oracle) : Prop := ∀ (time : Nat) (st : List Atom) (q : Atom) (l : List Subst) (ar : Nat → Nat) (s : Bool),
  U time st q = some l → l ≠ [] → (∀ f ∈ st, f.term.Ar ar ∧ (f.term.occ = [] ∨ V s f.p)) → q.term.Ar ar ∧ (q.term.occ = [] ∨ V (!s) q.p) →
  ∃ f ∈ st, ∃ σ : Nat → UT, f.term.inst σ = q.term.inst σ

theorem Fine.pos {mc : List Nat} {p : Nat} {tys : List Ty} {args : List Term} (h : Fine V eq c ar mc (.pred p tys args)) :
    tys = [] ∧ p ≠ eq ∧ TSigL (fun i => i ∈ mc) ar c args ∧ (∀ i, i ∉ Term.varsL args) ∧ (Atom.term ⟨p, utOfL args⟩).Ar ar ∧
      ((Atom.term ⟨p, utOfL args⟩).occ = [] ∨ V true p) := by
  have hs := h.sig
  simp only [Sig] at hs
  have hv : ∀ i, i ∉ Term.varsL args := by simpa [Form.fvs] using h.wf.closed
  obtain ⟨a1, a2, a3⟩ := hs.2.2.2.2.ut hv
  refine ⟨hs.2.2.1, hs.2.1, hs.2.2.2.2, hv, ⟨by rw [a3]; exact hs.2.2.2.1, a1⟩, ?_⟩
  rcases h.cl with x | ⟨-, x⟩
  · exact Or.inr x
  · left
    simp only [Sig] at x
    simp only [Atom.term, UT.occ, a2]
    exact List.eq_nil_iff_forall_not_mem.2 fun i hi => x.2.2.2.2.metas i hi

theorem Fine.neg {mc : List Nat} {p : Nat} {tys : List Ty} {args : List Term} (h : Fine V eq c ar mc (.neg (.pred p tys args))) :
    tys = [] ∧ p ≠ eq ∧ TSigL (fun i => i ∈ mc) ar c args ∧ (∀ i, i ∉ Term.varsL args) ∧ (Atom.term ⟨p, utOfL args⟩).Ar ar ∧
      ((Atom.term ⟨p, utOfL args⟩).occ = [] ∨ V false p) := by
  have hs := h.sig
  simp only [Sig] at hs
  have hv : ∀ i, i ∉ Term.varsL args := by simpa [Form.fvs] using h.wf.closed
  obtain ⟨a1, a2, a3⟩ := hs.2.2.2.2.ut hv
  refine ⟨hs.2.2.1, hs.2.1, hs.2.2.2.2, hv, ⟨by rw [a3]; exact hs.2.2.2.1, a1⟩, ?_⟩
  rcases h.cl with x | ⟨-, x⟩
  · exact Or.inr (by simpa [NoSplit] using x)
  · left
    simp only [Sig] at x
    simp only [Atom.term, UT.occ, a2]
    exact List.eq_nil_iff_forall_not_mem.2 fun i hi => x.2.2.2.2.metas i hi

/-- The closure rule finds no substitution for literals that all hold in an interpretation. -/
theorem no_closure.{u} {e : Env} (hU : Usable V e.U) {mc : List Nat} {L pl ng : List FT} {D : Type u} {I : Interp D} (d0 : D)
    (hL : ∀ F ∈ fs L ++ (fs pl ++ fs ng), Fine V e.eq c ar mc F ∧ ∀ μ ρ : Nat → D, Form.holds I μ ρ F) {time : Nat} {F : Form} (hF : F ∈ fs L)
    {substs : List Subst} (h : closure e time (posAtoms pl) (negAtoms ng) F = some (some substs)) : False := by
  obtain ⟨hFf, hFh⟩ := hL F (by simp [hF])
  unfold closure at h
  split at h
  · rename_i ho
    unfold obvious at ho
    split at ho
    · have := hFh (fun _ => d0) (fun _ => d0)
      simp [Form.holds] at this
    · have := hFh (fun _ => d0) (fun _ => d0)
      simp [Form.holds] at this
    · cases ho
  · have hi : inequality e F = some none := by
      unfold inequality
      split
      · rw [if_neg hFf.neg.2.1]
      · rfl
    rw [hi] at h
    split at h
    · rename_i i l e1 hc
      cases e1
      have hl : l ≠ [] := by
        rintro rfl
        simp at h
      unfold contrary at hc
      split at hc
      · rename_i p tys args hno
        obtain ⟨rfl, -, a3, a4, a5⟩ := hFf.pos
        obtain ⟨f, hf, σ, hσ⟩ := hU time _ _ l ar false hc hl (by
          intro f hf
          obtain ⟨p', tys', args', hm, rfl⟩ := mem_negAtoms.1 hf
          exact (hL _ (List.mem_append_right _ (List.mem_append_right _ hm))).1.neg.2.2.2.2) a5
        obtain ⟨p', tys', args', hm, rfl⟩ := mem_negAtoms.1 hf
        obtain ⟨h1, h2⟩ := hL _ (List.mem_append_right _ (List.mem_append_right _ hm))
        obtain ⟨rfl, -, b3, b4, b5⟩ := h1.neg
        exact clash d0 a3 b3 a4 b4 hσ.symm hFh fun μ ρ => by simpa [Form.holds] using h2 μ ρ
      · rename_i p tys args hno
        obtain ⟨rfl, -, a3, a4, a5⟩ := hFf.neg
        obtain ⟨f, hf, σ, hσ⟩ := hU time _ _ l ar true hc hl (by
          intro f hf
          obtain ⟨p', tys', args', hm, rfl⟩ := mem_posAtoms.1 hf
          exact (hL _ (List.mem_append_right _ (List.mem_append_left _ hm))).1.pos.2.2.2.2) a5
        obtain ⟨p', tys', args', hm, rfl⟩ := mem_posAtoms.1 hf
        obtain ⟨h1, h2⟩ := hL _ (List.mem_append_right _ (List.mem_append_left _ hm))
        obtain ⟨rfl, -, b3, b4, b5⟩ := h1.pos
        exact clash d0 b3 a3 b4 a4 hσ h2 fun μ ρ => by simpa [Form.holds] using hFh μ ρ
      · exact hl (Option.some.inj hc).symm
    · cases h

/-! ### Rules -/

/-- What is asked of the arguments of Skolem terms: they are metavariables of the branch or of the formula, and those of the formula
are among them. -/
def SkoArgs (e : Env) : Prop := ∀ (l : List Nat) (F : Form), (∀ i ∈ F.metas, i ∈ l) → (∀ i ∈ F.metas, i ∈ e.sko l F) ∧ ∀ i ∈ e.sko l F, i ∈ l

/-- The branch after a rule: fewer formulas to treat, new ones in `lf`. -/
theorem Branch.next {b : Start} {t : Nat} {d d' : Data} (h : Branch V eq b t ar { d with lf := [] }) {ar' : Nat → Nat}
    (ha : ∀ p, p < b.sk + t → ar' p = ar p) (hmc : ∀ i ∈ d.mc, i ∈ d'.mc) (hlf : ∀ F ∈ fs d'.lf, Fine V eq (b.sk + (t + 1)) ar' d'.mc F)
    (h1 : ∀ F ∈ fs d'.atomic, F ∈ fs d.atomic) (h2 : ∀ F ∈ fs d'.alpha, F ∈ fs d.alpha) (h3 : ∀ F ∈ fs d'.beta, F ∈ fs d.beta)
    (h4 : ∀ F ∈ fs d'.delta, F ∈ fs d.delta) (h5 : ∀ F ∈ fs d'.gamma, F ∈ fs d.gamma)
    (h6 : ∀ F ∈ fs (d'.metaGen.map (·.1)), F ∈ fs (d.metaGen.map (·.1)) ∨ F ∈ fs d.gamma)
    (hs : d'.mc = [] ∨ ∀ f, f ∈ fs d'.lf ∨ f ∈ fs d'.alpha ∨ f ∈ fs d'.beta ∨ f ∈ fs d'.delta → NoSplit V true f)
    (hm : ∀ i ∈ d'.mc, i < b.m + (t + 1)) (hr : d'.mm = [] ∧ d'.applied = [] ∧ d'.found = []) :
    Branch V eq b (t + 1) ar' d' ∧ ∀ F ∈ Sound.kept d', F ∈ Sound.kept d := by
  have hk : ∀ F ∈ Sound.kept d', F ∈ Sound.kept d := by
    intro F hF
    rw [mem_kept] at hF ⊢
    rcases hF with x | x | x | x | x | x
    · exact Or.inl (h1 F x)
    · exact Or.inr (Or.inl (h2 F x))
    · exact Or.inr (Or.inr (Or.inl (h3 F x)))
    · exact Or.inr (Or.inr (Or.inr (Or.inl (h4 F x))))
    · exact Or.inr (Or.inr (Or.inr (Or.inr (Or.inl (h5 F x)))))
    · rcases h6 F x with y | y
      · exact Or.inr (Or.inr (Or.inr (Or.inr (Or.inr y))))
      · exact Or.inr (Or.inr (Or.inr (Or.inr (Or.inl y))))
  refine ⟨⟨fun F hF => (h.kept F (hk F hF)).mono ha hmc, hlf, fun F x => h.atomic F (h1 F x), fun F x => h.alpha F (h2 F x),
    fun F x => h.beta F (h3 F x), fun F x => h.delta F (h4 F x), fun F x => h.gamma F (h5 F x), fun F x => ?_, hs, hm, hr.1, hr.2.1, hr.2.2⟩, hk⟩
  exact (h6 F x).elim (h.gen F) (h.gamma F)

theorem mem_genIndex {f : FT} {l : List (FT × Nat)} {F : Form} (h : F ∈ fs ((genIndex f l).2.map (·.1))) : F ∈ fs (l.map (·.1)) ∨ F = f.form := by
  unfold genIndex at h
  split at h
  · exact Or.inl h
  · simpa [fs] using h

theorem uni_nil {l : List Nat} : uni [] l = l := by simp [uni]

theorem mem_uni {l l' : List Nat} {i : Nat} : i ∈ uni l l' ↔ i ∈ l ∨ i ∈ l' := by
  simp only [uni, List.mem_append, List.mem_filter, decide_eq_true_eq]; tauto

theorem firstIsTerm_parts {f bd : Form} {v : TVar} (hp : gammaParts f = some (v, bd)) (hv : isTType v.ty = false) : firstIsTerm f = true := by
  unfold gammaParts at hp
  split at hp <;> cases hp <;> simp [firstIsTerm, hv]

theorem rules_ok.{u} {e : Env} {b : Start} {t : Nat} (hsko : SkoArgs e) {d : Data} (h : Branch V e.eq b t ar { d with lf := [] }) {o : Out}
    (hr : rules e (b.now t) d = some o) : RoundOk (Br V e.eq b) Modelled.{u} (t + 1) { d with lf := [] } o := by
  have hw : (b.now t).sk = b.sk + t := rfl
  have hwm : (b.now t).m = b.m + t := rfl
  have hkept : ∀ F ∈ kept d, Fine V e.eq (b.sk + t) ar d.mc F := h.kept
  have nosplit : ∀ {F : Form}, F ∈ fs d.alpha ∨ F ∈ fs d.beta ∨ F ∈ fs d.delta → d.mc = [] ∨ NoSplit V true F := fun hF =>
    h.split.imp id fun x => x _ (Or.inr hF)
  have univ : ∀ {F : Form}, F ∈ fs d.gamma ∨ F ∈ fs (d.metaGen.map (·.1)) → NoSplit V true F ∧ IsUniversal F := by
    intro F hF
    have hu : IsUniversal F := hF.elim (h.gamma F) (h.gen F)
    refine ⟨?_, hu⟩
    rcases (hkept F (mem_kept.2 (Or.inr (Or.inr (Or.inr (Or.inr hF)))))).cl with x | x
    · exact x
    · exact x.1.universal hu
  have hmm : d.mm = [] := h.mm
  have same : ∀ p, p < b.sk + t → ar p = ar p := fun _ _ => rfl
  have lt1 : ∀ i ∈ d.mc, i < b.m + (t + 1) := fun i hi => Nat.lt_of_lt_of_le (h.metas i hi) (by omega)
  have rest : d.mm = [] ∧ d.applied = [] ∧ d.found = [] := ⟨h.mm, h.applied, h.found⟩
  unfold rules at hr
  split at hr
  · -- alpha
    rename_i x tl ha
    cases hr
    have hx : x.form ∈ fs d.alpha := by simp [fs, ha]
    have htl : ∀ F ∈ fs tl, F ∈ fs d.alpha := by intro F hF; simp only [fs, ha, List.map_cons, List.mem_cons] at hF ⊢; exact Or.inr hF
    have hfx := hkept _ (mem_kept.2 (Or.inr (Or.inl hx)))
    have hlf : fs ((applyAlpha x.form).map fun f => (⟨f, x.terms⟩ : FT)) = applyAlpha x.form := by simp [fs, Function.comp_def]
    obtain ⟨B, hk⟩ := h.next (d' := { d with alpha := tl, lf := (applyAlpha x.form).map fun f => ⟨f, x.terms⟩ }) same (fun _ h => h)
      (by simp only [hlf]; exact fun F hF => (hfx.alpha F hF).mono same fun _ h => h) (fun _ h => h) htl (fun _ h => h)
      (fun _ h => h) (fun _ h => h) (fun _ h => Or.inl h) (by
        rcases h.split with y | y
        · exact Or.inl y
        · refine Or.inr fun F hF => ?_
          simp only [hlf] at hF
          rcases hF with z | z | z | z
          · exact (y _ (Or.inr (Or.inl hx))).alpha F z
          · exact y F (Or.inr (Or.inl (htl F z)))
          · exact y F (Or.inr (Or.inr (Or.inl z)))
          · exact y F (Or.inr (Or.inr (Or.inr z)))) lt1 rest
    refine ⟨⟨ar, B⟩, fun ⟨D, I, d0, hI⟩ => ⟨D, I, d0, fun F hF μ ρ => ?_⟩⟩
    rcases hF with hF | hF
    · exact hI F (Or.inl (hk F hF)) μ ρ
    · simp only [hlf] at hF
      exact (C19_alpha I μ ρ x.form (h.alpha _ hx)).1 (hI _ (Or.inl (mem_kept.2 (Or.inr (Or.inl hx)))) μ ρ) F hF
  · -- delta
    rename_i x tl ha hd
    obtain ⟨g, hg, rfl⟩ := Option.map_eq_some_iff.1 hr
    rw [hmm, uni_nil] at hg
    have hx : x.form ∈ fs d.delta := by simp [fs, hd]
    have htl : ∀ F ∈ fs tl, F ∈ fs d.delta := by intro F hF; simp only [fs, hd, List.map_cons, List.mem_cons] at hF ⊢; exact Or.inr hF
    have hxk : x.form ∈ kept d := mem_kept.2 (Or.inr (Or.inr (Or.inr (Or.inl hx))))
    have hfx := hkept _ hxk
    have hex := h.delta _ hx
    obtain ⟨s1, s2⟩ := hsko d.mc x.form hfx.sig.metas
    obtain ⟨v, bd, hp⟩ := deltaParts_isSome hfx.wf hex
    obtain ⟨w, -⟩ := deltaParts_wf hp hfx.wf
    have hnew : b.sk + t ∉ x.form.funs := fun hh => Nat.lt_irrefl _ (hfx.wf.funs _ hh)
    obtain ⟨g', hg', hJ⟩ := C22_delta_partial.{u} x.form (b.sk + t) (b.sk + t) (e.sko d.mc x.form) hfx.wf hex hnew s1
    rw [hw, hg'] at hg
    cases hg
    rw [skolemize_parts hp] at hg'
    have hg' := Option.some.inj hg'
    let ar' : Nat → Nat := fun p => if p = b.sk + t then (e.sko d.mc x.form).length else ar p
    have hagree : ∀ p, p < b.sk + t → ar' p = ar p := fun p hp => if_neg (Nat.ne_of_lt hp)
    have hmvs : ∀ {M : Nat → Prop} (l : List Nat), (∀ i ∈ l, M i) → TSigL M ar' (b.sk + t + 1) (l.map .mv) := by
      intro M l
      induction l with
      | nil => intro _; simp [TSigL]
      | cons i l ih =>
        intro hl
        simp only [List.map_cons, TSigL, TSig]
        exact ⟨hl i (by simp), ih fun j hj => hl j (by simp [hj])⟩
    have hu : ∀ {M : Nat → Prop}, (∀ i ∈ e.sko d.mc x.form, M i) → TSig M ar' (b.sk + t + 1) (.fn (b.sk + t) [] ((e.sko d.mc x.form).map .mv)) := by
      intro M hM
      simp only [TSig]
      exact ⟨Nat.lt_succ_self _, trivial, by simp [ar'], hmvs _ hM⟩
    have hgN : NoSplit V true x.form → NoSplit V true g := fun hn => by rw [← hg']; exact (deltaParts_noSplit hp hn).repl
    have hfg : Fine V e.eq (b.sk + (t + 1)) ar' d.mc g := by
      have hc1 : b.sk + t ≤ b.sk + t + 1 := Nat.le_succ _
      refine ⟨?_, ?_, ?_⟩
      · rw [← hg']
        exact w.replace hc1 (by
          have : ∀ l : List Nat, Term.varsL (l.map Term.mv) = [] := by
            intro l; induction l with
            | nil => simp [Term.varsL]
            | cons i l ih => simp [Term.varsL, Term.vars, ih]
          simp [Term.vars, this]) (by
          have : ∀ l : List Nat, Term.funsL (l.map Term.mv) = [] := by
            intro l; induction l with
            | nil => simp [Term.funsL]
            | cons i l ih => simp [Term.funsL, Term.funs, ih]
          simp [Term.funs, this])
      · rw [← hg']
        exact (deltaParts_sig hp (hfx.sig.mono (fun _ h => h) hc1 hagree)).repl (hu s2)
      · rcases hfx.cl with y | ⟨y1, y2⟩
        · exact Or.inl (hgN y)
        · rcases h.split with z | z
          · right
            rw [← hg']
            refine ⟨(deltaParts_late hp y1).repl, (deltaParts_sig hp (y2.mono (fun _ h => h) hc1 hagree)).repl (hu fun i hi => ?_)⟩
            have := s2 i hi
            rw [show d.mc = [] from z] at this
            cases this
          · exact Or.inl (hgN (z _ (Or.inr (Or.inr (Or.inr hx)))))
    have hlf : fs [(⟨g, (uni d.mm d.mc).map .mv⟩ : FT)] = [g] := rfl
    obtain ⟨B, hk⟩ := h.next (d' := { d with delta := tl, lf := [⟨g, (uni d.mm d.mc).map .mv⟩] }) hagree (fun _ h => h)
      (by simp only [hlf, List.mem_singleton]; rintro F rfl; exact hfg) (fun _ h => h) (fun _ h => h) (fun _ h => h)
      htl (fun _ h => h) (fun _ h => Or.inl h) (by
        rcases h.split with y | y
        · exact Or.inl y
        · refine Or.inr fun F hF => ?_
          simp only [hlf, List.mem_singleton] at hF
          rcases hF with rfl | z | z | z
          · exact hgN (y _ (Or.inr (Or.inr (Or.inr hx))))
          · exact y F (Or.inr (Or.inl z))
          · exact y F (Or.inr (Or.inr (Or.inl z)))
          · exact y F (Or.inr (Or.inr (Or.inr (htl F z))))) lt1 rest
    refine ⟨⟨ar', B⟩, fun ⟨D, I, d0, hI⟩ => ?_⟩
    obtain ⟨J, j1, j2, j3⟩ := hJ D I
    refine ⟨D, J, d0, fun F hF μ ρ => ?_⟩
    rcases hF with hF | hF
    · have hFk := hk F hF
      exact (Form.holds_congr (fun _ _ => rfl) (fun _ _ => rfl)
        (fun p hp' => (j2 p fun e1 => Nat.lt_irrefl _ ((hkept F hFk).wf.funs _ (e1 ▸ hp'))).symm) j1.symm).1 (hI F (Or.inl hFk) μ ρ)
    · simp only [hlf, List.mem_singleton] at hF
      subst hF
      exact j3 μ ρ (hI _ (Or.inl hxk) μ ρ)
  · -- beta
    rename_i x tl ha hd hb
    cases hr
    have hx : x.form ∈ fs d.beta := by simp [fs, hb]
    have htl : ∀ F ∈ fs tl, F ∈ fs d.beta := by intro F hF; simp only [fs, hb, List.map_cons, List.mem_cons] at hF ⊢; exact Or.inr hF
    have hxk : x.form ∈ kept d := mem_kept.2 (Or.inr (Or.inr (Or.inl hx)))
    have hfx := hkept _ hxk
    have hdis := h.beta _ hx
    have hmc : d.mc = [] := (nosplit (Or.inr (Or.inl hx))).resolve_right fun y => y.not_disjunctive hdis
    obtain ⟨hl, hs⟩ := hfx.cl.resolve_left fun y => y.not_disjunctive hdis
    have hcopy : uni d.mm d.mc = [] := by rw [hmm, hmc]; rfl
    have kid : ∀ l ∈ applyBeta x.form, (Branch V e.eq b (t + 1) ar { d.copy with beta := tl, lf := l.map fun f => (⟨f, x.terms⟩ : FT) }) ∧
        ∀ F ∈ kept { d.copy with beta := tl, lf := l.map fun f => (⟨f, x.terms⟩ : FT) }, F ∈ kept d := by
      intro l hll
      have hlf : fs (l.map fun f => (⟨f, x.terms⟩ : FT)) = l := by simp [fs, Function.comp_def]
      refine h.next same ?_ ?_ (fun _ h => h) (fun _ h => h) htl (fun _ h => h) (fun _ h => h) (fun _ h => Or.inl h) (Or.inl rfl) (by simp [Data.copy]) ⟨hcopy, rfl, rfl⟩
      · rw [hmc]; simp
      · simp only [hlf]
        intro F hF
        have hsF := hs.beta l hll F hF
        exact Fine.mono (mc := []) ⟨WF.beta hfx.wf l hll F hF, hsF.mono (fun _ h => h.elim) (Nat.le_refl _) same, Or.inr ⟨hl.beta l hll F hF, hsF⟩⟩ same fun _ h => h
    refine ⟨⟨hmm, h.applied, by rw [show d.found = [] from h.found]; rfl⟩, ?_, ?_⟩
    · intro k hk
      obtain ⟨l, hl, rfl⟩ := List.mem_map.1 hk
      exact ⟨ar, (kid l hl).1⟩
    · rintro ⟨D, I, d0, hI⟩
      obtain ⟨l, hll, hh⟩ := (C20_beta I (fun _ => d0) (fun _ => d0) x.form hdis).1 (hI _ (Or.inl hxk) _ _)
      refine ⟨_, List.mem_map.2 ⟨l, hll, rfl⟩, D, I, d0, fun F hF μ ρ => ?_⟩
      rcases hF with hF | hF
      · exact hI F (Or.inl ((kid l hll).2 F hF)) μ ρ
      · have hF : F ∈ l := by simpa [fs, Function.comp_def] using hF
        refine (Form.holds_congr (fun i hi => absurd hi ((WF.beta hfx.wf l hll F hF).closed i)) (fun i hi => ?_) (fun _ _ => rfl) rfl).1 (hh F hF)
        exact ((hs.beta l hll F hF).metas i hi).elim
  · -- gamma
    rename_i x tl ha hd hb hgm
    obtain ⟨g, hg, rfl⟩ := Option.map_eq_some_iff.1 hr
    have hx : x.form ∈ fs d.gamma := by simp [fs, hgm]
    have htl : ∀ F ∈ fs tl, F ∈ fs d.gamma := by intro F hF; simp only [fs, hgm, List.map_cons, List.mem_cons] at hF ⊢; exact Or.inr hF
    have hxk : x.form ∈ kept d := mem_kept.2 (Or.inr (Or.inr (Or.inr (Or.inr (Or.inl hx)))))
    have hfx := hkept _ hxk
    obtain ⟨hns, hun⟩ := univ (Or.inl hx)
    obtain ⟨v, bd, hp⟩ := gammaParts_isSome hfx.wf hun
    obtain ⟨w, -⟩ := gammaParts_wf hp hfx.wf
    have hterm : firstIsTerm x.form = true := firstIsTerm_parts hp w.ty
    obtain ⟨g', hg', g1, g2, g3, -⟩ := C21_gamma_partial.{u} x.form (b.sk + t) (b.now t).m (genIndex x d.metaGen).1 hfx.wf hun
      (fun hh => Nat.lt_irrefl _ (h.metas _ (hfx.sig.metas _ hh)))
    have hg : instantiate (b.now t).m (genIndex x d.metaGen).1 x.form = some g := hg
    rw [hg'] at hg
    cases hg
    rw [instantiate_parts hp w.ty] at hg'
    have hg' := Option.some.inj hg'
    have hgN : NoSplit V true g := by rw [← hg']; exact (gammaParts_noSplit hp hns).repl
    have hmc : uni d.mc [(b.now t).m] = uni d.mc [b.m + t] := rfl
    have hlf : ∀ ts, fs [(⟨g, ts⟩ : FT)] = [g] := fun _ => rfl
    simp only [hterm, if_true]
    obtain ⟨B, hk⟩ := h.next (d' := { d with
        gamma := tl, metaGen := (genIndex x d.metaGen).2, lf := [⟨g, x.terms ++ [(b.now t).m].map .mv⟩], mc := uni d.mc [(b.now t).m],
        n := d.n - 1 }) same (fun i hi => mem_uni.2 (Or.inl hi))
      (by
        simp only [hlf, List.mem_singleton]; rintro F rfl
        refine ⟨g1.mono (Nat.le_succ _), ?_, Or.inl hgN⟩
        rw [← hg']
        exact (gammaParts_sig hp (hfx.sig.mono (fun i hi => mem_uni.2 (Or.inl hi)) (Nat.le_succ _) same)).repl
          (by simp only [TSig]; exact mem_uni.2 (Or.inr (by simp))))
      (fun _ h => h) (fun _ h => h) (fun _ h => h) (fun _ h => h) htl
      (fun F hF => (mem_genIndex hF).imp id fun (e1 : F = x.form) => by rw [e1]; exact hx) (Or.inr (by
        simp only [ha, hb, hd, fs, List.map_cons, List.map_nil, List.mem_singleton, List.not_mem_nil, or_false]
        rintro F rfl; exact hgN)) (by
        intro i hi
        rcases mem_uni.1 hi with y | y
        · exact lt1 i y
        · simp only [List.mem_singleton] at y; rw [y, hwm]; omega) rest
    refine ⟨⟨ar, B⟩, fun ⟨D, I, d0, hI⟩ => ⟨D, I, d0, fun F hF μ ρ => ?_⟩⟩
    rcases hF with hF | hF
    · exact hI F (Or.inl (hk F hF)) μ ρ
    · simp only [hlf, List.mem_singleton] at hF
      subst hF
      exact g3 D I μ ρ (hI _ (Or.inl hxk) μ ρ)
  · -- reintroduction
    rename_i ha hd hb hgm
    split at hr
    · split at hr
      · rename_i i cs hri
        obtain ⟨g, hgi, rfl⟩ := Option.map_eq_some_iff.1 hr
        have hgm' : g.1.form ∈ fs (d.metaGen.map (·.1)) := by
          simp only [fs, List.map_map, List.mem_map, Function.comp_apply]
          exact ⟨g, List.mem_of_getElem? hgi, rfl⟩
        have hxk : g.1.form ∈ kept d := mem_kept.2 (Or.inr (Or.inr (Or.inr (Or.inr (Or.inr hgm')))))
        have hfx := hkept _ hxk
        obtain ⟨hns, hun⟩ := univ (Or.inr hgm')
        have hlf : fs [g.1] = [g.1.form] := rfl
        obtain ⟨B, hk⟩ := h.next (d' := { d with lf := [g.1], metaGen := (d.metaGen.map (·.1)).zip cs }) same (fun _ h => h)
          (by simp only [hlf, List.mem_singleton]; rintro F rfl; exact hfx.mono same fun _ h => h)
          (fun _ h => h) (fun _ h => h) (fun _ h => h) (fun _ h => h) (fun _ h => h)
          (by
            intro F hF
            simp only [fs, List.mem_map] at hF ⊢
            obtain ⟨y, ⟨z, hz, rfl⟩, rfl⟩ := hF
            obtain ⟨u, v⟩ := z
            have := (List.of_mem_zip hz).1
            simp only [List.mem_map] at this
            exact Or.inl ⟨u, this, rfl⟩) (Or.inr (by
            simp only [ha, hb, hd, fs, List.map_cons, List.map_nil, List.mem_singleton, List.not_mem_nil, or_false]
            rintro F rfl; exact hns)) lt1 rest
        refine ⟨⟨ar, B⟩, fun ⟨D, I, d0, hI⟩ => ⟨D, I, d0, fun F hF μ ρ => ?_⟩⟩
        rcases hF with hF | hF
        · exact hI F (Or.inl (hk F hF)) μ ρ
        · simp only [hlf, List.mem_singleton] at hF
          subst hF
          exact hI _ (Or.inl hxk) μ ρ
      · cases hr
    · cases hr
      trivial

/-! ### Rounds -/

theorem round_ok.{u} {e : Env} {b : Start} {t : Nat} (hU : Usable V e.U) (hsko : SkoArgs e) {d : Data} (hd : Br V e.eq b t d) {o : Out}
    (h : round e (b.now t) [] d = some o) : RoundOk (Br V e.eq b) Modelled.{u} (t + 1) d o := by
  obtain ⟨ar, hd⟩ := hd
  simp only [round, if_true, expand] at h
  obtain ⟨⟨a0, A0, hsub⟩, s1, s2⟩ := dispatchLF_adds d.lf d []
  have htidy : ∀ d1 : Data, d1.mm = [] → d1.applied = [] → Tidy { d1 with found := [[]] } := fun d1 a b => ⟨a, b, rfl⟩
  by_cases ho : (dispatchLF d.lf d []).2.2 = true
  · rw [if_pos ho] at h
    have m1 : (dispatchLF d.lf d []).1.mm = [] := A0.rest.2.2.1.trans hd.mm
    have m2 : (dispatchLF d.lf d []).1.applied = [] := A0.rest.2.2.2.2.1.trans hd.applied
    rw [close_tidy m1 m2 h]
    refine ⟨rfl, htidy _ m1 m2, ?_⟩
    rintro ⟨D, I, d0, hI⟩
    obtain ⟨g, hg, hob⟩ := s1 ho
    have := hI g (Or.inr hg) (fun _ => d0) (fun _ => d0)
    unfold obvious at hob
    split at hob
    · simp [Form.holds] at this
    · simp [Form.holds] at this
    · cases hob
  · rw [if_neg ho] at h
    obtain ⟨a, new, e1, A, hmem⟩ := s2 (by simpa using ho)
    rw [List.nil_append] at e1
    rw [e1] at h
    generalize hd1 : (dispatchLF d.lf d []).1 = d1 at h A
    have A2 : Adds d (new.foldl Data.dispatch d1) (fs d.lf) := (A.trans (Adds.foldl new d1)).congr fun g => by
      rw [hmem, List.mem_append]
    generalize hd2 : new.foldl Data.dispatch d1 = d2 at h A2
    obtain ⟨r1, r2, r3, r4, r5, r6⟩ := A2.rest
    -- the formulas of the new state
    have hsub2 : ∀ F ∈ kept d2, F ∈ kept d ∨ F ∈ fs d.lf := by
      intro F hF
      rw [mem_kept] at hF ⊢
      rw [A2.atomic, A2.alpha, A2.beta, A2.delta, A2.gamma, r2] at hF
      tauto
    have hfine : ∀ F, F ∈ kept d ∨ F ∈ fs d.lf → Fine V e.eq (b.sk + t) ar d.mc F := fun F hF => hF.elim (hd.kept F) (hd.lf F)
    have hatom : ∀ F ∈ fs d1.atomic, F ∈ kept d ∨ F ∈ fs d.lf := by
      intro F hF
      rcases (A.atomic F).1 hF with x | ⟨x, -⟩
      · exact Or.inl (mem_kept.2 (Or.inl x))
      · exact Or.inr ((hmem F).2 (Or.inl x))
    have hnew : ∀ F ∈ fs new, F ∈ kept d ∨ F ∈ fs d.lf := fun F hF => Or.inr ((hmem F).2 (Or.inr hF))
    have hmod : Modelled.{u} d → Modelled.{u} { d2 with lf := [] } := by
      rintro ⟨D, I, d0, hI⟩
      refine ⟨D, I, d0, fun F hF μ ρ => ?_⟩
      rcases hF with hF | hF
      · exact hI F (hsub2 F hF) μ ρ
      · simp [fs] at hF
    split at h
    · cases h
    · rename_i o' hc
      cases h
      obtain ⟨F, hF, substs, hcl, hclose⟩ := closeFirst_mem hc
      have m1 : d2.mm = [] := r3.trans hd.mm
      have m2 : d2.applied = [] := r5.trans hd.applied
      rw [close_tidy m1 m2 hclose]
      refine ⟨rfl, htidy _ m1 m2, ?_⟩
      rintro ⟨D, I, d0, hI⟩
      refine no_closure hU (c := b.sk + t) (ar := ar) (mc := d.mc) d0 ?_ hF hcl (I := I)
      intro G hG
      have hG' : G ∈ kept d ∨ G ∈ fs d.lf := by
        simp only [List.mem_append, mem_fs_mergeFT, mem_filterPos, mem_filterNeg] at hG
        simp only [fs, List.map_append, List.mem_append] at hG
        have fp : ∀ {G : Form}, G ∈ fs (filterPos new) → G ∈ fs new := fun h => (mem_filterPos.1 h).1
        have fn : ∀ {G : Form}, G ∈ fs (filterNeg new) → G ∈ fs new := fun h => (mem_filterNeg.1 h).1
        rcases hG with (x | x) | ((x | x) | (x | x))
        · exact hnew G (fp x)
        · exact hnew G (fn x)
        · exact hatom G x
        · exact hnew G x.1
        · exact hatom G x
        · exact hnew G x.1
      exact ⟨hfine G hG', hI G hG'⟩
    · have B : Branch V e.eq b t ar { d2 with lf := [] } := by
        refine ⟨fun F hF => ?_, by simp [fs], fun F hF => ?_, fun F hF => ?_, fun F hF => ?_, fun F hF => ?_, fun F hF => ?_, fun F hF => ?_, ?_,
          fun i hi => ?_, r3.trans hd.mm, r5.trans hd.applied, r6.trans hd.found⟩
        · have := hfine F (hsub2 F hF)
          rwa [← r4] at this
        · exact ((A2.atomic F).1 hF).elim (hd.atomic F) (·.2)
        · exact ((A2.alpha F).1 hF).elim (hd.alpha F) (·.2)
        · exact ((A2.beta F).1 hF).elim (hd.beta F) (·.2)
        · exact ((A2.delta F).1 hF).elim (hd.delta F) (·.2)
        · exact ((A2.gamma F).1 hF).elim (hd.gamma F) (·.2)
        · have hF : F ∈ fs (d2.metaGen.map (·.1)) := hF
          rw [r2] at hF
          exact hd.gen F hF
        · refine hd.split.imp (fun x => r4.trans x) fun x F hF => ?_
          simp only [fs, List.map_nil, List.not_mem_nil, false_or] at hF
          rcases hF with y | y | y
          · exact ((A2.alpha F).1 y).elim (fun z => x F (Or.inr (Or.inl z))) fun z => x F (Or.inl z.1)
          · exact ((A2.beta F).1 y).elim (fun z => x F (Or.inr (Or.inr (Or.inl z)))) fun z => x F (Or.inl z.1)
          · exact ((A2.delta F).1 y).elim (fun z => x F (Or.inr (Or.inr (Or.inr z)))) fun z => x F (Or.inl z.1)
        · have hi : i ∈ d2.mc := hi
          rw [r4] at hi
          exact hd.metas i hi
      have R := rules_ok hsko B h
      cases o with
      | again d' => exact ⟨R.1, fun x => R.2 (hmod x)⟩
      | answer c n d' =>
        cases c
        · trivial
        · exact ⟨R.1, R.2.1, fun x => R.2.2 (hmod x)⟩
      | split d' ds => exact ⟨R.1, R.2.1, fun x => R.2.2 (hmod x)⟩

theorem Branch.up {b : Start} {t : Nat} {d : Data} (h : Branch V eq b t ar d) : Branch V eq b (t + 1) ar d :=
  ⟨fun F hF => (h.kept F hF).mono (fun _ _ => rfl) fun _ h => h, fun F hF => (h.lf F hF).mono (fun _ _ => rfl) fun _ h => h, h.atomic, h.alpha,
    h.beta, h.delta, h.gamma, h.gen, h.split, fun i hi => Nat.lt_succ_of_lt (h.metas i hi), h.mm, h.applied, h.found⟩

theorem keeping.{u} {e : Env} {b : Start} (hU : Usable V e.U) (hsko : SkoArgs e) : Keeping e b (Br V e.eq b) Modelled.{u} :=
  ⟨fun _ _ ⟨ar, h⟩ => ⟨ar, h.up⟩, fun _ _ _ hd h => round_ok hU hsko hd h⟩

theorem late_sound.{u} {e : Env} {b : Start} (hU : Usable V e.U) (hsko : SkoArgs e) (hfu : 0 < e.fuel) {limit : Nat} {f : Form} (hw : WF f b.sk)
    (hs : Sig (fun _ => False) ar e.eq b.sk f) (hl : Late V true f) (h : Verdict e b limit f true)
    (D : Type u) (I : Interp D) (μ ρ : Nat → D) : ¬ Form.holds I μ ρ f := by
  intro hI
  have hlf : fs [(⟨f, []⟩ : FT)] = [f] := rfl
  refine verdict_sound (keeping (b := b) hU hsko) hfu ⟨ar, ?_⟩ h ⟨D, I, μ 0, fun F hF μ' ρ' => ?_⟩
  · constructor <;> simp [kept, fs]
    exact ⟨hw, hs.mono (fun _ h => h.elim) (Nat.le_refl _) fun _ _ => rfl, Or.inr ⟨hl, hs⟩⟩
  · obtain rfl : F = f := by simpa [kept, fs] using hF
    exact (Form.holds_congr (fun i hi => absurd hi (hw.closed i)) (fun i hi => (hs.metas i hi).elim) (fun _ _ => rfl) rfl).1 hI

/-! ### Indices -/

/-- What C30 asks of the index, for its use here: stored formulas that are answered have a common instance with the query. -/
def Right (U : Oracle) : Prop := ∀ (time : Nat) (st : List Atom) (q : Atom) (l : List Subst) (ar : Nat → Nat), U time st q = some l → l ≠ [] →
  (∀ f ∈ st, f.term.Ar ar) → q.term.Ar ar → ∃ f ∈ st, ∃ σ : Nat → UT, f.term.inst σ = q.term.inst σ

theorem Right.usable {U : Oracle} (h : Right U) : Usable V U := fun time st q l ar _ hl hn hs hq =>
  h time st q l ar hl hn (fun f hf => (hs f hf).1) hq.1

/-- The index of the code answers rightly when of stored formula and query one has no metavariables (C30). -/
theorem usable_faithful {U : Oracle} (hU : Faithful U) (hV : ∀ p, ¬ (V true p ∧ V false p)) : Usable V U := by
  intro time st q l ar s hl hn hs hq
  obtain ⟨n, t, out, h1, h2, rfl⟩ := hU time st q l hl
  cases out with
  | nil => exact absurd rfl hn
  | cons x out =>
    obtain ⟨f, r⟩ := x
    have hm := (C30_search_exact [st] t h1 q n _ h2).mem_iff.1 (List.mem_cons_self ..)
    simp only [List.mem_flatMap, List.mem_dedup] at hm
    obtain ⟨f', g1, g2⟩ := hm
    obtain ⟨e1, m', g3, -⟩ := mem_single.1 g2
    cases e1
    have g1' : f ∈ st := by simpa using g1
    have hb : AUBase ar (addUnif false n) := fun t1 t2 s r a1 a2 hk ha h =>
      ⟨(addUnif_spec.{0} ar false n t1 t2 s r a1 a2 hk ha h).solved.1, (addUnif_spec.{0} ar false n t1 t2 s r a1 a2 hk ha h).ar⟩
    have hp : f.p = q.p := (exec_code hb (hs f g1').1 hq.1 g3).1
    have hg : q.term.occ = [] ∨ f.term.occ = [] := by
      rcases hq.2 with a | a
      · exact Or.inl a
      · rcases (hs f g1').2 with b | b
        · exact Or.inr b
        · rw [hp] at b
          cases s
          · exact absurd ⟨a, b⟩ (hV q.p)
          · exact absurd ⟨b, a⟩ (hV q.p)
    exact ⟨f, g1', _, (C30_ground_sound [st] t h1 q n _ h2 (fun f hf => (hs f (by simpa using hf)).1) hq.1 f r (List.mem_cons_self ..) hg).2⟩

/-! ### The theorems -/

/-- **C65, formulas without disjunctions under a universal quantifier**: what the search reports as closed has no model, whatever the
schedule, if for every predicate only literals of one sign `V` are under a universal quantifier. (Equivalences count as disjunctions; a
disjunction is one with its sign.) -/
theorem C65_late_partial.{u} {e : Env} (hU : Faithful e.U) (hsko : SkoArgs e) (hfu : 0 < e.fuel) (b : Start) (limit : Nat) {f : Form}
    (hw : WF f b.sk) (hs : Sig (fun _ => False) ar e.eq b.sk f) (hV : ∀ p, ¬ (V true p ∧ V false p)) (hl : Late V true f)
    (h : Verdict e b limit f true) (D : Type u) (I : Interp D) (μ ρ : Nat → D) : ¬ Form.holds I μ ρ f :=
  late_sound (usable_faithful hU hV) hsko hfu hw hs hl h D I μ ρ

/-- **C65, formulas without disjunctions under a universal quantifier, the index being right**: what the search reports as closed has
no model. What is wrong with `Bad.alone` is hence the index, and what is wrong with `Bad.common` and `Bad.cleaning` are the branches under
a universal quantifier. -/
theorem C65_late_index_partial.{u} {e : Env} (hU : Right e.U) (hsko : SkoArgs e) (hfu : 0 < e.fuel) (b : Start) (limit : Nat) {f : Form}
    (hw : WF f b.sk) (hs : Sig (fun _ => False) ar e.eq b.sk f) (hl : Late (fun _ _ => True) true f)
    (h : Verdict e b limit f true) (D : Type u) (I : Interp D) (μ ρ : Nat → D) : ¬ Form.holds I μ ρ f :=
  late_sound hU.usable hsko hfu hw hs hl h D I μ ρ

end

namespace Sample
open Bad

/-- `(q(a) ∨ ∃X p(X,a)) ∧ ∀Y ¬p(Y,a) ∧ ∀Y ¬q(Y)`. -/
def two : Form := .and [.or [P 11 [c 1], .ex [X 50] (P 10 [v 50, c 1])], .all [X 51] (.neg (P 10 [v 51, c 1])), .all [X 52] (.neg (P 11 [v 52]))]

/-- The numbers of arguments. -/
def arity (p : Nat) : Nat := if p = 10 then 2 else if p = 11 then 1 else 0

theorem two_wf : WF two 100 := by
  refine ⟨?_, by decide +kernel, by decide +kernel, by decide +kernel, ?_⟩
  · simp [two, FO, FOL, P, X, isTType]
  · have : two.fvs = [] := by decide +kernel
    simp [this]

theorem two_sig : Sig (fun _ => False) arity 100 100 two := by
  simp [two, Sig, SigL, TSig, TSigL, P, v, c, X, arity]

/-- Only negative literals are under the universal quantifiers. -/
theorem two_late : Late (fun s _ => s = false) true two := by
  simp [two, Late, LateL, NoSplit, NoSplitL, P]

theorem two_closed : Verdict env ⟨0, 100⟩ 5 two true :=
  verdict_of _ [r, r, o 0, o 0, o 0, o 1, o 1, o 1, recv 0, recv 0, r, r, .result] _ (by decide +kernel)

/-- `two`, which is split into two branches, is reported closed, and hence has no model. -/
example (D : Type) (I : Interp D) (μ ρ : Nat → D) : ¬ Form.holds I μ ρ two :=
  C65_late_partial (realU_faithful 20) (fun l F h => ⟨h, fun _ hi => hi⟩) (by decide) ⟨0, 100⟩ 5 two_wf two_sig (by simp) two_late two_closed D I μ ρ

/-- An index that answers with the stored formulas equal to the query. -/
def exactU : Oracle := fun _ st q => some (if q ∈ st then [[]] else [])

theorem exactU_right : Right exactU := by
  intro time st q l ar h hn _ _
  simp only [exactU, Option.some.injEq] at h
  by_cases hq : q ∈ st
  · exact ⟨q, hq, .mv, rfl⟩
  · rw [if_neg hq] at h
    exact absurd h.symm hn

/-- `∀X (p(X,a) ∧ ¬p(X,a))`: literals of both signs under the quantifier. -/
def both : Form := .all [X 50] (.and [P 10 [v 50, c 1], .neg (P 10 [v 50, c 1])])

theorem both_wf : WF both 100 := by
  refine ⟨?_, by decide +kernel, by decide +kernel, by decide +kernel, ?_⟩
  · simp [both, FO, FOL, P, X, isTType]
  · have : both.fvs = [] := by decide +kernel
    simp [this]

theorem both_sig : Sig (fun _ => False) arity 100 100 both := by
  simp [both, Sig, SigL, TSig, TSigL, P, v, c, X, arity]

theorem both_late : Late (fun _ _ => True) true both := by
  simp [both, Late, NoSplit, NoSplitL, P]

theorem both_closed : Verdict { env with U := exactU } ⟨0, 100⟩ 5 both true := by
  have h : ((start 5 both).run { env with U := exactU } ⟨0, 100⟩ [r, r, r, .result]).map (·.result) = some (some true) := by decide +kernel
  obtain ⟨s, hs, e⟩ := Option.map_eq_some_iff.1 h
  exact ⟨s, ⟨_, hs⟩, e⟩

/-- `both` is reported closed, and hence has no model. -/
example (D : Type) (I : Interp D) (μ ρ : Nat → D) : ¬ Form.holds I μ ρ both :=
  C65_late_index_partial (e := { env with U := exactU }) exactU_right (fun l F h => ⟨h, fun _ hi => hi⟩) (by decide) ⟨0, 100⟩ 5 both_wf both_sig
    both_late both_closed D I μ ρ

end Sample

end Verif.Search.Main.Sound
