import Verif.Search.PreInner
import Verif.AST.SubstProps
/-!
# C23: soundness of the tableau calculus

A tableau is the set of open branches of all goroutines together with the state of the symbol makers
(`cpt`), of the pre-inner Skolemisation (`linked`) and the bindings of metavariables applied so far
(`cons`). The steps act on any branch in any order, so every interleaving of the goroutines of the
search (src/Search/destructive.go:349-1427: `applyRules`, `manageAlphaRules`, `manageBetaRules`,
`manageDeltaRules`, `manageGammaRules`, `ApplySubstitution` of src/Search/state.go:494) is a sequence of
steps. The order in which the rules are tried is left open.
-/
set_option linter.unusedSimpArgs false

namespace Verif.Search
open Verif.AST

/-- One branch: its formulas and the metavariables in `MM` and `MC` (src/Search/state.go:57-58). -/
structure Branch where
  forms : List Form
  metas : List Nat

/-- The three Skolemisation strategies (src/Core/Sko). -/
inductive Strategy where
  | outer | inner | preinner
deriving DecidableEq

structure Tab where
  branches : List Branch
  /-- The counter of src/AST/maker.go:47, from which every identity is drawn. -/
  cpt : Nat
  /-- `linkedSymbols` (src/Core/Sko/preinner-skolemization.go:50): all pairs ever added. -/
  linked : List (Form × Nat)
  /-- Bindings of metavariables that were applied to some branch. -/
  cons : List (Nat × Term)

/-- One step of the calculus. -/
inductive Step (s : Strategy) : Tab → Tab → Prop
  /-- `ApplyAlphaRules`; formulas already treated may be kept or dropped (`weaken`). -/
  | alpha (T : Tab) (pre post : List Branch) (b : Branch) (F : Form)
      (hT : T.branches = pre ++ b :: post) (hF : F ∈ b.forms) (hk : showKind F = .alpha) :
      Step s T { T with branches := pre ++ ⟨applyAlpha F ++ b.forms, b.metas⟩ :: post }
  /-- `ApplyBetaRules`: one new branch per element. -/
  | beta (T : Tab) (pre post : List Branch) (b : Branch) (F : Form)
      (hT : T.branches = pre ++ b :: post) (hF : F ∈ b.forms) (hk : showKind F = .beta) :
      Step s T { T with branches := pre ++ ((applyBeta F).map fun l => ⟨l ++ b.forms, b.metas⟩) ++ post }
  /-- `ApplyGammaRules` (src/Search/rules.go:501): the new metavariable has the next identity. -/
  | gamma (T : Tab) (pre post : List Branch) (b : Branch) (F g : Form) (k : Nat)
      (hT : T.branches = pre ++ b :: post) (hF : F ∈ b.forms) (hk : showKind F = .gamma)
      (hg : instantiate T.cpt k F = some g) :
      Step s T { T with branches := pre ++ ⟨g :: b.forms, T.cpt :: b.metas⟩ :: post, cpt := T.cpt + 1 }
  /-- `ApplyDeltaRules` (src/Search/rules.go:474) with the outer strategy: the arguments are the
  metavariables of the branch, in the order in which the set lists them. -/
  | outer (T : Tab) (pre post : List Branch) (b : Branch) (F g : Form) (args : List Nat)
      (hs : s = .outer)
      (hT : T.branches = pre ++ b :: post) (hF : F ∈ b.forms) (hk : showKind F = .delta)
      (ha : ∀ i, i ∈ args ↔ i ∈ b.metas) (hg : skolemize T.cpt args F = some g) :
      Step s T { T with branches := pre ++ ⟨g :: b.forms, b.metas⟩ :: post, cpt := T.cpt + 1 }
  /-- With the inner strategy: the arguments are the metavariables of the formula. -/
  | inner (T : Tab) (pre post : List Branch) (b : Branch) (F g : Form) (hs : s = .inner)
      (hT : T.branches = pre ++ b :: post) (hF : F ∈ b.forms) (hk : showKind F = .delta)
      (hg : skolemize T.cpt F.metaElems F = some g) :
      Step s T { T with branches := pre ++ ⟨g :: b.forms, b.metas⟩ :: post, cpt := T.cpt + 1 }
  /-- With the pre-inner strategy, when no remembered formula has the same key (or when the memory of
  another goroutine was overwritten, src/Core/skolemisation.go:135). -/
  | preinnerNew (T : Tab) (pre post : List Branch) (b : Branch) (F g : Form) (hs : s = .preinner)
      (hT : T.branches = pre ++ b :: post) (hF : F ∈ b.forms) (hk : showKind F = .delta)
      (hg : skolemize T.cpt F.metaElems F = some g) :
      Step s T { T with branches := pre ++ ⟨g :: b.forms, b.metas⟩ :: post, cpt := T.cpt + 1,
                        linked := (skoKey F, T.cpt) :: T.linked }
  /-- With the pre-inner strategy, when the symbol of a remembered formula is reused. -/
  | preinnerReuse (T : Tab) (pre post : List Branch) (b : Branch) (F g : Form) (sk : Nat)
      (hs : s = .preinner)
      (hT : T.branches = pre ++ b :: post) (hF : F ∈ b.forms) (hk : showKind F = .delta)
      (hl : (skoKey F, sk) ∈ T.linked) (hg : skolemize sk F.metaElems F = some g) :
      Step s T { T with branches := pre ++ ⟨g :: b.forms, b.metas⟩ :: post }
  /-- A binding applied to some formulas of a branch (src/Search/state.go:494,
  src/Core/substitutions_search.go:298: `ReplaceMetaByTerm` on each formula). The terms are those built by
  unification from terms of the tableau: no bound variable, symbols that exist already. -/
  | subst (T : Tab) (pre post : List Branch) (b : Branch) (m : Nat) (u : Term) (forms : List Form)
      (hT : T.branches = pre ++ b :: post) (hu : u.vars = [])
      (hf : ∀ i ∈ u.funs, ∃ b ∈ T.branches, ∃ f ∈ b.forms, i ∈ f.funs)
      (hforms : ∀ g ∈ forms, g ∈ b.forms ∨ ∃ f ∈ b.forms, g = f.replaceMetaByTerm m u) :
      Step s T { T with branches := pre ++ ⟨forms, b.metas⟩ :: post, cons := (m, u) :: T.cons }
  /-- Formulas may be dropped from a branch. -/
  | weaken (T : Tab) (pre post : List Branch) (b : Branch) (forms : List Form)
      (hT : T.branches = pre ++ b :: post) (hforms : ∀ g ∈ forms, g ∈ b.forms) :
      Step s T { T with branches := pre ++ ⟨forms, b.metas⟩ :: post }
  /-- Identities drawn for other purposes. -/
  | draw (T : Tab) (n : Nat) : Step s T { T with cpt := T.cpt + n }

/-- Any number of steps. -/
inductive Steps (s : Strategy) : Tab → Tab → Prop
  | refl (T : Tab) : Steps s T T
  | tail (T T' T'' : Tab) (h : Steps s T T') (h' : Step s T' T'') : Steps s T T''

mutual
/-- A substitution of all metavariables (specification). -/
def instT (σ : Nat → Term) : Term → Term
  | .var i => .var i
  | .mv i => σ i
  | .fn p tys args => .fn p tys (instTL σ args)
def instTL (σ : Nat → Term) : List Term → List Term
  | [] => []
  | a :: l => instT σ a :: instTL σ l
end

/-- A branch closed by `σ` (specification): it contains false, the negation of true, or two
complementary literals whose instances are the same atom. -/
def Branch.closed (σ : Nat → Term) (b : Branch) : Prop :=
  Form.bot ∈ b.forms ∨ Form.neg .top ∈ b.forms ∨
  ∃ p tys args args', Form.pred p tys args ∈ b.forms ∧ Form.neg (.pred p tys args') ∈ b.forms ∧
    instTL σ args = instTL σ args'

/-- Closed by reflexivity of equality (the code does it with any `¬ s = t` whose sides unify). -/
def Branch.closedEq (eq : Nat) (σ : Nat → Term) (b : Branch) : Prop :=
  b.closed σ ∨ ∃ tys s t, Form.neg (.pred eq tys [s, t]) ∈ b.forms ∧ instT σ s = instT σ t

/-- The tableau with one branch containing the formula. -/
def initTab (F : Form) (c : Nat) : Tab := ⟨[⟨[F], []⟩], c, [], []⟩

/-! ### Terms of the atoms -/

mutual
/-- Arguments of all atoms. -/
def atomArgs : Form → List Term
  | .pred _ _ args => args
  | .top => []
  | .bot => []
  | .neg f => atomArgs f
  | .and fs => atomArgsL fs
  | .or fs => atomArgsL fs
  | .imp f g => atomArgs f ++ atomArgs g
  | .equ f g => atomArgs f ++ atomArgs g
  | .all _ f => atomArgs f
  | .ex _ f => atomArgs f
def atomArgsL : List Form → List Term
  | [] => []
  | f :: fs => atomArgs f ++ atomArgsL fs
end

theorem mem_atomArgsL {fs : List Form} {t : Term} : t ∈ atomArgsL fs ↔ ∃ f ∈ fs, t ∈ atomArgs f := by
  induction fs with
  | nil => simp [atomArgsL]
  | cons f fs ih => simp [atomArgsL, ih]

/-- Well-formed formulas with respect to a set `V` of variable identities, whose atoms have
arguments satisfying `Q`. -/
structure Good (V : Nat → Prop) (c : Nat) (Q : Term → Prop) (f : Form) : Prop where
  fo : FO f
  nodup : f.binders.Nodup
  binders : ∀ i ∈ f.binders, V i
  funs : ∀ i ∈ f.funs, i < c ∧ ¬ V i
  closed : ∀ i, i ∉ f.fvs
  args : ∀ t ∈ atomArgs f, Q t

section Good
variable {V : Nat → Prop} {c : Nat} {Q : Term → Prop}

theorem Good.wf {f : Form} (h : Good V c Q f) (hV : ∀ i, V i → i < c) : WF f c :=
  ⟨h.fo, h.nodup, fun i hi => ⟨hV i (h.binders i hi), fun hf => (h.funs i hf).2 (h.binders i hi)⟩,
    fun i hi => (h.funs i hi).1, h.closed⟩

theorem Good.mono {f : Form} {c' : Nat} {Q' : Term → Prop} (h : Good V c Q f) (hc : c ≤ c')
    (hQ : ∀ t ∈ atomArgs f, Q t → Q' t) : Good V c' Q' f :=
  ⟨h.fo, h.nodup, h.binders, fun i hi => ⟨Nat.lt_of_lt_of_le (h.funs i hi).1 hc, (h.funs i hi).2⟩, h.closed,
    fun t ht => hQ t ht (h.args t ht)⟩

theorem Good.neg {f : Form} : Good V c Q (.neg f) ↔ Good V c Q f := by
  constructor <;> rintro ⟨a, b, d, e, g, h⟩ <;> exact ⟨a, b, d, e, g, h⟩

theorem nodup_of_bindersL {fs : List Form} (h : (Form.bindersL fs).Nodup) {f : Form} (hf : f ∈ fs) :
    f.binders.Nodup := by
  induction fs with
  | nil => cases hf
  | cons g fs ih =>
    simp only [Form.bindersL, List.nodup_append] at h
    rcases List.mem_cons.1 hf with rfl | hf
    · exact h.1
    · exact ih h.2.1 hf

theorem Good.list {fs : List Form} {f : Form} (h : Good V c Q (.and fs) ∨ Good V c Q (.or fs)) (hf : f ∈ fs) :
    Good V c Q f := by
  have h' : FOL fs ∧ (Form.bindersL fs).Nodup ∧ (∀ i ∈ Form.bindersL fs, V i) ∧
      (∀ i ∈ Form.funsL fs, i < c ∧ ¬ V i) ∧ (∀ i, i ∉ Form.fvsL fs) ∧ ∀ t ∈ atomArgsL fs, Q t := by
    rcases h with h | h <;> exact ⟨h.fo, h.nodup, h.binders, h.funs, h.closed, h.args⟩
  obtain ⟨a, b, d, e, g, k⟩ := h'
  exact ⟨FOL_iff.1 a f hf, nodup_of_bindersL b hf, fun i hi => d i (Form.mem_bindersL.2 ⟨f, hf, hi⟩),
    fun i hi => e i (Form.mem_funsL.2 ⟨f, hf, hi⟩), fun i hi => g i (Form.mem_fvsL.2 ⟨f, hf, hi⟩),
    fun t ht => k t (mem_atomArgsL.2 ⟨f, hf, ht⟩)⟩

theorem Good.pair {f g : Form} (h : Good V c Q (.imp f g) ∨ Good V c Q (.equ f g)) :
    Good V c Q f ∧ Good V c Q g := by
  have h' : (FO f ∧ FO g) ∧ (f.binders ++ g.binders).Nodup ∧ (∀ i ∈ f.binders ++ g.binders, V i) ∧
      (∀ i ∈ f.funs ++ g.funs, i < c ∧ ¬ V i) ∧ (∀ i, i ∉ f.fvs ++ g.fvs) ∧
      ∀ t ∈ atomArgs f ++ atomArgs g, Q t := by
    rcases h with h | h <;> exact ⟨h.fo, h.nodup, h.binders, h.funs, h.closed, h.args⟩
  obtain ⟨a, b, d, e, k, l⟩ := h'
  rw [List.nodup_append] at b
  constructor
  · exact ⟨a.1, b.1, fun i hi => d i (by simp [hi]), fun i hi => e i (by simp [hi]),
      fun i hi => k i (by simp [hi]), fun i hi => l i (by simp [hi])⟩
  · exact ⟨a.2, b.2.1, fun i hi => d i (by simp [hi]), fun i hi => e i (by simp [hi]),
      fun i hi => k i (by simp [hi]), fun i hi => l i (by simp [hi])⟩

theorem Good.alpha {F g : Form} (h : Good V c Q F) (hg : g ∈ applyAlpha F) : Good V c Q g := by
  unfold applyAlpha at hg
  split at hg
  · simp [mem_appendNew] at hg; subst hg; exact Good.neg.1 (Good.neg.1 h)
  · rw [mem_foldl_appendNew] at hg
    simp only [List.not_mem_nil, false_or] at hg
    obtain ⟨x, hx, rfl⟩ := hg
    exact Good.neg.2 (Good.list (Or.inr (Good.neg.1 h)) hx)
  · have := Good.pair (Or.inl (Good.neg.1 h))
    simp [mem_appendNew] at hg
    rcases hg with rfl | rfl
    · exact this.1
    · exact Good.neg.2 this.2
  · rw [mem_foldl_appendNew_id] at hg
    simp only [List.not_mem_nil, false_or] at hg
    exact Good.list (Or.inl h) hg
  · cases hg

theorem Good.beta {F g : Form} {l : List Form} (h : Good V c Q F) (hl : l ∈ applyBeta F) (hg : g ∈ l) :
    Good V c Q g := by
  unfold applyBeta at hl
  split at hl
  · obtain ⟨x, hx, rfl⟩ := List.mem_map.1 hl
    simp at hg; subst hg
    exact Good.neg.2 (Good.list (Or.inl (Good.neg.1 h)) hx)
  · have := Good.pair (Or.inr (Good.neg.1 h))
    simp at hl
    rcases hl with rfl | rfl <;> simp at hg <;> rcases hg with rfl | rfl <;>
      first | exact this.1 | exact this.2 | exact Good.neg.2 this.1 | exact Good.neg.2 this.2
  · obtain ⟨x, hx, rfl⟩ := List.mem_map.1 hl
    simp at hg; subst hg
    exact Good.list (Or.inr h) hx
  · have := Good.pair (Or.inl h)
    simp at hl
    rcases hl with rfl | rfl <;> simp at hg <;> subst hg <;>
      first | exact this.1 | exact this.2 | exact Good.neg.2 this.1 | exact Good.neg.2 this.2
  · have := Good.pair (Or.inr h)
    simp at hl
    rcases hl with rfl | rfl <;> simp at hg <;> rcases hg with rfl | rfl <;>
      first | exact this.1 | exact this.2 | exact Good.neg.2 this.1 | exact Good.neg.2 this.2
  · cases hl

theorem atomArgs_replace {old new : Term} {f : Form} :
    atomArgs (f.replaceTermByTerm old new).1 = (atomArgs f).map fun t => (replT old new t).1 := by
  induction f using Form.ind with
  | pred p tys args => simp [Form.replaceTermByTerm, atomArgs, replTL_fst]
  | top => rfl
  | bot => rfl
  | neg f ih => simpa [Form.replaceTermByTerm, atomArgs] using ih
  | and fs ih =>
    simp only [Form.replaceTermByTerm, atomArgs, Form.replaceTermByTermL_fst]
    induction fs with
    | nil => rfl
    | cons f fs ihl =>
      simp only [List.map_cons, atomArgsL, List.map_append, ih f (by simp)]
      rw [ihl (fun g hg => ih g (by simp [hg]))]
  | or fs ih =>
    simp only [Form.replaceTermByTerm, atomArgs, Form.replaceTermByTermL_fst]
    induction fs with
    | nil => rfl
    | cons f fs ihl =>
      simp only [List.map_cons, atomArgsL, List.map_append, ih f (by simp)]
      rw [ihl (fun g hg => ih g (by simp [hg]))]
  | imp f g ihf ihg => simp [Form.replaceTermByTerm, atomArgs, ihf, ihg]
  | equ f g ihf ihg => simp [Form.replaceTermByTerm, atomArgs, ihf, ihg]
  | all vs f ih => simpa [Form.replaceTermByTerm, atomArgs] using ih
  | ex vs f ih => simpa [Form.replaceTermByTerm, atomArgs] using ih

theorem atomArgs_funs {f : Form} {t : Term} (h : t ∈ atomArgs f) : ∀ i ∈ t.funs, i ∈ f.funs := by
  induction f using Form.ind with
  | pred p tys args => intro i hi; simp only [Form.funs, Term.mem_funsL]; exact ⟨t, h, hi⟩
  | top => cases h
  | bot => cases h
  | neg f ih => exact ih h
  | and fs ih =>
    obtain ⟨f, hf, ht⟩ := mem_atomArgsL.1 h
    intro i hi; exact Form.mem_funsL.2 ⟨f, hf, ih f hf ht i hi⟩
  | or fs ih =>
    obtain ⟨f, hf, ht⟩ := mem_atomArgsL.1 h
    intro i hi; exact Form.mem_funsL.2 ⟨f, hf, ih f hf ht i hi⟩
  | imp f g ihf ihg =>
    intro i hi
    rcases List.mem_append.1 h with h | h
    · exact List.mem_append.2 (Or.inl (ihf h i hi))
    · exact List.mem_append.2 (Or.inr (ihg h i hi))
  | equ f g ihf ihg =>
    intro i hi
    rcases List.mem_append.1 h with h | h
    · exact List.mem_append.2 (Or.inl (ihf h i hi))
    · exact List.mem_append.2 (Or.inr (ihg h i hi))
  | all vs f ih => exact ih h
  | ex vs f ih => exact ih h

theorem exs_atomArgs {vs : List TVar} {f : Form} : atomArgs (exs vs f) = atomArgs f := by
  unfold exs; split <;> simp [atomArgs]
theorem alls_atomArgs {vs : List TVar} {f : Form} : atomArgs (alls vs f) = atomArgs f := by
  unfold alls; split <;> simp [atomArgs]

theorem deltaParts_same {F : Form} {v : TVar} {b : Form} (h : deltaParts F = some (v, b)) :
    b.funs = F.funs ∧ atomArgs b = atomArgs F ∧ F.binders = v.index :: b.binders := by
  unfold deltaParts at h
  split at h <;> cases h
  · simp [Form.funs, alls_props.2.1, atomArgs, alls_atomArgs, Form.binders, alls_props.1]
  · simp [Form.funs, exs_props.2.1, atomArgs, exs_atomArgs, Form.binders, exs_props.1]

theorem gammaParts_same {F : Form} {v : TVar} {b : Form} (h : gammaParts F = some (v, b)) :
    b.funs = F.funs ∧ atomArgs b = atomArgs F ∧ F.binders = v.index :: b.binders := by
  unfold gammaParts at h
  split at h <;> cases h
  · simp [Form.funs, exs_props.2.1, atomArgs, exs_atomArgs, Form.binders, exs_props.1]
  · simp [Form.funs, alls_props.2.1, atomArgs, alls_atomArgs, Form.binders, alls_props.1]

/-- Replacing the variable of a quantified formula by a term with new or good symbols. -/
theorem Good.replace {F : Form} {v : TVar} {b : Form} (h : Good V c Q F)
    (hb : b.funs = F.funs ∧ atomArgs b = atomArgs F ∧ F.binders = v.index :: b.binders)
    (w : PartsWF v b c) {c' : Nat} (hc : c ≤ c') {Q' : Term → Prop} {u : Term} (hu : u.vars = [])
    (hf : ∀ i ∈ u.funs, i < c' ∧ ¬ V i)
    (hQ : ∀ t ∈ atomArgs F, Q t → Q' (replT (.var v.index) u t).1) :
    Good V c' Q' (b.replaceTermByTerm (.var v.index) u).1 := by
  have hne : u ≠ .var v.index := by rintro rfl; simp [Term.vars] at hu
  have nd := h.nodup
  rw [hb.2.2] at nd
  refine ⟨FO_replace w.fo, ?_, ?_, ?_, ?_, ?_⟩
  · rw [Form.binders_replaceTermByTerm]; exact (List.nodup_cons.1 nd).2
  · rw [Form.binders_replaceTermByTerm]
    intro i hi; exact h.binders i (by rw [hb.2.2]; simp [hi])
  · intro i hi
    rcases Form.replaceTermByTerm_funs _ _ hne hi with hi | hi
    · have := h.funs i (hb.1 ▸ hi); exact ⟨by omega, this.2⟩
    · exact hf i hi
  · intro i hi
    rcases Form.replaceTermByTerm_fvs _ _ hne hi with hi | hi
    · exact hi.2 (w.closed i hi.1)
    · simp [hu] at hi
  · rw [atomArgs_replace]
    intro t ht
    obtain ⟨t', ht', rfl⟩ := List.mem_map.1 ht
    rw [hb.2.1] at ht'
    exact hQ t' ht' (h.args t' ht')

end Good

/-! ### Replacement of a metavariable keeps formulas well formed -/

theorem replaceFirst_spec {P : Term → Term → Prop} (hr : ∀ t, P t t) {old new : Term} {l : List Term}
    (h : ∀ a ∈ l, P a (Term.replaceSubTermBy old new a)) :
    ∀ b ∈ Term.replaceFirst old new l, ∃ a ∈ l, P a b := by
  induction l with
  | nil => simp [Term.replaceFirst]
  | cons a l ih =>
    simp only [Term.replaceFirst]
    split
    · intro b hb
      rcases List.mem_cons.1 hb with rfl | hb
      · exact ⟨b, by simp, hr b⟩
      · obtain ⟨a', ha', h'⟩ := ih (fun a ha => h a (by simp [ha])) b hb
        exact ⟨a', by simp [ha'], h'⟩
    · intro b hb
      rcases List.mem_cons.1 hb with rfl | hb
      · exact ⟨a, by simp, h a (by simp)⟩
      · exact ⟨b, by simp [hb], hr b⟩

theorem replaceSubTermBy_funs {m : Nat} {u t : Term} :
    ∀ i ∈ (Term.replaceSubTermBy (.mv m) u t).funs, i ∈ t.funs ∨ i ∈ u.funs := by
  induction t using Term.ind with
  | var j => simp [Term.replaceSubTermBy, Term.funs]
  | mv j => intro i hi; simp only [Term.replaceSubTermBy] at hi; split at hi <;> simp_all
  | fn p tys args ih =>
    intro i hi
    simp only [Term.replaceSubTermBy, reduceCtorEq, if_false, Term.funs, List.mem_cons, Term.mem_funsL] at hi ⊢
    rcases hi with rfl | ⟨b, hb, hi⟩
    · simp
    · obtain ⟨a, ha, h⟩ := replaceFirst_spec (P := fun a b => ∀ i ∈ b.funs, i ∈ a.funs ∨ i ∈ u.funs)
        (fun t i hi => Or.inl hi) ih b hb
      rcases h i hi with h | h
      · exact Or.inl (Or.inr ⟨a, ha, h⟩)
      · exact Or.inr h

theorem replaceSubTermBy_vars {m : Nat} {u t : Term} (hu : u.vars = []) :
    ∀ i ∈ (Term.replaceSubTermBy (.mv m) u t).vars, i ∈ t.vars := by
  induction t using Term.ind with
  | var j => simp [Term.replaceSubTermBy, Term.vars]
  | mv j => intro i hi; simp only [Term.replaceSubTermBy] at hi; split at hi <;> simp_all
  | fn p tys args ih =>
    intro i hi
    simp only [Term.replaceSubTermBy, reduceCtorEq, if_false, Term.vars, Term.mem_varsL] at hi ⊢
    obtain ⟨b, hb, hi⟩ := hi
    obtain ⟨a, ha, h⟩ := replaceFirst_spec (P := fun a b => ∀ i ∈ b.vars, i ∈ a.vars)
      (fun t i hi => hi) ih b hb
    exact ⟨a, ha, h i hi⟩

theorem replaceMeta_shape {m : Nat} {u : Term} (hu : u.vars = []) (f : Form) :
    (FO f → FO (f.replaceMetaByTerm m u)) ∧ (f.replaceMetaByTerm m u).binders = f.binders ∧
    (∀ i ∈ (f.replaceMetaByTerm m u).funs, i ∈ f.funs ∨ i ∈ u.funs) ∧
    (∀ i ∈ (f.replaceMetaByTerm m u).fvs, i ∈ f.fvs) ∧
    atomArgs (f.replaceMetaByTerm m u) = (atomArgs f).map (Term.replaceSubTermBy (.mv m) u) := by
  have hl : ∀ fs : List Form, (∀ f ∈ fs, (FO f → FO (f.replaceMetaByTerm m u)) ∧
      (f.replaceMetaByTerm m u).binders = f.binders ∧
      (∀ i ∈ (f.replaceMetaByTerm m u).funs, i ∈ f.funs ∨ i ∈ u.funs) ∧
      (∀ i ∈ (f.replaceMetaByTerm m u).fvs, i ∈ f.fvs) ∧
      atomArgs (f.replaceMetaByTerm m u) = (atomArgs f).map (Term.replaceSubTermBy (.mv m) u)) →
      (FOL fs → FOL (Form.replaceMetaByTermL m u fs)) ∧
      Form.bindersL (Form.replaceMetaByTermL m u fs) = Form.bindersL fs ∧
      (∀ i ∈ Form.funsL (Form.replaceMetaByTermL m u fs), i ∈ Form.funsL fs ∨ i ∈ u.funs) ∧
      (∀ i ∈ Form.fvsL (Form.replaceMetaByTermL m u fs), i ∈ Form.fvsL fs) ∧
      atomArgsL (Form.replaceMetaByTermL m u fs) = (atomArgsL fs).map (Term.replaceSubTermBy (.mv m) u) := by
    intro fs
    induction fs with
    | nil => intro _; simp [Form.replaceMetaByTermL, FOL, Form.bindersL, Form.funsL, Form.fvsL, atomArgsL]
    | cons f fs ih =>
      intro h
      obtain ⟨a, b, d, e, g⟩ := h f (by simp)
      obtain ⟨a', b', d', e', g'⟩ := ih (fun f hf => h f (by simp [hf]))
      refine ⟨?_, ?_, ?_, ?_, ?_⟩
      · rintro ⟨x, y⟩; exact ⟨a x, a' y⟩
      · simp [Form.replaceMetaByTermL, Form.bindersL, b, b']
      · simp only [Form.replaceMetaByTermL, Form.funsL, List.mem_append]
        rintro i (h | h)
        · rcases d i h with h | h <;> simp [h]
        · rcases d' i h with h | h <;> simp [h]
      · simp only [Form.replaceMetaByTermL, Form.fvsL, List.mem_append]
        rintro i (h | h)
        · exact Or.inl (e i h)
        · exact Or.inr (e' i h)
      · simp [Form.replaceMetaByTermL, atomArgsL, g, g']
  induction f using Form.ind with
  | pred p tys args =>
    refine ⟨fun _ => trivial, rfl, ?_, ?_, by simp [Form.replaceMetaByTerm, atomArgs]⟩
    · simp only [Form.replaceMetaByTerm, Form.funs, Term.mem_funsL, exists_mem_map']
      rintro i ⟨a, ha, h⟩
      rcases replaceSubTermBy_funs i h with h | h
      · exact Or.inl ⟨a, ha, h⟩
      · exact Or.inr h
    · simp only [Form.replaceMetaByTerm, Form.fvs, Term.mem_varsL, exists_mem_map']
      rintro i ⟨a, ha, h⟩
      exact ⟨a, ha, replaceSubTermBy_vars hu i h⟩
  | top => simp [Form.replaceMetaByTerm, FO, Form.binders, Form.funs, Form.fvs, atomArgs]
  | bot => simp [Form.replaceMetaByTerm, FO, Form.binders, Form.funs, Form.fvs, atomArgs]
  | neg f ih => exact ih
  | and fs ih => exact hl fs ih
  | or fs ih => exact hl fs ih
  | imp f g ihf ihg =>
    obtain ⟨a, b, d, e, k⟩ := ihf
    obtain ⟨a', b', d', e', k'⟩ := ihg
    refine ⟨fun x => ⟨a x.1, a' x.2⟩, by simp [Form.replaceMetaByTerm, Form.binders, b, b'], ?_, ?_,
      by simp [Form.replaceMetaByTerm, atomArgs, k, k']⟩
    · simp only [Form.replaceMetaByTerm, Form.funs, List.mem_append]
      rintro i (h | h)
      · rcases d i h with h | h <;> simp [h]
      · rcases d' i h with h | h <;> simp [h]
    · simp only [Form.replaceMetaByTerm, Form.fvs, List.mem_append]
      rintro i (h | h)
      · exact Or.inl (e i h)
      · exact Or.inr (e' i h)
  | equ f g ihf ihg =>
    obtain ⟨a, b, d, e, k⟩ := ihf
    obtain ⟨a', b', d', e', k'⟩ := ihg
    refine ⟨fun x => ⟨a x.1, a' x.2⟩, by simp [Form.replaceMetaByTerm, Form.binders, b, b'], ?_, ?_,
      by simp [Form.replaceMetaByTerm, atomArgs, k, k']⟩
    · simp only [Form.replaceMetaByTerm, Form.funs, List.mem_append]
      rintro i (h | h)
      · rcases d i h with h | h <;> simp [h]
      · rcases d' i h with h | h <;> simp [h]
    · simp only [Form.replaceMetaByTerm, Form.fvs, List.mem_append]
      rintro i (h | h)
      · exact Or.inl (e i h)
      · exact Or.inr (e' i h)
  | all vs f ih =>
    obtain ⟨a, b, d, e, k⟩ := ih
    refine ⟨fun x => ⟨x.1, a x.2⟩, by simp [Form.replaceMetaByTerm, Form.binders, b], d, ?_, k⟩
    simp only [Form.replaceMetaByTerm, Form.fvs, List.mem_filter]
    exact fun i h => ⟨e i h.1, h.2⟩
  | ex vs f ih =>
    obtain ⟨a, b, d, e, k⟩ := ih
    refine ⟨fun x => ⟨x.1, a x.2⟩, by simp [Form.replaceMetaByTerm, Form.binders, b], d, ?_, k⟩
    simp only [Form.replaceMetaByTerm, Form.fvs, List.mem_filter]
    exact fun i h => ⟨e i h.1, h.2⟩

end Verif.Search
