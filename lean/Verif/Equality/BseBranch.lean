import Verif.Equality.BseBuild
/-!
# The equality reasoning on a branch (`src/Mods/equality/bse/equality.go`, `equality_rules_reasoning.go`; `src/Search/state.go`)

The problem of a branch is added to a structure which the state of the branch points to, then the structure is solved. The structure is
not emptied, so it also has what was added for the same state before. Copies of the state get a new structure, except with the option
`-increq`: then they share it.
-/

namespace Verif.Equality.Bse

open Verif.Unif Verif.Equality.LPO

/-- `BasicEqualityStruct` (src/Mods/equality/bse/equality_rules_reasoning.go:48-51): assumptions and goals. -/
structure Store where
  E : List (UT × UT) := []
  G : List (List (UT × UT)) := []

/-- `Glob.List.AppendIfNotContains` for one element (src/Glob/list.go:282-291). -/
def addOne {α : Type} [DecidableEq α] (l : List α) (x : α) : List α := if x ∈ l then l else l ++ [x]

/-- The loops of `RunEqualityReasoning` with `AddAssumption` and `AddGoal` (src/Mods/equality/bse/equality_rules_reasoning.go:126-138,
57-66). -/
def Store.add (s : Store) (E : List (UT × UT)) (gss : List (List (UT × UT))) : Store :=
  ⟨E.foldl addOne s.E, gss.foldl (fun G g => addOne G (g.foldl addOne [])) s.G⟩

/-- `EqualityReasoning` (src/Mods/equality/bse/equality.go:107-115) with `RunEqualityReasoning`
(src/Mods/equality/bse/equality_rules_reasoning.go:125-142): the answer, the substitutions and the structure afterwards. `epml[0][0]` panics when
the first list of goals is empty. -/
def Reason (pr : Nat → Nat → Ordering) (au : AU) (n eq : Nat) (used : List Nat) (ty0 ty1 : Nat) (fl : List Atom) (tp tn : Node Instr Atom)
    (s : Store) (b : Bool) (res : List Subst) (s' : Store) : Prop :=
  ∃ E gss flag, Build au n eq used ty0 ty1 fl tp tn E gss flag ∧
    ((flag = false ∧ b = false ∧ res = [] ∧ s' = s) ∨
      (flag = true ∧ gss.head? ≠ some [] ∧ s' = s.add E gss ∧ Solve pr au n s'.E s'.G [] b res))

/-! ### Specification -/

/-- Truth of an atom, where types are ignored. -/
def Holds (eq : Nat) {D : Type} (A : Alg D) (I : Nat → List D → Prop) (σ : Nat → D) (a : Atom) : Prop :=
  if a.p = eq then (sides a).1.eval A σ = (sides a).2.eval A σ else I a.p (a.args.map (UT.eval A σ))

/-- The positive literals are true and the negated ones are false. -/
def Model (eq : Nat) {D : Type} (A : Alg D) (I : Nat → List D → Prop) (σ : Nat → D) (pos neg : List Atom) : Prop :=
  (∀ f ∈ pos, Holds eq A I σ f) ∧ ∀ f ∈ neg, ¬ Holds eq A I σ f

/-- The structure has only equalities and goals of the branch, and no equality twice. -/
structure Store.Of (s : Store) (eq : Nat) (pos neg : List Atom) : Prop where
  eqs : ∀ e ∈ s.E, e ∈ eqsOf eq pos
  goals : ∀ g ∈ s.G, ∃ g' ∈ goalsOf eq pos neg, ∀ x, x ∈ g ↔ x ∈ g'
  nodup : s.E.Nodup

/-- What is known of a branch: its literals, of which `pos` and `neg` were put into the two indexes, one list after the other, and `fl` is the list of
the positive ones; there is an equality, and no literal beside its negation (such a branch is closed before). The indices of the type
metavariables are not those of metavariables of the literals (else see C73). -/
structure BranchOk (ar : Nat → Nat) (eq : Nat) (used : List Nat) (ty0 ty1 : Nat) (fl : List Atom) (pos neg : List (List Atom)) (tp tn : Node Instr Atom) :
    Prop where
  tp : pos.foldlM (fun n l => n.addAtoms l) Node.empty = some tp
  tn : neg.foldlM (fun n l => n.addAtoms l) Node.empty = some tn
  fl : ∀ a, a ∈ fl ↔ a ∈ pos.flatten
  lp : Literals ar eq used pos.flatten
  ln : Literals ar eq used neg.flatten
  t0 : ty0 ∈ used ∧ ∀ f ∈ pos.flatten, ty0 ∉ UT.occL f.args
  t1 : ty1 ∈ used ∧ ∀ f ∈ neg.flatten, ty1 ∉ UT.occL f.args
  eqs : eqsOf eq pos.flatten ≠ []
  open_ : ∀ f ∈ pos.flatten, f ∉ neg.flatten

/-- Each substitution makes the literals contradictory. -/
def Refutes (eq : Nat) (pos neg : List Atom) (res : List Subst) : Prop :=
  ∀ ρ ∈ res, ∀ (D : Type) (A : Alg D) (I : Nat → List D → Prop) (σ : Nat → D), Subst.Sol A σ ρ → ¬ Model eq A I σ pos neg

/-- **C75, as a user would have it.** For every branch: the reasoning ends; if it succeeds there is a substitution, and each substitution makes the
literals contradictory; and it succeeds if they are contradictory as they stand. -/
def C75_statement : Prop := ∀ (ar : Nat → Nat) (name : Names) (n eq : Nat) (used : List Nat) (ty0 ty1 : Nat) (fl : List Atom) (pos neg : List (List Atom))
    (tp tn : Node Instr Atom) (s : Store), BranchOk ar eq used ty0 ty1 fl pos neg tp tn → s.Of eq pos.flatten neg.flatten →
    (∃ b res s', Reason (compareWith name) (addUnification (n + 3)) (n + 3) eq used ty0 ty1 fl tp tn s b res s') ∧
    ∀ b res s', Reason (compareWith name) (addUnification (n + 3)) (n + 3) eq used ty0 ty1 fl tp tn s b res s' →
      (b = true → res ≠ []) ∧ Refutes eq pos.flatten neg.flatten res ∧
      ((∀ (D : Type) (A : Alg D) (I : Nat → List D → Prop) (σ : Nat → D), ¬ Model eq A I σ pos.flatten neg.flatten) → b = true)

/-! ### What is in the structure -/

theorem mem_addOne {α : Type} [DecidableEq α] {l : List α} {x y : α} : y ∈ addOne l x ↔ y ∈ l ∨ y = x := by
  unfold addOne
  split
  · rename_i h
    exact ⟨Or.inl, fun h' => h'.elim id fun e => e ▸ h⟩
  · simp

theorem mem_foldl_addOne {α : Type} [DecidableEq α] {m l : List α} {y : α} : y ∈ m.foldl addOne l ↔ y ∈ l ∨ y ∈ m := by
  induction m generalizing l with
  | nil => simp
  | cons x m ih => rw [List.foldl_cons, ih, mem_addOne, List.mem_cons, or_assoc]

theorem nodup_foldl_addOne {α : Type} [DecidableEq α] {m l : List α} (h : l.Nodup) : (m.foldl addOne l).Nodup := by
  induction m generalizing l with
  | nil => exact h
  | cons x m ih =>
    refine ih ?_
    unfold addOne
    split
    · exact h
    · rename_i hx
      exact List.nodup_append.2 ⟨h, by simp, fun a ha b hb e => hx (by obtain rfl := List.mem_singleton.1 hb; exact e ▸ ha)⟩

theorem mem_foldl_goal {m l : List (List (UT × UT))} {g : List (UT × UT)} :
    g ∈ m.foldl (fun G g => addOne G (g.foldl addOne [])) l ↔ g ∈ l ∨ ∃ g' ∈ m, g = g'.foldl addOne [] := by
  induction m generalizing l with
  | nil => simp
  | cons x m ih =>
    rw [List.foldl_cons, ih, mem_addOne]
    simp only [List.mem_cons, exists_eq_or_imp, or_assoc]

theorem mem_eqsOf {eq : Nat} {l : List Atom} {e : UT × UT} : e ∈ eqsOf eq l ↔ ∃ f ∈ l, f.p = eq ∧ sides f = e := by
  simp [eqsOf, and_assoc]

theorem mem_goalsOf {eq : Nat} {fl neg : List Atom} {g : List (UT × UT)} : g ∈ goalsOf eq fl neg ↔
    (∃ f ∈ neg, f.p = eq ∧ g = [sides f]) ∨ ∃ a ∈ fl, a.p ≠ eq ∧ ∃ f ∈ neg, f.p = a.p ∧ g = a.args.zip f.args := by
  simp only [goalsOf, List.mem_append, List.mem_map, mem_eqsOf, List.mem_flatMap, List.mem_filter, List.mem_dedup, decide_eq_true_eq, and_assoc]
  refine or_congr ⟨?_, ?_⟩ ⟨?_, ?_⟩
  · rintro ⟨_, ⟨f, h1, h2, rfl⟩, rfl⟩
    exact ⟨f, h1, h2, rfl⟩
  · rintro ⟨f, h1, h2, rfl⟩
    exact ⟨_, ⟨f, h1, h2, rfl⟩, rfl⟩
  · rintro ⟨a, h1, h2, f, h3, h4, rfl⟩
    exact ⟨a, h1, h2, f, h3, h4, rfl⟩
  · rintro ⟨a, h1, h2, f, h3, h4, rfl⟩
    exact ⟨a, h1, h2, f, h3, h4, rfl⟩

theorem Store.Of.mono {s : Store} {eq : Nat} {pos neg pos' neg' : List Atom} (h : s.Of eq pos neg) (hp : ∀ f ∈ pos, f ∈ pos')
    (hn : ∀ f ∈ neg, f ∈ neg') : s.Of eq pos' neg' := by
  refine ⟨fun e he => ?_, fun g hg => ?_, h.nodup⟩
  · obtain ⟨f, h1, h2⟩ := mem_eqsOf.1 (h.eqs e he)
    exact mem_eqsOf.2 ⟨f, hp f h1, h2⟩
  · obtain ⟨g', h1, h2⟩ := h.goals g hg
    refine ⟨g', mem_goalsOf.2 ?_, h2⟩
    rcases mem_goalsOf.1 h1 with ⟨f, h3, h4⟩ | ⟨a, h3, h4, f, h5, h6⟩
    · exact Or.inl ⟨f, hn f h3, h4⟩
    · exact Or.inr ⟨a, hp a h3, h4, f, hn f h5, h6⟩

theorem Store.Of.add {s : Store} {eq : Nat} {pos neg : List Atom} (h : s.Of eq pos neg) {E : List (UT × UT)} {gss : List (List (UT × UT))}
    (hE : ∀ e, e ∈ E ↔ e ∈ eqsOf eq pos) (hG : ∀ g, g ∈ gss ↔ g ∈ goalsOf eq pos neg) :
    (s.add E gss).Of eq pos neg ∧ (∀ e ∈ eqsOf eq pos, e ∈ (s.add E gss).E) ∧ ∀ g' ∈ goalsOf eq pos neg, ∃ g ∈ (s.add E gss).G, ∀ x, x ∈ g ↔ x ∈ g' := by
  refine ⟨⟨fun e he => ?_, fun g hg => ?_, nodup_foldl_addOne h.nodup⟩, fun e he => ?_, fun g' hg' => ?_⟩
  · exact (mem_foldl_addOne.1 he).elim (h.eqs e) (hE e).1
  · rcases mem_foldl_goal.1 hg with hg | ⟨g', h1, rfl⟩
    · exact h.goals g hg
    · exact ⟨g', (hG g').1 h1, fun x => by simp [mem_foldl_addOne]⟩
  · exact mem_foldl_addOne.2 (Or.inr ((hE e).2 he))
  · exact ⟨_, mem_foldl_goal.2 (Or.inr ⟨g', (hG g').2 hg', rfl⟩), fun x => by simp [mem_foldl_addOne]⟩

/-! ### Contradictory literals and goals that follow -/

theorem zip_all {α β : Type} {P : α × α → Prop} (l m : List α) (f : α → β) (hP : ∀ a b, f a = f b → P (a, b)) (h : l.map f = m.map f) :
    ∀ x ∈ l.zip m, P x := by
  induction l generalizing m with
  | nil => simp
  | cons a l ih =>
    cases m with
    | nil => simp
    | cons b m =>
      simp only [List.map_cons, List.cons.injEq] at h
      simp only [List.zip_cons_cons, List.mem_cons, forall_eq_or_imp]
      exact ⟨hP a b h.1, ih m h.2⟩

theorem zip_map_eq {α β : Type} (l m : List α) (f : α → β) (hl : l.length = m.length) (h : ∀ x ∈ l.zip m, f x.1 = f x.2) : l.map f = m.map f := by
  induction l generalizing m with
  | nil =>
    cases m with
    | nil => rfl
    | cons b m => simp at hl
  | cons a l ih =>
    cases m with
    | nil => simp at hl
    | cons b m =>
      simp only [List.zip_cons_cons, List.mem_cons, forall_eq_or_imp] at h
      simp only [List.map_cons, h.1, ih m (by simpa using hl) h.2]

theorem lengths {ar : Nat → Nat} {a f : Atom} (ha : a.term.Ar ar) (hf : f.term.Ar ar) (h : f.p = a.p) : a.args.length = f.args.length := by
  have h1 := ha.1
  have h2 := hf.1
  rw [h] at h2
  exact h1.trans h2.symm

/-- If the equations of a goal hold, then the literals do not. -/
theorem no_model {ar : Nat → Nat} {eq : Nat} {pos neg : List Atom} (hp : ∀ f ∈ pos, f.term.Ar ar) (hn : ∀ f ∈ neg, f.term.Ar ar)
    {g : List (UT × UT)} (hg : g ∈ goalsOf eq pos neg) {D : Type} {A : Alg D} {I : Nat → List D → Prop} {σ : Nat → D}
    (h : ∀ x ∈ g, x.1.eval A σ = x.2.eval A σ) : ¬ Model eq A I σ pos neg := by
  rintro ⟨m1, m2⟩
  rcases mem_goalsOf.1 hg with ⟨f, h1, h2, rfl⟩ | ⟨a, h1, h2, f, h3, h4, rfl⟩
  · refine m2 f h1 ?_
    simp only [Holds, h2, if_true]
    exact h _ (by simp)
  · refine m2 f h3 ?_
    have ha := m1 a h1
    have e : ¬ f.p = eq := fun e => h2 (h4.symm.trans e)
    simp only [Holds, h2, if_false] at ha
    simp only [Holds, e, if_false]
    rw [h4, ← zip_map_eq _ _ _ (lengths (hp a h1) (hn f h3) h4) h]
    exact ha

/-- The equalities hold in a model of the positive literals. -/
theorem Model.eqs {eq : Nat} {pos neg : List Atom} {D : Type} {A : Alg D} {I : Nat → List D → Prop} {σ : Nat → D} (h : Model eq A I σ pos neg) :
    ∀ e ∈ eqsOf eq pos, e.1.eval A σ = e.2.eval A σ := by
  intro e he
  obtain ⟨f, h1, h2, rfl⟩ := mem_eqsOf.1 he
  have := h.1 f h1
  simpa only [Holds, h2, if_true] using this

/-- Terms up to the equalities. -/
def eqSetoid (E : List (UT × UT)) : Setoid UT where
  r := Entails E
  iseqv := ⟨fun _ _ _ _ _ => rfl, fun h D A σ hE => (h D A σ hE).symm, fun h1 h2 D A σ hE => (h1 D A σ hE).trans (h2 D A σ hE)⟩

noncomputable def eqAlg (E : List (UT × UT)) : Alg (Quotient (eqSetoid E)) := fun p ds => Quotient.mk _ (.fn p (ds.map Quotient.out))

theorem eval_eqAlg (E : List (UT × UT)) (t : UT) : t.eval (eqAlg E) (fun i => Quotient.mk (eqSetoid E) (.mv i)) = Quotient.mk (eqSetoid E) t := by
  induction t using UT.ind with
  | mv i => rfl
  | fn p l ih =>
    have e : UT.evalL (eqAlg E) (fun i => Quotient.mk (eqSetoid E) (.mv i)) l = l.map (Quotient.mk (eqSetoid E)) := by
      rw [UT.evalL_eq]
      exact List.map_congr_left ih
    show eqAlg E p (UT.evalL _ _ l) = _
    rw [e]
    refine Quotient.sound fun D A σ hE => ?_
    simp only [UT.eval, UT.evalL_eq, List.map_map]
    congr 1
    refine List.map_congr_left fun a _ => ?_
    have h : Entails E (Quotient.out (Quotient.mk (eqSetoid E) a)) a := Quotient.exact (Quotient.out_eq (Quotient.mk (eqSetoid E) a))
    exact h D A σ hE

/-- Literals are contradictory exactly if one of the goals follows from the equalities. -/
theorem contradictory_iff {ar : Nat → Nat} {eq : Nat} {pos neg : List Atom} (hp : ∀ f ∈ pos, f.term.Ar ar) (hn : ∀ f ∈ neg, f.term.Ar ar) :
    (∀ (D : Type) (A : Alg D) (I : Nat → List D → Prop) (σ : Nat → D), ¬ Model eq A I σ pos neg) ↔
      ∃ g ∈ goalsOf eq pos neg, ∀ x ∈ g, Entails (eqsOf eq pos) x.1 x.2 := by
  constructor
  · intro h
    refine Classical.byContradiction fun hc => ?_
    let σ : Nat → Quotient (eqSetoid (eqsOf eq pos)) := fun i => Quotient.mk _ (.mv i)
    have hE : ∀ u v : UT, u.eval (eqAlg (eqsOf eq pos)) σ = v.eval (eqAlg (eqsOf eq pos)) σ ↔ Entails (eqsOf eq pos) u v := by
      intro u v
      rw [eval_eqAlg, eval_eqAlg]
      exact ⟨fun h => Quotient.exact h, fun h => Quotient.sound h⟩
    refine h _ (eqAlg (eqsOf eq pos)) (fun p ds => ∃ a ∈ pos, a.p ≠ eq ∧ a.p = p ∧ a.args.map (UT.eval (eqAlg (eqsOf eq pos)) σ) = ds) σ ⟨fun f hf => ?_, fun f hf hh => ?_⟩
    · by_cases e : f.p = eq
      · simp only [Holds, e, if_true]
        exact (hE _ _).2 fun D A τ hh => hh _ (mem_eqsOf.2 ⟨f, hf, e, rfl⟩)
      · simp only [Holds, e, if_false]
        exact ⟨f, hf, e, rfl, rfl⟩
    · by_cases e : f.p = eq
      · simp only [Holds, e, if_true] at hh
        refine hc ⟨_, mem_goalsOf.2 (Or.inl ⟨f, hf, e, rfl⟩), fun x hx => ?_⟩
        obtain rfl := List.mem_singleton.1 hx
        exact (hE _ _).1 hh
      · simp only [Holds, e, if_false] at hh
        obtain ⟨a, h1, h2, h3, h4⟩ := hh
        refine hc ⟨_, mem_goalsOf.2 (Or.inr ⟨a, h1, h2, f, hf, h3.symm, rfl⟩), ?_⟩
        exact zip_all (P := fun x => Entails (eqsOf eq pos) x.1 x.2) _ _ _ (fun u v => (hE u v).1) h4
  · rintro ⟨g, hg, h⟩ D A I σ hm
    exact no_model hp hn hg (fun x hx => h x hx D A σ hm.eqs) hm

/-! ### The reasoning -/

variable {ar : Nat → Nat} {eq : Nat} {used : List Nat} {ty0 ty1 : Nat} {fl : List Atom} {pos neg : List (List Atom)} {tp tn : Node Instr Atom}

theorem goalsOf_fl (h : ∀ a, a ∈ fl ↔ a ∈ pos.flatten) {g : List (UT × UT)} :
    g ∈ goalsOf eq fl neg.flatten ↔ g ∈ goalsOf eq pos.flatten neg.flatten := by
  simp only [mem_goalsOf, h]

theorem BranchOk.lf (H : BranchOk ar eq used ty0 ty1 fl pos neg tp tn) : Literals ar eq used fl :=
  ⟨fun f hf => H.lp.ar f ((H.fl f).1 hf), fun f hf => H.lp.eq f ((H.fl f).1 hf), fun f hf => H.lp.used f ((H.fl f).1 hf)⟩

theorem BranchOk.exact (H : BranchOk ar eq used ty0 ty1 fl pos neg tp tn) (n : Nat) :
    Exact (addUnification (n + 3)) (n + 3) eq used ty0 ty1 fl tp tn pos.flatten neg.flatten :=
  C73_partial ar n eq used ty0 ty1 fl pos neg tp tn H.tp H.tn H.lp H.ln H.lf H.t0.1 H.t1.1 H.t0.2 H.t1.2

theorem BranchOk.goal_ne (H : BranchOk ar eq used ty0 ty1 fl pos neg tp tn) {g : List (UT × UT)} (hg : g ∈ goalsOf eq pos.flatten neg.flatten) : g ≠ [] := by
  rcases mem_goalsOf.1 hg with ⟨f, _, _, rfl⟩ | ⟨a, h1, _, f, h3, h4, rfl⟩
  · simp
  · intro e
    have hl := lengths (H.lp.ar a h1) (H.ln.ar f h3) h4
    obtain ⟨ap, aa⟩ := a
    obtain ⟨fp, fa⟩ := f
    simp only at h4 hl e
    subst h4
    have : aa = [] ∧ fa = [] := by
      cases aa with
      | nil => exact ⟨rfl, List.length_eq_zero_iff.1 hl.symm⟩
      | cons x aa =>
        cases fa with
        | nil => simp at hl
        | cons y fa => simp at e
    obtain ⟨rfl, rfl⟩ := this
    exact H.open_ _ h1 h3

/-- A structure with the equalities and the goals of the branch. -/
structure Store.Full (s : Store) (eq : Nat) (pos neg : List Atom) : Prop where
  of : s.Of eq pos neg
  E : ∀ e ∈ eqsOf eq pos, e ∈ s.E
  G : ∀ g' ∈ goalsOf eq pos neg, ∃ g ∈ s.G, ∀ x, x ∈ g ↔ x ∈ g'

/-- A call of the reasoning is a call of `Solve` on the equalities and goals of the branch. -/
theorem reason_iff (H : BranchOk ar eq used ty0 ty1 fl pos neg tp tn) {s : Store} (hs : s.Of eq pos.flatten neg.flatten) (n : Nat) {pr : Nat → Nat → Ordering} :
    (goalsOf eq pos.flatten neg.flatten = [] ∧ (∃ b res s', Reason pr (addUnification (n + 3)) (n + 3) eq used ty0 ty1 fl tp tn s b res s') ∧
      ∀ b res s', Reason pr (addUnification (n + 3)) (n + 3) eq used ty0 ty1 fl tp tn s b res s' → b = false ∧ res = [] ∧ s' = s) ∨
    (goalsOf eq pos.flatten neg.flatten ≠ [] ∧
      (∃ s' : Store, s'.Full eq pos.flatten neg.flatten ∧ ∀ b res, Solve pr (addUnification (n + 3)) (n + 3) s'.E s'.G [] b res →
        Reason pr (addUnification (n + 3)) (n + 3) eq used ty0 ty1 fl tp tn s b res s') ∧
      ∀ b res s', Reason pr (addUnification (n + 3)) (n + 3) eq used ty0 ty1 fl tp tn s b res s' →
        s'.Full eq pos.flatten neg.flatten ∧ Solve pr (addUnification (n + 3)) (n + 3) s'.E s'.G [] b res) := by
  obtain ⟨⟨E, gss, flag, hB⟩, hx⟩ := H.exact n
  have full : ∀ E gss flag, Build (addUnification (n + 3)) (n + 3) eq used ty0 ty1 fl tp tn E gss flag →
      (s.add E gss).Full eq pos.flatten neg.flatten ∧ (∀ g ∈ gss, g ≠ []) ∧ (flag = true ↔ goalsOf eq pos.flatten neg.flatten ≠ []) := by
    intro E gss flag hB
    obtain ⟨h1, h2, h3⟩ := hx E gss flag hB
    have hE : E ≠ [] := fun e => H.eqs (List.Perm.eq_nil (e ▸ h1.symm))
    have hm : ∀ g, g ∈ gss ↔ g ∈ goalsOf eq pos.flatten neg.flatten := fun g => (h2 hE).mem_iff.trans (goalsOf_fl H.fl)
    obtain ⟨f1, f2, f3⟩ := hs.add (fun e => h1.mem_iff) hm
    refine ⟨⟨f1, f2, f3⟩, fun g hg => H.goal_ne ((hm g).1 hg), h3.trans ?_⟩
    have : goalsOf eq fl neg.flatten ≠ [] ↔ goalsOf eq pos.flatten neg.flatten ≠ [] := by
      constructor
      · intro h e
        obtain ⟨g, hg⟩ := List.exists_mem_of_ne_nil _ h
        have := (goalsOf_fl H.fl).1 hg
        rw [e] at this
        cases this
      · intro h e
        obtain ⟨g, hg⟩ := List.exists_mem_of_ne_nil _ h
        have := (goalsOf_fl H.fl).2 hg
        rw [e] at this
        cases this
    exact ⟨fun h => this.1 h.2, fun h => ⟨H.eqs, this.2 h⟩⟩
  by_cases hg : goalsOf eq pos.flatten neg.flatten = []
  · refine Or.inl ⟨hg, ?_, ?_⟩
    · obtain ⟨-, -, f3⟩ := full E gss flag hB
      have : flag = false := by
        cases flag with
        | false => rfl
        | true => exact absurd hg (f3.1 rfl)
      exact ⟨false, [], s, E, gss, flag, hB, Or.inl ⟨this, rfl, rfl, rfl⟩⟩
    · rintro b res s' ⟨E, gss, flag, hB, ⟨_, h1, h2, h3⟩ | ⟨hf, _⟩⟩
      · exact ⟨h1, h2, h3⟩
      · exact absurd hg ((full E gss flag hB).2.2.1 hf)
  · refine Or.inr ⟨hg, ⟨s.add E gss, (full E gss flag hB).1, fun b res h => ⟨E, gss, flag, hB, Or.inr ⟨(full E gss flag hB).2.2.2 hg, ?_, rfl, h⟩⟩⟩, ?_⟩
    · intro e
      exact (full E gss flag hB).2.1 [] (List.mem_of_mem_head? e) rfl
    · rintro b res s' ⟨E, gss, flag, hB, ⟨hf, _⟩ | ⟨_, _, rfl, h⟩⟩
      · rw [(full E gss flag hB).2.2.2 hg] at hf
        cases hf
      · exact ⟨(full E gss flag hB).1, h⟩

theorem entails_congr {E E' : List (UT × UT)} (h : ∀ e, e ∈ E ↔ e ∈ E') {u v : UT} : Entails E u v ↔ Entails E' u v := by
  simp only [Entails, h]

theorem Store.Full.mem {s : Store} {P N : List Atom} (h : s.Full eq P N) (e : UT × UT) : e ∈ s.E ↔ e ∈ eqsOf eq P := ⟨h.of.eqs e, h.E e⟩

/-- A goal of the structure follows exactly if one of the branch does. -/
theorem Store.Full.solvable {s : Store} {P N : List Atom} (h : s.Full eq P N) :
    (∃ g ∈ s.G, ∀ x ∈ g, Entails s.E x.1 x.2) ↔ ∃ g ∈ goalsOf eq P N, ∀ x ∈ g, Entails (eqsOf eq P) x.1 x.2 := by
  constructor
  · rintro ⟨g, hg, hx⟩
    obtain ⟨g', h1, h2⟩ := h.of.goals g hg
    exact ⟨g', h1, fun x hx' => (entails_congr h.mem).1 (hx x ((h2 x).2 hx'))⟩
  · rintro ⟨g', hg', hx⟩
    obtain ⟨g, h1, h2⟩ := h.G g' hg'
    exact ⟨g, h1, fun x hx' => (entails_congr h.mem).2 (hx x ((h2 x).1 hx'))⟩

theorem goalList_ne {pr : Nat → Nat → Ordering} {au : AU} {n : Nat} {E gs : List (UT × UT)} {sl : List Subst} {res : Option (List Subst)}
    (h : GoalList pr au n E gs sl res) : ∀ ss, res = some ss → (gs ≠ [] ∨ sl ≠ []) → ss ≠ [] := by
  induction h with
  | done =>
    intro ss e h
    cases e
    exact h.resolve_left (fun h => h rfl)
  | step h hne hr ih => exact fun ss e _ => ih ss e (Or.inr hne)
  | stuck => intro ss e; cases e

theorem addSubst_ne (l : List Subst) (s : Subst) : addSubst l s ≠ [] := by
  unfold addSubst
  split
  · intro e
    subst e
    simp at *
  · simp

theorem foldl_addSubst_ne_nil (ss acc : List Subst) (h : acc ≠ [] ∨ ss ≠ []) : ss.foldl addSubst acc ≠ [] := by
  induction ss generalizing acc with
  | nil => exact h.resolve_right fun h => h rfl
  | cons s ss ih => exact ih _ (Or.inl (addSubst_ne acc s))

theorem solve_ne {pr : Nat → Nat → Ordering} {au : AU} {n : Nat} {E : List (UT × UT)} {gss : List (List (UT × UT))} {acc res : List Subst} {b : Bool}
    (h : Solve pr au n E gss acc b res) : (∀ g ∈ gss, g ≠ []) → (b = true ∨ acc ≠ [] → res ≠ []) := by
  induction h with
  | done => exact fun _ h => h.resolve_left (by simp)
  | yes h hr ih =>
    exact fun hg _ => ih (fun g h => hg g (by simp [h])) (Or.inr (foldl_addSubst_ne_nil _ _ (Or.inr (goalList_ne h _ rfl (Or.inl (hg _ (by simp)))))))
  | no h hr ih => exact fun hg h => ih (fun g h => hg g (by simp [h])) h

theorem Store.Full.goal_ne (H : BranchOk ar eq used ty0 ty1 fl pos neg tp tn) {s : Store} (h : s.Full eq pos.flatten neg.flatten) : ∀ g ∈ s.G, g ≠ [] := by
  intro g hg e
  obtain ⟨g', h1, h2⟩ := h.of.goals g hg
  obtain ⟨x, hx⟩ := List.exists_mem_of_ne_nil _ (H.goal_ne h1)
  have := (h2 x).2 hx
  rw [e] at this
  cases this

theorem solve_true {pr : Nat → Nat → Ordering} {au : AU} {n : Nat} {E : List (UT × UT)} {gss : List (List (UT × UT))} {acc res : List Subst} {b : Bool}
    (h : Solve pr au n E gss acc b res) : res ≠ [] → b = true ∨ acc ≠ [] := by
  induction h with
  | done => exact Or.inr
  | yes h hr ih => exact fun _ => Or.inl rfl
  | no h hr ih => exact ih

/-- **C75, soundness for some branches.** If the equalities have no metavariables and the second side of each goal has none and is minimal among the
terms equal to it, each substitution makes the literals contradictory. -/
theorem C75_sound_partial (name : Names) (n : Nat) (H : BranchOk ar eq used ty0 ty1 fl pos neg tp tn) {s : Store} (hs : s.Of eq pos.flatten neg.flatten)
    (hE : ∀ e ∈ eqsOf eq pos.flatten, e.1.Gd ar ∧ e.2.Gd ar)
    (hG : ∀ g ∈ goalsOf eq pos.flatten neg.flatten, ∀ x ∈ g, x.2.Gd ar ∧ Minimal ar (compareWith name) (eqsOf eq pos.flatten) x.2) {b : Bool}
    {res : List Subst} {s' : Store} (h : Reason (compareWith name) (addUnification (n + 3)) (n + 3) eq used ty0 ty1 fl tp tn s b res s') :
    (b = true → res ≠ []) ∧ Refutes eq pos.flatten neg.flatten res := by
  rcases reason_iff H hs n (pr := compareWith name) with ⟨-, -, h2⟩ | ⟨-, -, h2⟩
  · obtain ⟨rfl, rfl, -⟩ := h2 b res s' h
    exact ⟨by simp, by simp [Refutes]⟩
  · obtain ⟨hf, hsol⟩ := h2 b res s' h
    refine ⟨fun hb => solve_ne hsol (hf.goal_ne H) (Or.inl hb), fun ρ hρ D A I σ hσ hm => ?_⟩
    have hmin : ∀ gs ∈ s'.G, ∀ g ∈ gs, MinGoal ar name s'.E g := by
      intro gs hgs g hg
      obtain ⟨g', h1, h2⟩ := hf.of.goals gs hgs
      have hg' := (h2 g).1 hg
      obtain ⟨k1, k2⟩ := hG g' h1 g hg'
      refine ⟨?_, k1, fun l r a1 a2 a3 => k2 l r a1 a2 ((entails_congr hf.mem).1 a3)⟩
      rcases mem_goalsOf.1 h1 with ⟨f, f1, f2, rfl⟩ | ⟨a, f1, _, f, _, _, rfl⟩
      · obtain ⟨p, ts, u, v, e⟩ := H.ln.eq f f1 f2
        have := (H.ln.ar f f1).2
        obtain ⟨fp, fa⟩ := f
        simp only at e this
        subst e
        obtain rfl := List.mem_singleton.1 hg'
        exact this.2.1
      · exact UT.ArL_iff.1 (H.lp.ar a f1).2 _ (List.of_mem_zip hg').1
    obtain ⟨gs, hgs, hj⟩ := C69_solve_partial name n (fun e he => hE e (hf.of.eqs e he)) hmin hsol ρ hρ
    obtain ⟨g', h1, h3⟩ := hf.of.goals gs hgs
    refine no_model H.lp.ar H.ln.ar h1 (fun x hx => hj x ((h3 x).2 hx) D A σ hσ fun e he => hm.eqs e (hf.of.eqs e he)) hm

/-- The answer on branches without metavariables. -/
theorem reason_ground (name : Names) (n : Nat) (H : BranchOk ar eq used ty0 ty1 fl pos neg tp tn) {s : Store} (hs : s.Of eq pos.flatten neg.flatten)
    (hE : ∀ e ∈ eqsOf eq pos.flatten, e.1.Gd ar ∧ e.2.Gd ar) (hG : ∀ g ∈ goalsOf eq pos.flatten neg.flatten, ∀ x ∈ g, x.1.Gd ar ∧ x.2.Gd ar) :
    (∃ b res s', Reason (compareWith name) (addUnification (n + 3)) (n + 3) eq used ty0 ty1 fl tp tn s b res s') ∧
    ∀ b res s', Reason (compareWith name) (addUnification (n + 3)) (n + 3) eq used ty0 ty1 fl tp tn s b res s' →
      (b = true ↔ res ≠ []) ∧ (∀ ρ ∈ res, ρ = []) ∧
      ∃ E : List (UT × UT), E.Nodup ∧ (∀ e, e ∈ E ↔ e ∈ eqsOf eq pos.flatten) ∧ (b = true ↔ ∃ g ∈ goalsOf eq pos.flatten neg.flatten, ∀ x ∈ g, Derives (compareWith name) ⟨E, x.1, x.2, {}⟩ none) := by
  have gg : ∀ {s' : Store}, s'.Full eq pos.flatten neg.flatten → GroundGoals ar s'.E s'.G := by
    intro s' hf
    refine ⟨fun e he => hE e (hf.of.eqs e he), fun g hg e he => ?_⟩
    obtain ⟨g', h1, h2⟩ := hf.of.goals g hg
    exact hG g' h1 e ((h2 e).1 he)
  rcases reason_iff H hs n (pr := compareWith name) with ⟨h0, h1, h2⟩ | ⟨-, ⟨s', hf, h1⟩, h2⟩
  · refine ⟨h1, fun b res s' h => ?_⟩
    obtain ⟨rfl, rfl, -⟩ := h2 b res s' h
    exact ⟨by simp, by simp, _, (eqsOf eq pos.flatten).nodup_dedup, fun e => List.mem_dedup, by simp [h0]⟩
  · constructor
    · obtain ⟨b, res, h⟩ := solve_total (C38_precedence name) n (gg hf) []
      exact ⟨b, res, s', h1 b res h⟩
    · intro b res s' h
      obtain ⟨hf, hsol⟩ := h2 b res s' h
      obtain ⟨k1, k2⟩ := solve_ground (C38_precedence name) (gg hf) (by simp) hsol
      refine ⟨⟨fun hb => solve_ne hsol (hf.goal_ne H) (Or.inl hb), fun h => (solve_true hsol h).resolve_right (by simp)⟩, k1, s'.E, hf.of.nodup, hf.mem, k2.trans ⟨?_, ?_⟩⟩
      · rintro ⟨g, hg, hx⟩
        obtain ⟨g', f1, f2⟩ := hf.of.goals g hg
        exact ⟨g', f1, fun x h => hx x ((f2 x).2 h)⟩
      · rintro ⟨g', hg', hx⟩
        obtain ⟨g, f1, f2⟩ := hf.G g' hg'
        exact ⟨g, f1, fun x h => hx x ((f2 x).1 h)⟩

/-- **C75, exactly for some branches.** For literals without metavariables, whose equalities, read from the bigger to the smaller side, give unique normal
forms, and whose goals have a normal form as second side: the reasoning ends, and succeeds exactly if the literals are contradictory. -/
theorem C75_exact_partial (name : Names) (n : Nat) (H : BranchOk ar eq used ty0 ty1 fl pos neg tp tn) {s : Store} (hs : s.Of eq pos.flatten neg.flatten)
    (hE : ∀ e ∈ eqsOf eq pos.flatten, e.1.Gd ar ∧ e.2.Gd ar) (hG : ∀ g ∈ goalsOf eq pos.flatten neg.flatten, ∀ x ∈ g, x.1.Gd ar ∧ x.2.Gd ar)
    (hcv : Convergent ar (compareWith name) (eqsOf eq pos.flatten))
    (hi : ∀ g ∈ goalsOf eq pos.flatten neg.flatten, ∀ x ∈ g, Irred (compareWith name) (eqsOf eq pos.flatten) x.2) :
    (∃ b res s', Reason (compareWith name) (addUnification (n + 3)) (n + 3) eq used ty0 ty1 fl tp tn s b res s') ∧
    ∀ b res s', Reason (compareWith name) (addUnification (n + 3)) (n + 3) eq used ty0 ty1 fl tp tn s b res s' →
      (b = true → res ≠ []) ∧ Refutes eq pos.flatten neg.flatten res ∧
      (b = true ↔ ∀ (D : Type) (A : Alg D) (I : Nat → List D → Prop) (σ : Nat → D), ¬ Model eq A I σ pos.flatten neg.flatten) := by
  obtain ⟨h1, h2⟩ := reason_ground name n H hs hE hG
  refine ⟨h1, fun b res s' h => ?_⟩
  obtain ⟨k1, k2, E, -, k3, k4⟩ := h2 b res s' h
  have hd : ∀ g ∈ goalsOf eq pos.flatten neg.flatten, ∀ x ∈ g, (Derives (compareWith name) ⟨E, x.1, x.2, {}⟩ none ↔ Entails (eqsOf eq pos.flatten) x.1 x.2) := by
    intro g hg x hx
    have hgp : GroundProblem ar ⟨E, x.1, x.2, {}⟩ := ⟨fun e he => hE e ((k3 e).1 he), (hG g hg x hx).1, (hG g hg x hx).2, rfl⟩
    have eqn : ∀ l r, Eqn E l r ↔ Eqn (eqsOf eq pos.flatten) l r := fun l r => by simp only [Eqn, k3]
    have irr : ∀ u, Irred (compareWith name) E u ↔ Irred (compareWith name) (eqsOf eq pos.flatten) u := fun u => by simp only [Irred, eqn]
    obtain ⟨ss, hl⟩ := C71_answers name n hgp
    refine (launch_ground (C38_precedence name) hgp.g hl).1.symm.trans ((C70_exact_partial name n hgp ?_ ((irr _).2 (hi g hg x hx)) hl).trans (entails_congr k3))
    intro u v a1 a2 a3 a4 a5
    exact hcv u v a1 a2 ((irr u).1 a3) ((irr v).1 a4) ((entails_congr k3).1 a5)
  have hiff : b = true ↔ ∀ (D : Type) (A : Alg D) (I : Nat → List D → Prop) (σ : Nat → D), ¬ Model eq A I σ pos.flatten neg.flatten := by
    rw [k4, contradictory_iff H.lp.ar H.ln.ar]
    constructor
    · rintro ⟨g, hg, hx⟩
      exact ⟨g, hg, fun x h => (hd g hg x h).1 (hx x h)⟩
    · rintro ⟨g, hg, hx⟩
      exact ⟨g, hg, fun x h => (hd g hg x h).2 (hx x h)⟩
  exact ⟨k1.1, fun ρ hρ D A I σ _ => hiff.1 (k1.2 (List.ne_nil_of_mem hρ)) D A I σ, hiff⟩

/-! ### Branches answered wrongly -/

/-- An equality of type `$i`. -/
def eqn (u v : UT) : Atom := ⟨idEq, [io, u, v]⟩

/-- Arities: `=`, and a unary symbol. -/
def arE : Nat → Nat := fun p => if p = idEq then 3 else if p = 9 then 1 else 0

theorem eqn_ok {u v : UT} (hu : u.Gd arE) (hv : v.Gd arE) : (eqn u v).term.Ar arE ∧ UT.occL (eqn u v).args = [] := by
  have h1 : io.Gd arE := gd_fn.2 ⟨rfl, by simp⟩
  refine ⟨⟨rfl, UT.ArL_iff.2 ?_⟩, ?_⟩
  · simp only [eqn, List.mem_cons, List.not_mem_nil, or_false, forall_eq_or_imp, forall_eq]
    exact ⟨h1.1, hu.1, hv.1⟩
  · simp only [eqn, UT.occL, List.append_nil]
    rw [h1.2, hu.2, hv.2]
    rfl

/-- Branches made of equalities and disequalities between ground terms. -/
theorem eqn_branch (P N : List (UT × UT)) (hP : ∀ e ∈ P, e.1.Gd arE ∧ e.2.Gd arE) (hN : ∀ e ∈ N, e.1.Gd arE ∧ e.2.Gd arE) (hne : P ≠ [])
    (ho : ∀ e ∈ P, e ∉ N) : ∃ tp tn, BranchOk arE idEq [0, 1] 0 1 (P.map fun e => eqn e.1 e.2) [P.map fun e => eqn e.1 e.2] [N.map fun e => eqn e.1 e.2] tp tn := by
  obtain ⟨tp, hp, -⟩ := index_built [P.map fun e => eqn e.1 e.2]
  obtain ⟨tn, hn, -⟩ := index_built [N.map fun e => eqn e.1 e.2]
  have lit : ∀ L : List (UT × UT), (∀ e ∈ L, e.1.Gd arE ∧ e.2.Gd arE) → Literals arE idEq [0, 1] (L.map fun e => eqn e.1 e.2) := by
    intro L hL
    refine ⟨fun f hf => ?_, fun f hf _ => ?_, fun f hf z hz => ?_⟩ <;> obtain ⟨e, he, rfl⟩ := List.mem_map.1 hf
    · exact (eqn_ok (hL e he).1 (hL e he).2).1
    · exact ⟨_, _, _, _, rfl⟩
    · rw [(eqn_ok (hL e he).1 (hL e he).2).2] at hz
      cases hz
  have occ : ∀ L : List (UT × UT), (∀ e ∈ L, e.1.Gd arE ∧ e.2.Gd arE) → ∀ (z : Nat), ∀ f ∈ L.map (fun e => eqn e.1 e.2), z ∉ UT.occL f.args := by
    intro L hL z f hf hz
    obtain ⟨e, he, rfl⟩ := List.mem_map.1 hf
    rw [(eqn_ok (hL e he).1 (hL e he).2).2] at hz
    cases hz
  refine ⟨tp, tn, hp, hn, by simp, by simpa using lit P hP, by simpa using lit N hN, ⟨by simp, by simpa using occ P hP 0⟩, ⟨by simp, by simpa using occ N hN 1⟩, ?_, ?_⟩
  · obtain ⟨e, he⟩ := List.exists_mem_of_ne_nil _ hne
    refine List.ne_nil_of_mem (mem_eqsOf.2 ⟨eqn e.1 e.2, ?_, rfl, rfl⟩)
    simp only [List.flatten_cons, List.flatten_nil, List.append_nil]
    exact List.mem_map.2 ⟨e, he, rfl⟩
  · simp only [List.flatten_cons, List.flatten_nil, List.append_nil]
    intro f hf hf'
    obtain ⟨e, he, rfl⟩ := List.mem_map.1 hf
    obtain ⟨e', he', h⟩ := List.mem_map.1 hf'
    simp only [eqn, Atom.mk.injEq, List.cons.injEq, and_true, true_and] at h
    obtain rfl : e' = e := Prod.ext h.1 h.2
    exact ho _ he he'

theorem emptyStore (eq : Nat) (pos neg : List Atom) : (⟨[], []⟩ : Store).Of eq pos neg := ⟨by simp, by simp, by simp⟩

/-- **C75 fails: a branch with a model is closed.** In every run, on the branch with `b = c` and `a ≠ c`. -/
theorem C75_violated_sound (n : Nat) : ∃ tp tn, BranchOk arE idEq [0, 1] 0 1 [eqn kb kc] [[eqn kb kc]] [[eqn ka kc]] tp tn ∧
    (∃ b res s', Reason (compareWith nm) (addUnification (n + 3)) (n + 3) idEq [0, 1] 0 1 [eqn kb kc] tp tn ⟨[], []⟩ b res s') ∧
    (∀ b res s', Reason (compareWith nm) (addUnification (n + 3)) (n + 3) idEq [0, 1] 0 1 [eqn kb kc] tp tn ⟨[], []⟩ b res s' → b = true ∧ [] ∈ res) ∧
    ∃ (A : Alg Bool) (I : Nat → List Bool → Prop) (σ : Nat → Bool), Model idEq A I σ [eqn kb kc] [eqn ka kc] := by
  have g : ∀ p, arE p = 0 → (UT.fn p []).Gd arE := fun p h => gd_fn.2 ⟨by simp [h], by simp⟩
  have hP : ∀ e ∈ [(kb, kc)], e.1.Gd arE ∧ e.2.Gd arE := by simpa using ⟨g 1 rfl, g 2 rfl⟩
  have hN : ∀ e ∈ [(ka, kc)], e.1.Gd arE ∧ e.2.Gd arE := by simpa using ⟨g 0 rfl, g 2 rfl⟩
  obtain ⟨tp, tn, H⟩ := eqn_branch [(kb, kc)] [(ka, kc)] hP hN (by simp) (by simp [ka, kb])
  have hg : goalsOf idEq [eqn kb kc] [eqn ka kc] = [[(ka, kc)]] := by decide +kernel
  have he : eqsOf idEq [eqn kb kc] = [(kb, kc)] := by decide +kernel
  obtain ⟨h1, h2⟩ := reason_ground nm n H (emptyStore _ _ _) (show ∀ e ∈ eqsOf idEq [eqn kb kc], _ by rw [he]; exact hP)
    (show ∀ g ∈ goalsOf idEq [eqn kb kc] [eqn ka kc], ∀ x ∈ g, _ by rw [hg]; simpa using hN (ka, kc) (by simp))
  refine ⟨tp, tn, H, h1, fun b res s' h => ?_, fun p _ => decide (p = 0), fun _ _ => False, fun _ => false, by
    simp [Model, Holds, eqn, sides, UT.eval, ka, kb, kc]⟩
  obtain ⟨k1, k2, E, k3, k4, k5⟩ := h2 b res s' h
  have hE : E = [(kb, kc)] := List.perm_singleton.1 ((List.perm_ext_iff_of_nodup k3 (by simp)).2 fun e => (k4 e).trans (by
    show e ∈ eqsOf idEq [eqn kb kc] ↔ _
    rw [he]))
  subst hE
  have hb : b = true := by
    refine k5.2 ⟨[(ka, kc)], ?_, fun x hx => ?_⟩
    · show _ ∈ goalsOf idEq [eqn kb kc] [eqn ka kc]
      simp [hg]
    · obtain rfl := List.mem_singleton.1 hx
      exact (derivesB_spec (ar := arE) (C38_precedence nm) 3 _ none true (GroundProblem.g ⟨hP, hN (ka, kc) (by simp) |>.1, hN (ka, kc) (by simp) |>.2, rfl⟩) (by decide +kernel)).1 rfl
  refine ⟨hb, ?_⟩
  obtain ⟨ρ, hρ⟩ := List.exists_mem_of_ne_nil _ (k1.1 hb)
  exact k2 ρ hρ ▸ hρ

/-- **C75 fails: a contradictory branch is not closed.** In no run, on the branch with `b = d`, `a = d` and `b ≠ a`. -/
theorem C75_violated_complete (n : Nat) : ∃ tp tn, BranchOk arE idEq [0, 1] 0 1 [eqn kb kd, eqn ka kd] [[eqn kb kd, eqn ka kd]] [[eqn kb ka]] tp tn ∧
    (∃ b res s', Reason (compareWith nm) (addUnification (n + 3)) (n + 3) idEq [0, 1] 0 1 [eqn kb kd, eqn ka kd] tp tn ⟨[], []⟩ b res s') ∧
    (∀ b res s', Reason (compareWith nm) (addUnification (n + 3)) (n + 3) idEq [0, 1] 0 1 [eqn kb kd, eqn ka kd] tp tn ⟨[], []⟩ b res s' → b = false) ∧
    ∀ (D : Type) (A : Alg D) (I : Nat → List D → Prop) (σ : Nat → D), ¬ Model idEq A I σ [eqn kb kd, eqn ka kd] [eqn kb ka] := by
  have g : ∀ p, arE p = 0 → (UT.fn p []).Gd arE := fun p h => gd_fn.2 ⟨by simp [h], by simp⟩
  have hP : ∀ e ∈ [(kb, kd), (ka, kd)], e.1.Gd arE ∧ e.2.Gd arE := by simpa using ⟨⟨g 1 rfl, g 3 rfl⟩, g 0 rfl, g 3 rfl⟩
  have hN : ∀ e ∈ [(kb, ka)], e.1.Gd arE ∧ e.2.Gd arE := by simpa using ⟨g 1 rfl, g 0 rfl⟩
  obtain ⟨tp, tn, H⟩ := eqn_branch [(kb, kd), (ka, kd)] [(kb, ka)] hP hN (by simp) (by simp [ka, kb, kd])
  have hg : goalsOf idEq [eqn kb kd, eqn ka kd] [eqn kb ka] = [[(kb, ka)]] := by decide +kernel
  have he : eqsOf idEq [eqn kb kd, eqn ka kd] = [(kb, kd), (ka, kd)] := by decide +kernel
  obtain ⟨h1, h2⟩ := reason_ground nm n H (emptyStore _ _ _) (show ∀ e ∈ eqsOf idEq [eqn kb kd, eqn ka kd], _ by rw [he]; exact hP)
    (show ∀ g ∈ goalsOf idEq [eqn kb kd, eqn ka kd] [eqn kb ka], ∀ x ∈ g, _ by rw [hg]; simpa using hN (kb, ka) (by simp))
  refine ⟨tp, tn, H, h1, fun b res s' h => ?_, fun D A I σ hm => ?_⟩
  · obtain ⟨-, -, E, k3, k4, k5⟩ := h2 b res s' h
    have hp : E.Perm [(kb, kd), (ka, kd)] := (List.perm_ext_iff_of_nodup k3 (by simp [ka, kb])).2 fun e => (k4 e).trans (by
      show e ∈ eqsOf idEq [eqn kb kd, eqn ka kd] ↔ _
      rw [he])
    have hE : E = [(kb, kd), (ka, kd)] ∨ E = [(ka, kd), (kb, kd)] := by
      match E, hp.length_eq with
      | [x, y], _ =>
        have hx : x = (kb, kd) ∨ x = (ka, kd) := by simpa using hp.mem_iff.1 (List.mem_cons_self (a := x) (l := [y]))
        rcases hx with rfl | rfl
        · exact Or.inl (by rw [List.perm_singleton.1 ((List.perm_cons _).1 hp)])
        · exact Or.inr (by rw [List.perm_singleton.1 ((List.perm_cons _).1 (hp.trans (List.Perm.swap _ _ _)))])
    have hno : ¬ b = true := by
      rw [k5]
      rintro ⟨g, hg', hx⟩
      obtain rfl : g = [(kb, ka)] := by
        have : g ∈ goalsOf idEq [eqn kb kd, eqn ka kd] [eqn kb ka] := hg'
        rw [hg] at this
        simpa using this
      have hd := hx (kb, ka) (by simp)
      have hgp : GroundProblem arE ⟨E, kb, ka, {}⟩ := ⟨fun e he => hP e (hp.mem_iff.1 he), g 1 rfl, g 0 rfl, rfl⟩
      rcases hE with rfl | rfl
      · exact absurd ((derivesB_spec (ar := arE) (C38_precedence nm) 4 _ none false hgp.g (by decide +kernel)).2 hd) (by simp)
      · exact absurd ((derivesB_spec (ar := arE) (C38_precedence nm) 4 _ none false hgp.g (by decide +kernel)).2 hd) (by simp)
    simpa using hno
  · have e1 := hm.1 (eqn kb kd) (by simp)
    have e2 := hm.1 (eqn ka kd) (by simp)
    refine hm.2 (eqn kb ka) (by simp) ?_
    simp only [Holds, eqn, if_true, sides] at *
    exact e1.trans e2.symm

theorem C75_statement_false : ¬ C75_statement := fun h => by
  obtain ⟨tp, tn, H, ⟨b, res, s', hr⟩, h2, A, I, σ, hm⟩ := C75_violated_sound 0
  exact ((h arE nm 0 idEq [0, 1] 0 1 _ _ _ tp tn ⟨[], []⟩ H (emptyStore _ _ _)).2 b res s' hr).2.1 [] (h2 b res s' hr).2 Bool A I σ
    (fun p hp => by cases hp) (by simpa using hm)

/-- The hypotheses of `C75_exact_partial` are met: the branch with `b = a` and `g(b) ≠ g(a)` is closed. -/
example (n : Nat) : ∃ tp tn, BranchOk arE idEq [0, 1] 0 1 [eqn kb ka] [[eqn kb ka]] [[eqn (.fn 9 [kb]) (.fn 9 [ka])]] tp tn ∧
    (∃ b res s', Reason (compareWith nm) (addUnification (n + 3)) (n + 3) idEq [0, 1] 0 1 [eqn kb ka] tp tn ⟨[], []⟩ b res s') ∧
    ∀ b res s', Reason (compareWith nm) (addUnification (n + 3)) (n + 3) idEq [0, 1] 0 1 [eqn kb ka] tp tn ⟨[], []⟩ b res s' → b = true := by
  have g : ∀ p, arE p = 0 → (UT.fn p []).Gd arE := fun p h => gd_fn.2 ⟨by simp [h], by simp⟩
  have hP : ∀ e ∈ [(kb, ka)], e.1.Gd arE ∧ e.2.Gd arE := by simpa using ⟨g 1 rfl, g 0 rfl⟩
  have hN : ∀ e ∈ [(UT.fn 9 [kb], UT.fn 9 [ka])], e.1.Gd arE ∧ e.2.Gd arE := by
    simp only [List.mem_singleton, forall_eq]
    exact ⟨gd_fn.2 ⟨rfl, by simp only [List.mem_singleton, forall_eq]; exact g 1 rfl⟩, gd_fn.2 ⟨rfl, by simp only [List.mem_singleton, forall_eq]; exact g 0 rfl⟩⟩
  obtain ⟨tp, tn, H⟩ := eqn_branch [(kb, ka)] [(.fn 9 [kb], .fn 9 [ka])] hP hN (by simp) (by simp [ka, kb])
  have hg : goalsOf idEq [eqn kb ka] [eqn (.fn 9 [kb]) (.fn 9 [ka])] = [[(.fn 9 [kb], .fn 9 [ka])]] := by decide +kernel
  have he : eqsOf idEq [eqn kb ka] = [(kb, ka)] := by decide +kernel
  obtain ⟨h1, h2⟩ := C75_exact_partial nm n H (emptyStore _ _ _) (show ∀ e ∈ eqsOf idEq [eqn kb ka], _ by rw [he]; exact hP)
    (show ∀ g ∈ goalsOf idEq [eqn kb ka] [eqn (.fn 9 [kb]) (.fn 9 [ka])], ∀ x ∈ g, _ by rw [hg]; simpa using hN (.fn 9 [kb], .fn 9 [ka]) (by simp))
    (show Convergent _ _ (eqsOf idEq [eqn kb ka]) by rw [he]; exact sample_convergent rfl)
    (show ∀ g ∈ goalsOf idEq [eqn kb ka] [eqn (.fn 9 [kb]) (.fn 9 [ka])], ∀ x ∈ g, Irred _ (eqsOf idEq [eqn kb ka]) _ by
      rw [hg, he]; simpa using sample_irred)
  refine ⟨tp, tn, H, h1, fun b res s' h => (h2 b res s' h).2.2.2 fun D A I σ hm => ?_⟩
  have e1 := hm.1 (eqn kb ka) (by simp)
  refine hm.2 (eqn (.fn 9 [kb]) (.fn 9 [ka])) (by simp) ?_
  simp only [Holds, eqn, if_true, sides] at *
  simp only [UT.eval, UT.evalL] at *
  rw [e1]

end Verif.Equality.Bse
