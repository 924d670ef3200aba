import Verif.AST.Metas
import Verif.Mods.Gs3
import Verif.Search.IncrProof
/-!
# C97: the metavariables handed to the output (`src/Search/proof.go`)

`RetrieveUninstantiatedMetaFromProof` goes through a proof and collects the metavariables of its formulas in a set; the outputs get the
elements of this set and declare them.
-/

namespace Verif.Search.ProofMetas
open Verif.AST Verif.Lib
open Verif.Gs3 (PS)

/-! ### The code -/

/-- Adding the metavariables of formulas one after the other (src/Search/proof.go:393-395). -/
def addForms : GoSet Nat → List Form → Option (GoSet Nat)
  | s, [] => some s
  | s, f :: fs => (Form.getMetas f).bind fun m => (s.union m).bind fun s' => addForms s' fs

mutual
/-- `RetrieveUninstantiatedMetaFromProof` (src/Search/proof.go:385-404) on one step. `GetFormulasFromIntFormAndTermList` (129-135) puts the results of
all branches in a row. -/
def addStep : GoSet Nat → PS → Option (GoSet Nat)
  | s, .mk f _ _ res cs => (Form.getMetas f).bind fun m => (s.union m).bind fun s1 =>
      (addForms s1 res.flatten).bind fun s2 => addChildren s2 cs
/-- The loop over the steps. -/
def addSteps : GoSet Nat → List PS → Option (GoSet Nat)
  | s, [] => some s
  | s, p :: ps => (addStep s p).bind fun s' => addSteps s' ps
/-- The loop over the branches (src/Search/proof.go:397-400). -/
def addChildren : GoSet Nat → List (List PS) → Option (GoSet Nat)
  | s, [] => some s
  | s, c :: cs => (addSteps GoSet.empty c).bind fun m => (s.union m).bind fun s' => addChildren s' cs
end

/-- `RetrieveUninstantiatedMetaFromProof`; `none`: a crash. -/
def retrieve (pr : List PS) : Option (GoSet Nat) := addSteps GoSet.empty pr

/-- What the outputs get (src/Search/destructive.go:146-147, src/Search/print_proof.go:72-73). -/
def handed (pr : List PS) : Option (List Nat) := (retrieve pr).map GoSet.elements

/-! ### The claim -/

/-- A metavariable occurs in a formula of a proof: in that of a step, in a result, or in the proof of a branch. -/
inductive Occurs (x : Nat) : List PS → Prop
  | form {f n rl res cs l} : PS.mk f n rl res cs ∈ l → x ∈ f.metas → Occurs x l
  | result {f n rl res cs l} {b : List Form} {g : Form} : PS.mk f n rl res cs ∈ l → b ∈ res → g ∈ b → x ∈ g.metas → Occurs x l
  | branch {f n rl res cs l c} : PS.mk f n rl res cs ∈ l → c ∈ cs → Occurs x c → Occurs x l

theorem occurs_nil {x : Nat} : ¬ Occurs x [] := by
  intro h
  cases h <;> simp_all

theorem occurs_cons {x : Nat} {f : Form} {n : Int} {rl : Gs3.Rule} {res : List (List Form)} {cs : List (List PS)} {l : List PS} :
    Occurs x (PS.mk f n rl res cs :: l) ↔ x ∈ f.metas ∨ (∃ g ∈ res.flatten, x ∈ g.metas) ∨ (∃ c ∈ cs, Occurs x c) ∨ Occurs x l := by
  constructor
  · intro h
    cases h with
    | form h1 h2 =>
      rcases List.mem_cons.1 h1 with e | h1
      · cases e; exact Or.inl h2
      · exact Or.inr (Or.inr (Or.inr (.form h1 h2)))
    | result h1 h2 h3 h4 =>
      rcases List.mem_cons.1 h1 with e | h1
      · cases e; exact Or.inr (Or.inl ⟨_, List.mem_flatten.2 ⟨_, h2, h3⟩, h4⟩)
      · exact Or.inr (Or.inr (Or.inr (.result h1 h2 h3 h4)))
    | branch h1 h2 h3 =>
      rcases List.mem_cons.1 h1 with e | h1
      · cases e; exact Or.inr (Or.inr (Or.inl ⟨_, h2, h3⟩))
      · exact Or.inr (Or.inr (Or.inr (.branch h1 h2 h3)))
  · rintro (h | ⟨g, hg, h⟩ | ⟨c, hc, h⟩ | h)
    · exact .form (List.mem_cons_self ..) h
    · obtain ⟨b, hb, hg⟩ := List.mem_flatten.1 hg
      exact .result (List.mem_cons_self ..) hb hg h
    · exact .branch (List.mem_cons_self ..) hc h
    · cases h with
      | form h1 h2 => exact .form (List.mem_cons_of_mem _ h1) h2
      | result h1 h2 h3 h4 => exact .result (List.mem_cons_of_mem _ h1) h2 h3 h4
      | branch h1 h2 h3 => exact .branch (List.mem_cons_of_mem _ h1) h2 h3

theorem empty_elements : (GoSet.empty : GoSet Nat).elements = [] := by simp [GoSet.elements, GoSet.empty, Node.elements]

theorem addForms_ok : ∀ (fs : List Form) (s : GoSet Nat), s.Inv → ∃ s', addForms s fs = some s' ∧ s'.Inv ∧
    ∀ x, x ∈ s'.elements ↔ x ∈ s.elements ∨ ∃ g ∈ fs, x ∈ g.metas
  | [], s, hs => ⟨s, rfl, hs, by simp⟩
  | f :: fs, s, hs => by
    obtain ⟨m, e, i, h⟩ := Form.getMetas_ok f
    obtain ⟨s1, e1, i1, h1⟩ := union_ok hs i
    obtain ⟨s2, e2, i2, h2⟩ := addForms_ok fs s1 i1
    exact ⟨s2, by simp [addForms, e, e1, e2], i2, fun x => by rw [h2, h1, h]; simp [or_assoc]⟩

mutual
theorem addStep_ok : ∀ (p : PS) (s : GoSet Nat), s.Inv → ∃ s', addStep s p = some s' ∧ s'.Inv ∧
    ∀ x, x ∈ s'.elements ↔ x ∈ s.elements ∨ Occurs x [p]
  | .mk f _ _ res cs, s, hs => by
    obtain ⟨m, e, i, h⟩ := Form.getMetas_ok f
    obtain ⟨s1, e1, i1, h1⟩ := union_ok hs i
    obtain ⟨s2, e2, i2, h2⟩ := addForms_ok res.flatten s1 i1
    obtain ⟨s3, e3, i3, h3⟩ := addChildren_ok cs s2 i2
    exact ⟨s3, by simp [addStep, e, e1, e2, e3], i3, fun x => by
      rw [h3, h2, h1, h, occurs_cons]; simp only [occurs_nil, or_false, or_assoc]⟩
theorem addSteps_ok : ∀ (ps : List PS) (s : GoSet Nat), s.Inv → ∃ s', addSteps s ps = some s' ∧ s'.Inv ∧
    ∀ x, x ∈ s'.elements ↔ x ∈ s.elements ∨ Occurs x ps
  | [], s, hs => ⟨s, by simp [addSteps], hs, by simp [occurs_nil]⟩
  | p :: ps, s, hs => by
    obtain ⟨s1, e1, i1, h1⟩ := addStep_ok p s hs
    obtain ⟨s2, e2, i2, h2⟩ := addSteps_ok ps s1 i1
    refine ⟨s2, by simp [addSteps, e1, e2], i2, fun x => ?_⟩
    rw [h2, h1]
    obtain ⟨f, n, rl, res, cs⟩ := p
    rw [occurs_cons, occurs_cons]
    simp only [occurs_nil, or_false, or_assoc]
theorem addChildren_ok : ∀ (cs : List (List PS)) (s : GoSet Nat), s.Inv → ∃ s', addChildren s cs = some s' ∧ s'.Inv ∧
    ∀ x, x ∈ s'.elements ↔ x ∈ s.elements ∨ ∃ c ∈ cs, Occurs x c
  | [], s, hs => ⟨s, by simp [addChildren], hs, by simp⟩
  | c :: cs, s, hs => by
    obtain ⟨m, e, i, h⟩ := addSteps_ok c GoSet.empty inv_empty
    obtain ⟨s1, e1, i1, h1⟩ := union_ok hs i
    obtain ⟨s2, e2, i2, h2⟩ := addChildren_ok cs s1 i1
    exact ⟨s2, by simp [addChildren, e, e1, e2], i2, fun x => by rw [h2, h1, h, empty_elements]; simp [or_assoc]⟩
end

/-- **C97 (partial), the main search.** For every proof, the metavariables handed to the output are exactly those that occur in the formulas of the proof, at any depth,
each once; collecting them does not crash. Missing: the incremental search (`C97_violated_incr`). -/
theorem C97_metas_partial (pr : List PS) : ∃ l, handed pr = some l ∧ l.Nodup ∧ ∀ x, x ∈ l ↔ Occurs x pr := by
  obtain ⟨s, e, i, h⟩ := addSteps_ok pr GoSet.empty inv_empty
  refine ⟨s.elements, by simp [handed, retrieve, e], ?_, fun x => by rw [h, empty_elements]; simp⟩
  have hp : s.root.inorder.Nodup := by
    refine List.Pairwise.imp ?_ i.2
    intro a b h e
    have := Node.eqb_false_of_less h
    simp [GoOrdered.eqb, e] at this
  exact (List.Perm.nodup_iff (Node.elements_perm s.root)).2 hp

/-- A proof all of whose metavariables are replaced hands on none, and only such a proof. -/
theorem C97_closed (pr : List PS) : handed pr = some [] ↔ ∀ x, ¬ Occurs x pr := by
  obtain ⟨l, e, -, h⟩ := C97_metas_partial pr
  rw [e]
  constructor
  · intro e' x hx
    rw [Option.some.inj e'] at h
    exact absurd ((h x).2 hx) (by simp)
  · intro hx
    cases l with
    | nil => rfl
    | cons a l => exact absurd ((h a).1 (by simp)) (hx a)

/-- A proof with metavariables in the formula of a step, in a result and in the proof of a branch. -/
def sample : List PS := [.mk (.or [.pred 10 [] [.mv 1], .pred 11 [] [.mv 2]]) 0 .or [[.pred 10 [] [.mv 1]], [.pred 11 [] [.mv 2]]]
  [[.mk (.pred 10 [] [.mv 3]) 1 .ax [] []], [.mk (.pred 11 [] [.mv 2]) 2 .ax [[.pred 12 [] [.mv 4]]] []]]]

example : handed sample = some [1, 4, 3, 2] := by decide +kernel

/-! ### The incremental search -/

/-- What the outputs get from the incremental search (src/Search/incremental/search.go:32-38): the empty set, whatever the proof. -/
def handedIncr (_ : List PS) : List Nat := (GoSet.empty : GoSet Nat).elements

/-- **C97, the full claim**: both searches hand the metavariables of the proof to the outputs. -/
def C97_statement : Prop :=
  (∀ pr : List PS, ∃ l, handed pr = some l ∧ l.Nodup ∧ ∀ x, x ∈ l ↔ Occurs x pr) ∧
  ∀ (U : Incr.Oracle) (f : Form) (m sk : Nat) (sched : List Nat) (s : Incr.St) (notes : Nat → Incr.Note) (pr : List PS), Incr.Faithful U → WF f sk →
    f.metas = [] → (Incr.St.init f m sk).runN U sched (fun _ => {}) = some (s, notes) → s.agenda = [] →
    s.treeClosed (s.nodes.length + 1) 0 = true → s.proof notes = some pr → ∀ x, x ∈ handedIncr pr ↔ Occurs x pr

open Incr Incr.Sample

/-- `∀X (p(X) ∧ ¬p(X))`. -/
def self : Form := .all [tv 100] (.and [P1 (v 100), .neg (P1 (v 100))])

theorem wf_self : WF self 200 := by
  refine ⟨?_, by decide +kernel, by decide +kernel, by decide +kernel, ?_⟩
  · simp [self, FO, FOL, P1, tv, isTType]
  · have : self.fvs = [] := by decide +kernel
    simp [this]

/-- **C97 is violated by the incremental search**: the proof of `∀X (p(X) ∧ ¬p(X))` has a metavariable, and none is handed on. -/
theorem C97_violated_incr : ∃ s notes pr, (St.init self 0 200).runN (realU 9) (List.replicate 3 0) (fun _ => {}) = some (s, notes) ∧ s.agenda = [] ∧
    s.treeClosed (s.nodes.length + 1) 0 = true ∧ s.proof notes = some pr ∧ Occurs 0 pr ∧ handedIncr pr = [] := by
  have h1 : ((St.init self 0 200).runN (realU 9) (List.replicate 3 0) (fun _ => {})).map
      (fun p => (p.1.agenda.isEmpty, p.1.treeClosed (p.1.nodes.length + 1) 0, (p.1.proof p.2).map handed)) =
      some (true, true, some (some [0])) := by decide +kernel
  obtain ⟨⟨s, notes⟩, hs, e⟩ := Option.map_eq_some_iff.1 h1
  simp only [Prod.mk.injEq, List.isEmpty_iff, Option.map_eq_some_iff] at e
  obtain ⟨e1, e2, pr, e3, e4⟩ := e
  refine ⟨s, notes, pr, hs, e1, e2, e3, ?_, empty_elements⟩
  obtain ⟨l, h2, -, h3⟩ := C97_metas_partial pr
  rw [e4] at h2
  obtain rfl := Option.some.inj h2
  exact (h3 0).1 (by simp)

/-- **C97 is false as stated.** -/
theorem C97_statement_false : ¬ C97_statement := by
  intro h
  obtain ⟨s, notes, pr, h1, h2, h3, h4, h5, h6⟩ := C97_violated_incr
  have := (h.2 _ _ _ _ _ s notes pr (realU_faithful 9) wf_self (by decide +kernel) h1 h2 h3 h4 0).2 h5
  rw [h6] at this
  cases this

end Verif.Search.ProofMetas
