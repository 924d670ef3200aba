import Verif.AST.Syntax
import Verif.Lib.SetsInv
/-!
# C51: the metavariables reported for terms and formulas

The `metas` fields are `Lib.Cache` values (src/Lib/cache.go), but all `GetMetas` methods have value
receivers, so what `Cache.Get` stores is lost with the copy; `shouldUpdate` is true in every value
made by a constructor (`MkCache`) and `AvoidUpd` is called only on values copied from one for which
it was already false. Hence the set is recomputed on each call, and the model is `forceGetMetas`.
Metavariables are compared by index (src/AST/termsDef.go:331,355), so a set of metavariables is a set
of indices.
-/

namespace Verif.AST
open Verif.Lib

mutual
/-- `GetMetas` on terms (src/AST/termsDef.go:166-178 functions, 274 variables, 327 metavariables). -/
def Term.getMetas : Term → Option (GoSet Nat)
  | .var _ => some GoSet.empty
  | .mv i => GoSet.singleton i
  | .fn _ _ args => Term.unionMetas GoSet.empty args
/-- The loops of `Fun.forceGetMetas` (src/AST/termsDef.go:169) and `Pred.forceGetMetas`
(src/AST/formsDef.go:885). -/
def Term.unionMetas : GoSet Nat → List Term → Option (GoSet Nat)
  | s, [] => some s
  | s, a :: l => (Term.getMetas a).bind fun m => (s.union m).bind fun s' => Term.unionMetas s' l
end

mutual
/-- `GetMetas` on formulas (src/AST/formsDef.go:223,344,458,570,678,882,1015,1043; quantifiers.go:75). -/
def Form.getMetas : Form → Option (GoSet Nat)
  | .pred _ _ args => Term.unionMetas GoSet.empty args
  | .top => some GoSet.empty
  | .bot => some GoSet.empty
  | .neg f => Form.getMetas f
  | .and fs => Form.unionMetas GoSet.empty fs
  | .or fs => Form.unionMetas GoSet.empty fs
  | .imp f g => (Form.getMetas f).bind fun a => (Form.getMetas g).bind fun b => a.copy.union b
  | .equ f g => (Form.getMetas f).bind fun a => (Form.getMetas g).bind fun b => a.copy.union b
  | .all _ f => Form.getMetas f
  | .ex _ f => Form.getMetas f
/-- `metasUnion` (src/AST/formula.go:116-124). -/
def Form.unionMetas : GoSet Nat → List Form → Option (GoSet Nat)
  | s, [] => some s
  | s, a :: l => (Form.getMetas a).bind fun m => (s.union m).bind fun s' => Form.unionMetas s' l
end

/-- `GetMetas().Elements()`. -/
def Form.metaElems (f : Form) : List Nat := (f.getMetas.map GoSet.elements).getD []

theorem contains_elements {s : GoSet Nat} (i : s.Inv) (x : Nat) :
    s.contains x = true ↔ x ∈ s.elements := by
  rw [i.contains_iff]; simp [GoOrdered.eqb]

theorem union_ok {s m : GoSet Nat} (hs : s.Inv) (_ : m.Inv) : ∃ s', s.union m = some s' ∧ s'.Inv ∧
    ∀ x, x ∈ s'.elements ↔ x ∈ s.elements ∨ x ∈ m.elements := by
  obtain ⟨s', e, i, h⟩ := foldAdd_inv hs m.elements
  refine ⟨s', e, i, fun x => ?_⟩
  rw [← contains_elements i, h, contains_elements hs]
  simp [GoOrdered.eqb, or_comm]

mutual
theorem Term.getMetas_ok : ∀ t : Term, ∃ s, t.getMetas = some s ∧ s.Inv ∧ ∀ x, x ∈ s.elements ↔ x ∈ t.metas
  | .var i => ⟨GoSet.empty, by simp [Term.getMetas], inv_empty, by simp [Term.metas, GoSet.elements, GoSet.empty, Node.elements]⟩
  | .mv i => by
    obtain ⟨s, e, hi, h⟩ := add_inv (inv_empty (α := Nat)) i
    refine ⟨⟨Node.mkNode i⟩, by simp [Term.getMetas, GoSet.singleton, Node.insert], ?_, ?_⟩
    · have : s = ⟨Node.mkNode i⟩ := by
        simp [GoSet.add, GoSet.addAll, GoSet.empty, Node.insert] at e; exact e.symm
      exact this ▸ hi
    · simp [GoSet.elements, Node.mkNode, Node.elements, Term.metas]
  | .fn _ _ args => by
    obtain ⟨s, e, i, h⟩ := Term.unionMetas_ok args GoSet.empty inv_empty
    exact ⟨s, by simpa [Term.getMetas] using e, i, fun x => by
      rw [h]; simp [Term.metas, GoSet.elements, GoSet.empty, Node.elements]⟩
theorem Term.unionMetas_ok : ∀ (l : List Term) (s : GoSet Nat), s.Inv → ∃ s', Term.unionMetas s l = some s' ∧ s'.Inv ∧
    ∀ x, x ∈ s'.elements ↔ x ∈ s.elements ∨ x ∈ Term.metasL l
  | [], s, hs => ⟨s, by simp [Term.unionMetas], hs, by simp [Term.metasL]⟩
  | a :: l, s, hs => by
    obtain ⟨m, e, i, h⟩ := Term.getMetas_ok a
    obtain ⟨s1, e1, i1, h1⟩ := union_ok hs i
    obtain ⟨s2, e2, i2, h2⟩ := Term.unionMetas_ok l s1 i1
    exact ⟨s2, by simp [Term.unionMetas, e, e1, e2], i2, fun x => by
      rw [h2, h1, h]; simp [Term.metasL, or_assoc]⟩
end

mutual
theorem Form.getMetas_ok : ∀ t : Form, ∃ s, t.getMetas = some s ∧ s.Inv ∧ ∀ x, x ∈ s.elements ↔ x ∈ t.metas
  | .pred _ _ args => by
    obtain ⟨s, e, i, h⟩ := Term.unionMetas_ok args GoSet.empty inv_empty
    exact ⟨s, by simpa [Form.getMetas] using e, i, fun x => by
      rw [h]; simp [Form.metas, GoSet.elements, GoSet.empty, Node.elements]⟩
  | .top => ⟨GoSet.empty, by simp [Form.getMetas], inv_empty, by simp [Form.metas, GoSet.elements, GoSet.empty, Node.elements]⟩
  | .bot => ⟨GoSet.empty, by simp [Form.getMetas], inv_empty, by simp [Form.metas, GoSet.elements, GoSet.empty, Node.elements]⟩
  | .neg f => by simpa [Form.getMetas, Form.metas] using Form.getMetas_ok f
  | .all _ f => by simpa [Form.getMetas, Form.metas] using Form.getMetas_ok f
  | .ex _ f => by simpa [Form.getMetas, Form.metas] using Form.getMetas_ok f
  | .and fs => by
    obtain ⟨s, e, i, h⟩ := Form.unionMetas_ok fs GoSet.empty inv_empty
    exact ⟨s, by simpa [Form.getMetas] using e, i, fun x => by
      rw [h]; simp [Form.metas, GoSet.elements, GoSet.empty, Node.elements]⟩
  | .or fs => by
    obtain ⟨s, e, i, h⟩ := Form.unionMetas_ok fs GoSet.empty inv_empty
    exact ⟨s, by simpa [Form.getMetas] using e, i, fun x => by
      rw [h]; simp [Form.metas, GoSet.elements, GoSet.empty, Node.elements]⟩
  | .imp f g => by
    obtain ⟨a, e, i, h⟩ := Form.getMetas_ok f
    obtain ⟨b, e', i', h'⟩ := Form.getMetas_ok g
    obtain ⟨ic, hc⟩ := copy_inv i
    obtain ⟨s1, e1, i1, h1⟩ := union_ok ic i'
    exact ⟨s1, by simp [Form.getMetas, e, e', e1], i1, fun x => by
      rw [h1, ← contains_elements ic, hc, contains_elements i, h, h']; simp [Form.metas]⟩
  | .equ f g => by
    obtain ⟨a, e, i, h⟩ := Form.getMetas_ok f
    obtain ⟨b, e', i', h'⟩ := Form.getMetas_ok g
    obtain ⟨ic, hc⟩ := copy_inv i
    obtain ⟨s1, e1, i1, h1⟩ := union_ok ic i'
    exact ⟨s1, by simp [Form.getMetas, e, e', e1], i1, fun x => by
      rw [h1, ← contains_elements ic, hc, contains_elements i, h, h']; simp [Form.metas]⟩
theorem Form.unionMetas_ok : ∀ (l : List Form) (s : GoSet Nat), s.Inv → ∃ s', Form.unionMetas s l = some s' ∧ s'.Inv ∧
    ∀ x, x ∈ s'.elements ↔ x ∈ s.elements ∨ x ∈ Form.metasL l
  | [], s, hs => ⟨s, by simp [Form.unionMetas], hs, by simp [Form.metasL]⟩
  | a :: l, s, hs => by
    obtain ⟨m, e, i, h⟩ := Form.getMetas_ok a
    obtain ⟨s1, e1, i1, h1⟩ := union_ok hs i
    obtain ⟨s2, e2, i2, h2⟩ := Form.unionMetas_ok l s1 i1
    exact ⟨s2, by simp [Form.unionMetas, e, e1, e2], i2, fun x => by
      rw [h2, h1, h]; simp [Form.metasL, or_assoc]⟩
end

theorem Form.mem_metaElems {f : Form} {x : Nat} : x ∈ f.metaElems ↔ x ∈ f.metas := by
  obtain ⟨s, e, _, h⟩ := Form.getMetas_ok f
  simp [Form.metaElems, e, h]

/-- **C51.** The set of metavariables reported for a formula (or term) contains exactly the
metavariables that occur in it; computing it does not crash. -/
theorem C51_metas_exact (f : Form) (t : Term) :
    (∃ s, f.getMetas = some s ∧ ∀ i, s.contains i = true ↔ i ∈ f.metas) ∧
    (∃ s, t.getMetas = some s ∧ ∀ i, s.contains i = true ↔ i ∈ t.metas) := by
  obtain ⟨s, e, i, h⟩ := Form.getMetas_ok f
  obtain ⟨s', e', i', h'⟩ := Term.getMetas_ok t
  exact ⟨⟨s, e, fun x => by rw [contains_elements i, h]⟩, ⟨s', e', fun x => by rw [contains_elements i', h']⟩⟩

/-- The order of `Elements` is that of the tree, not of the indices. -/
example : (Form.imp (.pred 0 [] [.mv 3, .fn 9 [] [.mv 1, .mv 2]]) (.pred 0 [] [.mv 4, .mv 1])).metaElems =
    [1, 4, 3, 2] := by decide

end Verif.AST
