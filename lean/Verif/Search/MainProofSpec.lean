import Verif.Search.MainProof
import Verif.Mods.Gs3Violated
/-!
# C93: what a proof is

The specification of C93. A proof is a list of steps, of which the last one closes the branch or splits it. It is a tableau for
some hypotheses if each step is an application of its rule to formulas of the branch, and each branch ends with a formula that closes it.
-/

namespace Verif.Search.Main
open Verif.AST Verif.Search Verif.Unif
open Verif.Gs3 (PS Rule closes alphaParts betaParts quantParts allVars instF instFL)

/-- A closed tableau for the hypotheses `Γ`. With `new`, the symbol of each Skolem term is new in its branch, and the term has no variables and none
of its symbols is the number of a variable bound in the formula. -/
inductive Tableau (new : Bool) : List Form → List PS → Prop
  | ax {Γ : List Form} {f : Form} {n : Int} : closes Γ f = true → Tableau new Γ [.mk f n .ax [] []]
  | reintro {Γ : List Form} {f : Form} {n : Int} {l : List PS} : f ∈ Γ → Tableau new Γ l → Tableau new Γ (.mk f n .r [[f]] [] :: l)
  | alpha {Γ : List Form} {f : Form} {n : Int} {rule : Rule} {ps gs : List Form} {l : List PS} :
      f ∈ Γ → rule.isAlpha = true → alphaParts rule f = some ps → (∀ g ∈ gs, g ∈ ps) →
      Tableau new (Γ ++ gs) l → Tableau new Γ (.mk f n rule [gs] [] :: l)
  | gamma {Γ : List Form} {f : Form} {n : Int} {rule : Rule} {x : Nat} {b : Form} {t : Term} {l : List PS} :
      f ∈ Γ → rule.isGamma = true → quantParts rule f = some (x, b) → Tableau new (Γ ++ [(b.replaceTermByTerm (.var x) t).1]) l →
      Tableau new Γ (.mk f n rule [[(b.replaceTermByTerm (.var x) t).1]] [] :: l)
  | delta {Γ : List Form} {f : Form} {n : Int} {rule : Rule} {x : Nat} {b : Form} {sk : Nat} {tys : List Ty} {args : List Term} {l : List PS} :
      f ∈ Γ → rule.isDelta = true → quantParts rule f = some (x, b) →
      (new = true → sk ∉ Form.funsL Γ ∧ Term.varsL args = [] ∧ ∀ i ∈ (Term.fn sk tys args).funs, i ∉ b.binders) →
      Tableau new (Γ ++ [(b.replaceTermByTerm (.var x) (.fn sk tys args)).1]) l →
      Tableau new Γ (.mk f n rule [[(b.replaceTermByTerm (.var x) (.fn sk tys args)).1]] [] :: l)
  | beta {Γ : List Form} {f : Form} {n : Int} {rule : Rule} {ps : List (List Form)} {cs : List (List PS)} :
      f ∈ Γ → rule.isBeta = true → betaParts rule f = some ps → cs.length = ps.length →
      (∀ (i : Nat) (G : List Form) (c : List PS), ps[i]? = some G → cs[i]? = some c → Tableau new (Γ ++ G) c) →
      Tableau new Γ [.mk f n rule ps cs]

mutual
/-- A substitution of the metavariables applied to a proof (`ApplySubstitutionOnProofList`, src/Search/proof.go:407-432). -/
def instP (σ : Nat → Term) : PS → PS
  | .mk f n r res cs => .mk (instF σ f) n r (res.map (instFL σ)) (instPLL σ cs)
def instPL (σ : Nat → Term) : List PS → List PS
  | [] => []
  | p :: l => instP σ p :: instPL σ l
def instPLL (σ : Nat → Term) : List (List PS) → List (List PS)
  | [] => []
  | c :: cs => instPL σ c :: instPLL σ cs
end

/-- **C93, the full claim**: when the search says that the formula is closed, the proof it hands on is a closed tableau for the formula,
for some value of the metavariables. -/
def C93_statement : Prop :=
  ∀ (e : Env) (b : Start) (limit cnt : Nat) (f : Form) (cs : List Choice) (s : Sys), Incr.Faithful e.U → (∀ l g, e.sko l g = l) →
    WF f b.sk → b.sk ≤ e.eq → f.metas = [] → (start limit f).run e b cs = some s → s.result = some true →
    ∃ σ : Nat → Term, Tableau false [f] (instPL σ (finalProof e b limit cnt f cs))

variable {new : Bool} {Γ : List Form} {l : List PS}

theorem Tableau.ne_nil (h : Tableau new Γ l) : l ≠ [] := by cases h <;> simp

/-- The rest of a proof after a step is a proof with the results of the step. -/
theorem Tableau.tail {f : Form} {n : Int} {r : Rule} {res : List (List Form)} {cs : List (List PS)} {p : PS}
    (h : Tableau new Γ (.mk f n r res cs :: p :: l)) : r = .r ∨ ∃ gs, res = [gs] ∧ Tableau new (Γ ++ gs) (p :: l) := by
  cases h with
  | reintro _ h => exact Or.inl rfl
  | alpha _ _ _ _ h => exact Or.inr ⟨_, rfl, h⟩
  | gamma _ _ _ h => exact Or.inr ⟨_, rfl, h⟩
  | delta _ _ _ _ h => exact Or.inr ⟨_, rfl, h⟩

/-- Each alternative of a step that splits the branch has its proof. -/
theorem Tableau.split {f : Form} {n : Int} {r : Rule} {res : List (List Form)} {cs : List (List PS)}
    (h : Tableau new Γ [.mk f n r res cs]) (hr : r.isBeta = true) {i : Nat} {G : List Form} {c : List PS} (hi : res[i]? = some G)
    (hc : cs[i]? = some c) : Tableau new (Γ ++ G) c := by
  cases h with
  | ax _ => cases hr
  | reintro _ h => cases hr
  | alpha _ h' _ _ _ => cases r <;> simp [Rule.isBeta, Rule.isAlpha] at hr h'
  | gamma _ h' _ _ => cases r <;> simp [Rule.isBeta, Rule.isGamma] at hr h'
  | delta _ h' _ _ _ => cases r <;> simp [Rule.isBeta, Rule.isDelta] at hr h'
  | beta _ _ _ _ h => exact h i G c hi hc

/-- A last step of closure has the formula and its complement in the branch, or is false. -/
theorem Tableau.last {f : Form} {n : Int} {res : List (List Form)} {cs : List (List PS)} (h : Tableau new Γ [.mk f n .ax res cs]) :
    closes Γ f = true := by
  cases h with
  | ax h => exact h
  | alpha _ h' _ _ _ => cases h'
  | gamma _ h' _ _ => cases h'
  | delta _ h' _ _ _ => cases h'
  | beta _ h' _ _ _ => cases h'

end Verif.Search.Main
