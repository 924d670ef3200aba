import Verif.Search.Main
import Verif.Search.Quant
/-!
# C65: verdicts the main search gets wrong

Three closed formulas with a model that the search, in the model `Verif.Search.Main` of the code, reports as closed. Each
schedule is a possible run of the program; the index is the modelled one.
-/

namespace Verif.Search.Main
open Verif.AST Verif.Search Verif.Unif

/-- Some run ends with this verdict. -/
def Verdict (e : Env) (b : Start) (limit : Nat) (f : Form) (closed : Bool) : Prop :=
  ∃ s, Reaches e b limit f s ∧ s.result = some closed

/-- **C65**: if the search reports a closed formula `f` without equality as closed, under whatever schedule, `f` has no model. The
Skolem terms take all metavariables of the branch (outer Skolemization, the default). -/
def C65_statement : Prop :=
  ∀ (e : Env) (b : Start) (limit : Nat) (f : Form), Incr.Faithful e.U → (∀ l g, e.sko l g = l) → WF f b.sk → b.sk ≤ e.eq → f.metas = [] →
    Verdict e b limit f true → ∀ (D : Type) (I : Interp D) (μ ρ : Nat → D), ¬ Form.holds I μ ρ f

namespace Bad

def X (i : Nat) : TVar := ⟨"X", i, .constr "$i" []⟩
def v (i : Nat) : Term := .var i
def c (i : Nat) : Term := .fn i [] []
def g (t : Term) : Term := .fn 3 [] [t]
def P (i : Nat) (l : List Term) : Form := .pred i [] l

/-- A step of the root. -/
def r : Choice := .proc [] (.own 0)
/-- A step of the child `i` of the root. -/
def o (i : Nat) : Choice := .proc [i] (.own 0)
def recv (i : Nat) : Choice := .proc [] (.recv i)
def order (i : Nat) : Choice := .proc [] (.order i)

def env : Env := ⟨Incr.realU 20, 20, 100, fun l _ => l⟩

theorem verdict_of (f : Form) (cs : List Choice) (closed : Bool)
    (h : ((start 5 f).run env ⟨0, 100⟩ cs).map (·.result) = some (some closed)) : Verdict env ⟨0, 100⟩ 5 f closed := by
  obtain ⟨s, hs, e⟩ := Option.map_eq_some_iff.1 h
  exact ⟨s, ⟨cs, hs⟩, e⟩

/-- `∀X,Y ((p(X,Y) ∧ ∀Z ¬p(Z,Z)) ∨ q(X,Y)) ∧ ¬q(a,b)`. -/
def cleaning : Form := .and [.all [X 50, X 51] (.or [.and [P 10 [v 50, v 51], .all [X 52] (.neg (P 10 [v 52, v 52]))], P 11 [v 50, v 51]]),
  .neg (P 11 [c 1, c 2])]

/-- `∀X (p(X) ∨ q(X) ∨ r(X)) ∧ ¬p(a) ∧ ¬q(b) ∧ ¬r(b)`. -/
def common : Form := .and [.all [X 50] (.or [P 10 [v 50], P 11 [v 50], P 12 [v 50]]), .neg (P 10 [c 1]), .neg (P 11 [c 2]), .neg (P 12 [c 2])]

/-- `∀X,Y ((p(g(Y),X,Y) ∧ ¬p(X,g(a),b)) ∨ q(X,Y)) ∧ ¬q(g(a),a)`. -/
def lost : Form := .and [.all [X 50, X 51] (.or [.and [P 10 [g (v 51), v 50, v 51], .neg (P 10 [v 50, g (c 1), c 2])], P 11 [v 50, v 51]]),
  .neg (P 11 [g (c 1), c 1])]

/-- `∀X,Z (p(X,g(Z),Z) ∧ ¬p(g(a),X,f(X,X)))`: one branch, no disjunction. -/
def alone : Form := .all [X 50, X 51] (.and [P 10 [v 50, g (v 51), v 51], .neg (P 10 [g (c 1), v 50, .fn 4 [] [v 50, v 50]])])

theorem wf_cleaning : WF cleaning 100 := by
  refine ⟨?_, by decide +kernel, by decide +kernel, by decide +kernel, ?_⟩
  · simp [cleaning, FO, FOL, P, X, isTType]
  · have : cleaning.fvs = [] := by decide +kernel
    simp [this]

theorem wf_common : WF common 100 := by
  refine ⟨?_, by decide +kernel, by decide +kernel, by decide +kernel, ?_⟩
  · simp [common, FO, FOL, P, X, isTType]
  · have : common.fvs = [] := by decide +kernel
    simp [this]

theorem wf_lost : WF lost 100 := by
  refine ⟨?_, by decide +kernel, by decide +kernel, by decide +kernel, ?_⟩
  · simp [lost, FO, FOL, P, X, isTType]
  · have : lost.fvs = [] := by decide +kernel
    simp [this]

theorem wf_alone : WF alone 100 := by
  refine ⟨?_, by decide +kernel, by decide +kernel, by decide +kernel, ?_⟩
  · simp [alone, FO, FOL, P, X, isTType]
  · have : alone.fvs = [] := by decide +kernel
    simp [this]

end Bad
open Bad

/-- **C65 is violated by the removal of metavariables from substitutions**: the first child closes with `X ↦ Z, Y ↦ Z`, where `Z` is its
own metavariable. Without `Z` nothing is left of it (C55), so the father takes the child as closed whatever `X` and `Y` are, and
closes with the substitution `X ↦ a, Y ↦ b` of the second child. -/
theorem C65_violated_cleaning : Verdict env ⟨0, 100⟩ 5 cleaning true ∧
    Form.holds (D := Bool) ⟨fun p _ _ => decide (p = 1), fun p _ l => if p = 10 then l[0]? ≠ l[1]? else l[0]? = l[1]?⟩
      (fun _ => false) (fun _ => false) cleaning := by
  constructor
  · exact verdict_of _ [r, r, r, r, o 0, o 0, o 0, o 1, recv 0, recv 0, r, order 0, r, .result] _ (by decide +kernel)
  · simp [cleaning, P, v, c, X, Form.holds, Form.holdsAll, Form.holdsAny, forallVars, Term.evalL, Term.eval, upd]

/-- **C65 is violated by the comparison of the substitutions of the children**: the three children close with `X ↦ a`, `X ↦ b` and `X ↦ b`.
After the second one no substitution is common; the third starts the comparison anew (C33), and `X ↦ b` is taken to close all
of them. -/
theorem C65_violated_common : Verdict env ⟨0, 100⟩ 5 common true ∧
    Form.holds (D := Bool) ⟨fun p _ _ => decide (p = 1), fun p _ l => if p = 10 then l = [false] else l = [true]⟩
      (fun _ => false) (fun _ => false) common := by
  constructor
  · exact verdict_of _ [r, r, r, o 0, o 1, o 2, recv 0, recv 1, recv 2, r, order 0, order 0, order 0, r, .result] _ (by decide +kernel)
  · simp [common, P, v, c, X, Form.holds, Form.holdsAll, Form.holdsAny, forallVars, Term.evalL, Term.eval, upd]

/-- **C65 is violated by the index**: the first child closes with `X ↦ g(a), Y ↦ a`, although `Y` was matched with `b` as well: this
binding is lost (C30). -/
theorem C65_violated_lost : Verdict env ⟨0, 100⟩ 5 lost true ∧
    Form.holds (D := Nat) ⟨fun p _ l => if p = 3 then l.headD 0 + 1 else p, fun p _ l => if p = 10 then l = [2, 2, 1] else l ≠ [2, 1]⟩
      (fun _ => 0) (fun _ => 0) lost := by
  constructor
  · exact verdict_of _ [r, r, r, r, o 0, o 0, o 1, recv 0, recv 1, r, order 0, order 0, r, .result] _ (by decide +kernel)
  · simp [lost, P, v, c, g, X, Form.holds, Form.holdsAll, Form.holdsAny, forallVars, Term.evalL, Term.eval, upd]
    omega

/-- **C65 is violated without any other branch**: the two literals, which share the metavariable of `X`, are taken for contrary ones. No
instances of them are: `Z` would have to be `f(g(Z),g(Z))`. -/
theorem C65_violated_alone : Verdict env ⟨0, 100⟩ 5 alone true ∧
    Form.holds (D := Nat) ⟨fun p _ l => if p = 4 then l.headD 0 + 1 else l.headD 0, fun _ _ l => l.getD 1 0 = l.getD 2 0⟩
      (fun _ => 0) (fun _ => 0) alone := by
  constructor
  · exact verdict_of _ [r, r, r, r, .result] _ (by decide +kernel)
  · simp [alone, P, v, c, g, X, Form.holds, Form.holdsAll, forallVars, Term.evalL, Term.eval, upd]

theorem C65_statement_false : ¬ C65_statement := by
  intro h
  exact h env ⟨0, 100⟩ 5 common (Incr.realU_faithful 20) (fun _ _ => rfl) wf_common (Nat.le_refl _) (by decide +kernel)
    C65_violated_common.1 _ _ _ _ C65_violated_common.2

end Verif.Search.Main
