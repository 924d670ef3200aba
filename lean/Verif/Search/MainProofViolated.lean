import Verif.Search.MainProofSpec
import Verif.Search.MainUnsound
/-!
# C93: proofs of the main search that prove nothing

Two formulas that have no model. The search says so, rightly, and hands on a proof that is not one, for any value of the metavariables:

* a child that closes by itself has no proof any more when its father sends a substitution to the other children and collects their answers
  once more: `selectChildren` begins with an empty `proof_tab` (src/Search/destructive.go:681);
* a child that is given a substitution it has sent itself answers with the proof of another substitution it was given in between
  (src/Search/destructive.go:525-541).
-/

namespace Verif.Search.Main
open Verif.AST Verif.Search Verif.Unif
open Verif.Gs3 (PS Rule closes instF instFL)

mutual
/-- The steps are the same. -/
def sameP : PS → PS → Bool
  | .mk f n r res cs, .mk f' n' r' res' cs' => decide (f = f') && decide (n = n') && decide (r = r') && decide (res = res') && samePLL cs cs'
def samePL : List PS → List PS → Bool
  | [], [] => true
  | p :: l, p' :: l' => sameP p p' && samePL l l'
  | _, _ => false
def samePLL : List (List PS) → List (List PS) → Bool
  | [], [] => true
  | c :: cs, c' :: cs' => samePL c c' && samePLL cs cs'
  | _, _ => false
end

mutual
theorem sameP_eq : ∀ {p q : PS}, sameP p q = true → p = q
  | .mk f n r res cs, .mk f' n' r' res' cs', h => by
    simp only [sameP, Bool.and_eq_true, decide_eq_true_eq] at h
    obtain ⟨⟨⟨⟨rfl, rfl⟩, rfl⟩, rfl⟩, h⟩ := h
    rw [samePLL_eq h]
theorem samePL_eq : ∀ {p q : List PS}, samePL p q = true → p = q
  | [], [], _ => rfl
  | [], _ :: _, h => by simp [samePL] at h
  | _ :: _, [], h => by simp [samePL] at h
  | p :: l, p' :: l', h => by
    simp only [samePL, Bool.and_eq_true] at h
    rw [sameP_eq h.1, samePL_eq h.2]
theorem samePLL_eq : ∀ {p q : List (List PS)}, samePLL p q = true → p = q
  | [], [], _ => rfl
  | [], _ :: _, h => by simp [samePLL] at h
  | _ :: _, [], h => by simp [samePLL] at h
  | p :: l, p' :: l', h => by
    simp only [samePLL, Bool.and_eq_true] at h
    rw [samePL_eq h.1, samePLL_eq h.2]
end

namespace Bad

def m (i : Nat) : Term := .mv i
/-- A step of the process at the place `p`. -/
def q (p : List Nat) : Choice := .proc p (.own 0)
def give (i : Nat) : Choice := .proc [] (.give i)

/-! ### A branch without proof -/

/-- `∀X,Y (¬s ∨ ¬p(X) ∨ ¬q(Y)) ∧ s ∧ p(a) ∧ q(b)`. -/
def gone : Form := .and [.all [X 50, X 51] (.or [.neg (P 12 []), .neg (P 10 [v 50]), .neg (P 11 [v 51])]), P 12 [], P 10 [c 1], P 11 [c 2]]

/-- The three branches close; the substitution `X ↦ a` of the second one is sent to the other ones, of which the first is gone. -/
def goneRun : List Choice := [r, r, r, r, o 0, o 2, o 1, recv 1, recv 2, recv 0, r, give 0, give 1, r, recv 0, q [1, 0], .proc [1] (.recv 0), o 1,
  .proc [1] (.order 0), o 1, recv 1, r, order 0, order 0, r, .result]

def goneOr : Form := .or [.neg (P 12 []), .neg (P 10 [m 1]), .neg (P 11 [m 2])]
def goneProof : List PS := [
  .mk gone 1 .and [[.all [X 50, X 51] (.or [.neg (P 12 []), .neg (P 10 [v 50]), .neg (P 11 [v 51])]), P 12 [], P 10 [c 1], P 11 [c 2]]] [],
  .mk (.all [X 50, X 51] (.or [.neg (P 12 []), .neg (P 10 [v 50]), .neg (P 11 [v 51])])) 2 .all
    [[.all [X 51] (.or [.neg (P 12 []), .neg (P 10 [m 1]), .neg (P 11 [v 51])])]] [],
  .mk (.all [X 51] (.or [.neg (P 12 []), .neg (P 10 [m 1]), .neg (P 11 [v 51])])) 3 .all [[goneOr]] [],
  .mk goneOr 4 .or [[.neg (P 12 [])], [.neg (P 10 [m 1])], [.neg (P 11 [m 2])]]
    [[], [.mk (.neg (P 10 [m 1])) 6 .ax [] []], [.mk (P 11 [c 2]) 7 .ax [] []]]]

theorem wf_gone : WF gone 100 := by
  refine ⟨?_, by decide +kernel, by decide +kernel, by decide +kernel, ?_⟩
  · unfold gone
    simp [FO, FOL, X, isTType, P]
  · have : gone.fvs = [] := by decide +kernel
    intro i; rw [this]; simp

theorem gone_proof : ((start 5 gone).run env ⟨0, 100⟩ goneRun).map (·.result) = some (some true) ∧
    finalProof env ⟨0, 100⟩ 5 1 gone goneRun = goneProof :=
  ⟨by decide +kernel, samePL_eq (by decide +kernel)⟩

theorem gone_none (σ : Nat → Term) : ¬ Tableau false [gone] (instPL σ goneProof) := by
  intro h
  unfold goneProof at h
  simp only [instPL, instP, instPLL] at h
  rcases h.tail with h | ⟨g1, -, h⟩
  · cases h
  rcases h.tail with h | ⟨g2, -, h⟩
  · cases h
  rcases h.tail with h | ⟨g3, -, h⟩
  · cases h
  exact (h.split rfl (i := 0) rfl rfl).ne_nil rfl

/-! ### The proof of another substitution -/

def staleOr (t : Term) : Form := .or [P 10 [t], P 12 [t], P 11 [t]]
def staleAnd (t : Term) : Form := .and [.neg (P 10 [c 2]), .neg (P 11 [c 1]), .neg (P 12 [c 2]), P 13 [t]]
/-- `∀X (p(X) ∨ r(X) ∨ q(X)) ∧ ∀Y (¬p(b) ∧ ¬q(a) ∧ ¬r(b) ∧ s(Y)) ∧ ¬p(a) ∧ ¬q(b) ∧ ¬r(d)`. -/
def stale : Form := .and [.all [X 50] (staleOr (v 50)), .all [X 51] (staleAnd (v 51)), .neg (P 10 [c 1]), .neg (P 11 [c 2]), .neg (P 12 [c 5])]

/-- The branches close with `X ↦ a`, `X ↦ d` and `X ↦ b`. The first substitution is tried first: the branch of `q` closes with it, the one of `r` does
not. Then `X ↦ b` is tried, which the branch of `q` has sent itself. -/
def staleRun : List Choice := [r, r, r, o 2, o 1, o 0, recv 0, recv 1, recv 2, r, give 0, give 1, give 2, q [1, 0], r, recv 0, q [1, 0], q [2, 0],
  q [1, 0], q [2, 0], .proc [1] (.recv 0), o 1, o 1, recv 1, q [2, 0], order 0, .proc [2] (.recv 0), order 1, o 2, o 1, o 0, o 2, order 2, r, o 2,
  give 0, q [0, 0], give 1, give 2, q [0, 0], r, q [1, 0], q [0, 0], .proc [0] (.recv 0), o 0, q [1, 0], q [1, 0], .proc [1] (.recv 0), o 0, o 1,
  recv 2, o 1, recv 0, recv 1, r, order 0, order 0, order 0, r, .result]

def staleBranch (n n' n'' : Int) (y : Term) (f : Form) : List PS := [
  .mk (.all [X 51] (staleAnd (v 51))) n .all [[staleAnd y]] [],
  .mk (staleAnd y) n' .and [[.neg (P 10 [c 2]), .neg (P 11 [c 1]), .neg (P 12 [c 2]), P 13 [y]]] [],
  .mk f n'' .ax [] []]
def staleProof : List PS := [
  .mk stale 1 .and [[.all [X 50] (staleOr (v 50)), .all [X 51] (staleAnd (v 51)), .neg (P 10 [c 1]), .neg (P 11 [c 2]), .neg (P 12 [c 5])]] [],
  .mk (.all [X 50] (staleOr (v 50))) 2 .all [[staleOr (m 1)]] [],
  .mk (staleOr (m 1)) 3 .or [[P 10 [m 1]], [P 12 [m 1]], [P 11 [m 1]]]
    [staleBranch 4 11 12 (m 36) (.neg (P 10 [c 2])), staleBranch 5 13 14 (m 41) (.neg (P 12 [c 2])),
     staleBranch 6 9 10 (m 17) (.neg (P 11 [c 1]))]]

theorem wf_stale : WF stale 100 := by
  refine ⟨?_, by decide +kernel, by decide +kernel, by decide +kernel, ?_⟩
  · simp [stale, staleOr, staleAnd, FO, FOL, P, X, isTType]
  · have : stale.fvs = [] := by decide +kernel
    simp [this]

theorem stale_proof : ((start 2 stale).run env ⟨0, 100⟩ staleRun).map (·.result) = some (some true) ∧
    finalProof env ⟨0, 100⟩ 2 1 stale staleRun = staleProof :=
  ⟨by decide +kernel, samePL_eq (by decide +kernel)⟩

theorem stale_none (σ : Nat → Term) : ¬ Tableau false [stale] (instPL σ staleProof) := by
  intro h
  unfold staleProof at h
  simp only [instPL, instP, instPLL] at h
  rcases h.tail with h | ⟨g1, e1, h⟩
  · cases h
  rcases h.tail with h | ⟨g2, e2, h⟩
  · cases h
  have k1 := h.split rfl (i := 0) rfl rfl
  have k3 := h.split rfl (i := 2) rfl rfl
  unfold staleBranch at k1 k3
  simp only [instPL, instP, instPLL] at k1 k3
  rcases k1.tail with k1 | ⟨g3, e3, k1⟩
  · cases k1
  rcases k1.tail with k1 | ⟨g4, e4, k1⟩
  · cases k1
  rcases k3.tail with k3 | ⟨g5, e5, k3⟩
  · cases k3
  rcases k3.tail with k3 | ⟨g6, e6, k3⟩
  · cases k3
  have c1 := k1.last
  have c3 := k3.last
  simp only [List.map_cons, List.map_nil, List.cons.injEq, and_true] at e1 e2 e3 e4 e5 e6
  subst e1 e2 e3 e4 e5 e6
  simp [closes, stale, staleOr, staleAnd, P, X, c, v, m, instF, instFL, instTL, Search.instT] at c1 c3
  rw [← c1] at c3
  simp at c3

/-- Both formulas have no model. -/
theorem gone_unsat (D : Type u) (I : Interp D) (μ ρ : Nat → D) : ¬ Form.holds I μ ρ gone := by
  simp [gone, P, X, v, c, Form.holds, Form.holdsAll, Form.holdsAny, Term.eval, Term.evalL, forallVars, upd]
  intro h h1 h2 h3
  rcases h (I.fn 1 [] []) (I.fn 2 [] []) with h | h | h <;> exact h ‹_›
theorem stale_unsat (D : Type u) (I : Interp D) (μ ρ : Nat → D) : ¬ Form.holds I μ ρ stale := by
  simp [stale, staleOr, staleAnd, P, X, v, c, Form.holds, Form.holdsAll, Form.holdsAny, Term.eval, Term.evalL, forallVars, upd]
  intro h h1 h2 h3
  obtain ⟨h4, h5, h6, _⟩ := h1 (I.fn 2 [] [])
  rcases h (I.fn 2 [] []) with h | h | h <;> exact absurd h ‹_›

end Bad

/-- **C93 is violated: a branch without proof.** The search says rightly that the formula has no model; in the proof it hands on the first
branch has no step at all, so that it is a proof for no value of the metavariables. -/
theorem C93_violated_gone : ∃ s, (start 5 Bad.gone).run Bad.env ⟨0, 100⟩ Bad.goneRun = some s ∧ s.result = some true ∧
    ∀ σ : Nat → Term, ¬ Tableau false [Bad.gone] (instPL σ (finalProof Bad.env ⟨0, 100⟩ 5 1 Bad.gone Bad.goneRun)) := by
  obtain ⟨h1, h2⟩ := Bad.gone_proof
  obtain ⟨s, hs, e⟩ := Option.map_eq_some_iff.1 h1
  exact ⟨s, hs, e, fun σ => by rw [h2]; exact Bad.gone_none σ⟩

/-- **C93 is violated: the proof of another substitution.** The search says rightly that the formula has no model; in the proof it hands on the
first branch is closed with `X ↦ b` and the last one with `X ↦ a`. -/
theorem C93_violated_stale : ∃ s, (start 2 Bad.stale).run Bad.env ⟨0, 100⟩ Bad.staleRun = some s ∧ s.result = some true ∧
    ∀ σ : Nat → Term, ¬ Tableau false [Bad.stale] (instPL σ (finalProof Bad.env ⟨0, 100⟩ 2 1 Bad.stale Bad.staleRun)) := by
  obtain ⟨h1, h2⟩ := Bad.stale_proof
  obtain ⟨s, hs, e⟩ := Option.map_eq_some_iff.1 h1
  exact ⟨s, hs, e, fun σ => by rw [h2]; exact Bad.stale_none σ⟩

/-- **C93 is false as stated.** -/
theorem C93_statement_false : ¬ C93_statement := by
  intro h
  obtain ⟨s, hs, e, hn⟩ := C93_violated_gone
  obtain ⟨σ, hσ⟩ := h Bad.env ⟨0, 100⟩ 5 1 Bad.gone Bad.goneRun s (Incr.realU_faithful 20) (fun _ _ => rfl) Bad.wf_gone (Nat.le_refl _)
    (by decide +kernel) hs e
  exact hn σ hσ

/-- The GS3 module makes no refutation of the first proof. -/
theorem C93_violated_gs3 : ∃ σ : Nat → Term, ¬ ∃ N, ∀ n, N ≤ n → ∃ a h T,
    Gs3.makeGS3 ⟨fun _ => false, false, 100⟩ n (instPL σ (finalProof Bad.env ⟨0, 100⟩ 5 1 Bad.gone Bad.goneRun)) = .ok (a, h) ∧
      Gs3.Repr 0 h a T ∧ Gs3.valid [Bad.gone] T = true :=
  ⟨fun i => if i = 1 then Bad.c 1 else Bad.c 2, Gs3.wrong_refutes (m := 30) (by rw [Bad.gone_proof.2]; decide +kernel)⟩

end Verif.Search.Main
