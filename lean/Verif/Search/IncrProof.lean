import Verif.Search.IncrVerdict
import Verif.Search.MainProofViolated
/-!
# C95: the proof of the incremental search (`src/Search/incremental/searchNode.go`, `rulesManager.go`)

Each node remembers the rule that was applied last and its results (`appliedRule`, `resultingRules`). When the search is over, the tree
is written down as a list of steps, to which the first of the substitutions found at the root is applied.
-/

namespace Verif.Search.Incr
open Verif.AST Verif.Search Verif.Unif
open Verif.Search.Main (Tableau instPL instPLL instP ruleOf samePL samePL_eq)
open Verif.Gs3 (PS closes)

/-! ### What is remembered -/

/-- `appliedRule` and `resultingRules` (src/Search/incremental/rulesManager.go:20-24). `none`: nil. -/
structure Note where
  rule : Option Form := none
  results : List (List Form) := []
deriving DecidableEq

/-- The last element with a property. -/
def lastWith {α : Type} (p : α → Bool) : List α → Option α
  | [] => none
  | a :: l => match lastWith p l with
    | some b => some b
    | none => if p a then some a else none

/-- The rule `tryClosureRules` returns (src/Search/incremental/rulesManager.go:136-207): the first false literal, else the first atom whose
negation is there, else the last atom for which the index has an answer. -/
def RM.closingRule (U : Oracle) (time : Nat) (rm : RM) : Option Form :=
  if rm.atomic.any (fun r => decide (r.form = .bot)) then some .bot
  else if rm.atomicNot.any (fun r => decide (r.form = .neg .top)) then some (.neg .top)
  else match rm.atomic.find? (fun p => isPred p.form && rm.atomicNot.any fun q => decide (q.form = .neg p.form)) with
    | some p => some p.form
    | none => (lastWith (fun p => (atomsOf [p]).any fun a => match U time (atomsOf rm.atomicNot) a with
        | some (_ :: _) => true
        | _ => false) rm.atomic).map (·.form)

/-- What `applyNonClosureRule` and `applyReintroductionRule` remember (src/Search/incremental/rulesManager.go:97-134, rules.go:513-523). -/
def St.noteNon (s : St) (i : Nat) (old : Note) : Note :=
  match s.nodes[i]? with
  | none => old
  | some n => match n.mgr.rm.next with
    | r :: _ => match r.apply s.m s.sk r.form.metaElems with
      | some bs => ⟨some r.form, formsOf bs⟩
      | none => old
    | [] => match n.mgr.reintroduce s.m s.sk with
      | some (some a) => ⟨some a.rule.form, formsOf ((a.rule.apply s.m s.sk a.rule.form.metaElems).getD [])⟩
      | some none => {}
      | none => old

def setNote (notes : Nat → Note) (i : Nat) (x : Note) : Nat → Note := fun j => if j = i then x else notes j

/-- What a task remembers: `applyCorrectRule` (src/Search/incremental/rulesManager.go:84-95) and what `noteNon` says. -/
def St.noteTask (U : Oracle) (s : St) (notes : Nat → Note) : Task → Nat → Note
  | .search i => match s.nodes[i]? with
    | none => notes
    | some n => if !n.isClosed && !n.finished && !s.impossible then
        match n.mgr.rm.closure U s.time with
        | none => notes
        | some none => setNote notes i (s.noteNon i (notes i))
        | some (some subs) =>
          if hasNew n.done subs then setNote notes i ⟨n.mgr.rm.closingRule U s.time, []⟩
          else setNote notes i (s.noteNon i ⟨n.mgr.rm.closingRule U s.time, []⟩)
      else notes
  | .keep i => match s.nodes[i]? with
    | none => notes
    | some n => if (!n.jokerClosed || !n.isClosed) && !s.impossible then setNote notes i (s.noteNon i (notes i)) else notes

/-- A step with what is remembered. -/
def St.stepN (U : Oracle) (s : St) (notes : Nat → Note) (j : Nat) : Option (St × (Nat → Note)) :=
  match s.agenda[j]? with
  | none => none
  | some t => let s0 : St := { s with agenda := s.agenda.eraseIdx j, time := s.time + 1 }
    (s0.doTask U t).map fun s' => (s', s0.noteTask U notes t)

/-- A run with what is remembered. -/
def St.runN (U : Oracle) : List Nat → St → (Nat → Note) → Option (St × (Nat → Note))
  | [], s, notes => some (s, notes)
  | j :: js, s, notes => match s.stepN U notes j with
    | none => none
    | some p => p.1.runN U js p.2

/-! ### The proof -/

mutual
/-- The term of a machine term; type arguments are not kept in machine terms. -/
def ofUT : UT → Term
  | .mv i => .mv i
  | .fn p args => .fn p [] (ofUTL args)
def ofUTL : List UT → List Term
  | [] => []
  | t :: l => ofUT t :: ofUTL l
end

/-- The term `InstanciateAny` chooses: the last one there is (src/Search/incremental/substitutionList.go:59-67). -/
def someTerm (sl : List Sub) : Option UT := sl.foldl (fun t s => s.l.foldl (fun t e => match e.2 with
  | some u => some u
  | none => t) t) none

/-- `InstanciateAny` (src/Search/incremental/substitutionList.go:59-81) with `replaceThisByThat` (substitution.go:208-220). -/
def instanciateAny (sl : List Sub) : List Sub := sl.map fun s => ⟨false, s.l.map fun e => (e.1, e.2.or (someTerm sl))⟩

/-- `GetAsMetasAndTerms` (src/Search/incremental/substitution.go:192-206). -/
def Sub.pairs (s : Sub) : List (Nat × Term) := s.l.map fun e => (e.1, match e.2 with
  | none => .mv e.1
  | some u => ofUT u)

/-- `SubstituteBy` (src/Core/form_and_terms.go:86-98) on the formula. -/
def substBy (l : List (Nat × Term)) (f : Form) : Form := l.foldl (fun f p => f.replaceMetaByTerm p.1 p.2) f

/-- The substitution `getResult` chooses (src/Search/incremental/searchNode.go:199-205). -/
def St.chosen (s : St) : List (Nat × Term) :=
  match s.nodes[0]? with
  | none => []
  | some n => match instanciateAny n.compat with
    | [] => []
    | c :: _ => c.pairs

/-- `getProofStruct`, `getResultFormulas` (src/Search/incremental/searchNode.go:214-268) with the name of the rule (rules.go:64-148). The first argument of the
recursion bounds the depth. `none`: nil pointer or index out of range. -/
def St.proofOf (s : St) (notes : Nat → Note) (sub : List (Nat × Term)) : Nat → Nat → Option (List PS)
  | 0, _ => none
  | k + 1, i => match s.nodes[i]?, (notes i).rule with
    | some n, some f =>
      if n.children.length < (notes i).results.length then none
      else
        let step := PS.mk (substBy sub f) i (ruleOf f) ((notes i).results.map fun b => b.map (substBy sub))
        match n.children with
        | [] => some [step []]
        | [c] => (s.proofOf notes sub k c).map (step [] :: ·)
        | cs => (cs.mapM (s.proofOf notes sub k)).map fun ps => [step ps]
    | _, _ => none

/-- `getResult` (src/Search/incremental/searchNode.go:194-212): the proof. `none`: the program crashes. -/
def St.proof (s : St) (notes : Nat → Note) : Option (List PS) :=
  if s.treeClosed (s.nodes.length + 1) 0 then s.proofOf notes s.chosen (s.nodes.length + 1) 0 else some []

/-! ### The claim -/

/-- **C95, the full claim**: when the incremental search says that the formula is closed, the proof it hands on is a closed tableau for
the formula, for some value of the metavariables. -/
def C95_statement : Prop :=
  ∀ (U : Oracle) (f : Form) (m sk : Nat) (sched : List Nat) (s : St) (notes : Nat → Note), Faithful U → WF f sk → f.metas = [] →
    (St.init f m sk).runN U sched (fun _ => {}) = some (s, notes) → s.agenda = [] → s.treeClosed (s.nodes.length + 1) 0 = true →
    ∃ pr, s.proof notes = some pr ∧ ∃ σ : Nat → Term, Tableau false [f] (instPL σ pr)

/-! ### A closed tree with a wrong proof -/

namespace Sample

/-- `∀X (¬p(X) ∧ ¬q(X)) ∧ p(a) ∧ q(b)`. -/
def other : Form := .and [.all [tv 100] (.and [.neg (P1 (v 100)), .neg (Q1 (v 100))]), P1 (c 61), Q1 (c 62)]

/-- The proof: `X` is replaced by `a`, and the branch is said to be closed by `q(b)`. -/
def otherProof : List PS := [
  .mk other 0 .and [[.all [tv 100] (.and [.neg (P1 (v 100)), .neg (Q1 (v 100))]), P1 (c 61), Q1 (c 62)]] [],
  .mk (.all [tv 100] (.and [.neg (P1 (v 100)), .neg (Q1 (v 100))])) 1 .all [[.and [.neg (P1 (c 61)), .neg (Q1 (c 61))]]] [],
  .mk (.and [.neg (P1 (c 61)), .neg (Q1 (c 61))]) 2 .and [[.neg (P1 (c 61)), .neg (Q1 (c 61))]] [],
  .mk (Q1 (c 62)) 3 .ax [] []]

theorem wf_other : WF other 200 := by
  refine ⟨?_, by decide +kernel, by decide +kernel, by decide +kernel, ?_⟩
  · simp [other, FO, FOL, P1, Q1, tv, isTType]
  · have : other.fvs = [] := by decide +kernel
    simp [this]

theorem other_unsat (D : Type u) (I : Interp D) (μ ρ : Nat → D) : ¬ Form.holds I μ ρ other := by
  simp [other, P1, Q1, v, c, tv, Form.holds, Form.holdsAll, Term.eval, Term.evalL, forallVars, upd]
  intro h h1
  exact absurd h1 (h (I.fn 61 [] [])).1

theorem other_none (σ : Nat → Term) : ¬ Tableau false [other] (instPL σ otherProof) := by
  intro h
  unfold otherProof at h
  simp only [instPL, instP, instPLL] at h
  rcases h.tail with h | ⟨g1, e1, h⟩
  · cases h
  rcases h.tail with h | ⟨g2, e2, h⟩
  · cases h
  rcases h.tail with h | ⟨g3, e3, h⟩
  · cases h
  have c1 := h.last
  simp only [List.map_cons, List.map_nil, List.cons.injEq, and_true] at e1 e2 e3
  subst e1 e2 e3
  revert c1
  simp [closes, other, P1, Q1, c, v, tv, Gs3.instF, Gs3.instFL, instTL, Search.instT]

end Sample
open Sample

/-- The run of the search on `other` in order. -/
def otherRun : Option (St × (Nat → Note)) := (St.init other 0 200).runN (realU 9) (List.replicate 4 0) (fun _ => {})

theorem other_proof : otherRun.map (fun p => (p.1.agenda.isEmpty, p.1.treeClosed (p.1.nodes.length + 1) 0)) = some (true, true) ∧
    otherRun.map (fun p => (p.1.proof p.2).map (samePL otherProof)) = some (some true) :=
  ⟨by decide +kernel, by decide +kernel⟩

/-- **C95 is violated: the literal of another substitution.** The search says rightly that the formula has no model. The branch can be closed
with `X ↦ a` by `p(a)`, and with `X ↦ b` by `q(b)`; the proof has the first substitution and the second literal, so that it is a proof for
no value of the metavariables. -/
theorem C95_violated : (∀ (D : Type) (I : Interp D) (μ ρ : Nat → D), ¬ Form.holds I μ ρ other) ∧
    ∃ s notes pr, (St.init other 0 200).runN (realU 9) (List.replicate 4 0) (fun _ => {}) = some (s, notes) ∧ s.agenda = [] ∧
      s.treeClosed (s.nodes.length + 1) 0 = true ∧ s.proof notes = some pr ∧ ∀ σ : Nat → Term, ¬ Tableau false [other] (instPL σ pr) := by
  refine ⟨other_unsat, ?_⟩
  obtain ⟨h1, h2⟩ := other_proof
  unfold otherRun at h1 h2
  obtain ⟨⟨s, notes⟩, hs, e⟩ := Option.map_eq_some_iff.1 h1
  rw [hs] at h2
  simp only [Option.map_some, Option.some.injEq, Option.map_eq_some_iff] at h2
  obtain ⟨pr, hp, hpr⟩ := h2
  obtain rfl := samePL_eq hpr
  simp only [Prod.mk.injEq, List.isEmpty_iff] at e
  exact ⟨s, notes, _, hs, e.1, e.2, hp, other_none⟩

/-- **C95 is false as stated.** -/
theorem C95_statement_false : ¬ C95_statement := by
  intro h
  obtain ⟨-, s, notes, pr, h1, h2, h3, h4, h5⟩ := C95_violated
  obtain ⟨pr', e, σ, hσ⟩ := h _ _ _ _ _ s notes (realU_faithful 9) wf_other (by decide +kernel) h1 h2 h3
  rw [h4] at e
  obtain rfl := Option.some.inj e
  exact h5 σ hσ

end Verif.Search.Incr
