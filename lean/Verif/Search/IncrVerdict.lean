import Verif.Search.IncrSearch
/-!
# C62, C64: where the incremental search goes wrong
-/

namespace Verif.Search.Incr
open Verif.AST Verif.Search Verif.Unif

/-! ### C62: reintroduction -/

/-- **C62**: a universal formula that was instantiated on a branch can be instantiated there again: the managers of the
branches have it in their list of formulas to reintroduce. -/
def C62_statement : Prop :=
  ∀ (m sk : Nat) (g : Mgr) (r : Rule) (rest : List Rule) (a : Applied), IsUniversal r.form →
    g.tryToApply m sk (r :: rest) = some a → ∀ b ∈ a.branches, ∃ k, (r, k) ∈ b.reintro

/-- No rule is a `GammaRule`: the result type of `getVarList` differs. -/
theorem isGammaRule_false (f : Form) : isGammaRule f = false := by
  unfold isGammaRule methodsOf
  split <;> decide

theorem tryToApply_reintro {m sk : Nat} {g : Mgr} {l : List Rule} {a : Applied} (h : g.tryToApply m sk l = some a) :
    a.own = g ∧ ∀ b ∈ a.branches, b.reintro = g.reintro ∧ b.metas = g.metas := by
  cases l with
  | nil => cases h
  | cons r l =>
    simp only [Mgr.tryToApply, isGammaRule_false, Bool.false_and, Bool.false_eq_true, if_false, List.append_nil,
      Option.map_eq_some_iff] at h
    obtain ⟨bs, -, rfl⟩ := h
    refine ⟨rfl, ?_⟩
    intro b hb
    simp only [List.mem_map] at hb
    obtain ⟨x, -, rfl⟩ := hb
    exact ⟨rfl, rfl⟩

/-- A node whose manager has nothing to reintroduce. -/
def NoReintro (s : St) : Prop := ∀ n ∈ s.nodes, n.mgr.reintro = [] ∧ n.mgr.metas = []

theorem mem_modify {α : Type u} {l : List α} {i : Nat} {f : α → α} {x : α} (h : x ∈ l.modify i f) : x ∈ l ∨ ∃ y ∈ l, x = f y := by
  obtain ⟨j, hj⟩ := List.mem_iff_getElem?.1 h
  rw [List.getElem?_modify] at hj
  obtain ⟨y, hy, e⟩ := Option.map_eq_some_iff.1 hj
  split at e
  · exact Or.inr ⟨y, List.mem_of_getElem? hy, e.symm⟩
  · exact Or.inl (e ▸ List.mem_of_getElem? hy)

theorem NoReintro.upd {s : St} (h : NoReintro s) (i : Nat) (f : Node → Node) (hf : ∀ n, (f n).mgr = n.mgr) : NoReintro (s.upd i f) := by
  intro n hn
  rcases mem_modify hn with hn | ⟨y, hy, rfl⟩
  · exact h n hn
  · rw [hf]; exact h y hy

theorem NoReintro.keepGoing (k : Nat) : ∀ {s : St}, NoReintro s → ∀ i, NoReintro (St.keepGoing k s i) := by
  induction k with
  | zero => intro s h i; exact h
  | succ k ih =>
    intro s h i
    simp only [St.keepGoing]
    split
    · exact h
    · split
      · have : ∀ (l : List Nat) (s : St), NoReintro s → NoReintro (l.foldl (St.keepGoing k) s) := by
          intro l
          induction l with
          | nil => intro s h; exact h
          | cons c l ihl => intro s h; exact ihl _ (ih h c)
        exact this _ _ (h.upd _ _ fun _ => rfl)
      · exact h

theorem NoReintro.sendWith {up : St → List Sub → St} (hup : ∀ s c, NoReintro s → NoReintro (up s c)) {s : St} (h : NoReintro s) (i : Nat) :
    NoReintro (s.sendWith up i) := by
  unfold St.sendWith
  split
  · exact h
  · split
    · split
      · exact h
      · exact hup _ _ h
    · split
      · have : ∀ (l : List Nat) (k : Nat) (s : St), NoReintro s → NoReintro (l.foldl (St.keepGoing k) s) := by
          intro l
          induction l with
          | nil => intro k s h; exact h
          | cons c l ihl => intro k s h; exact ihl k _ (NoReintro.keepGoing k h c)
        exact this _ _ _ (h.upd _ _ fun _ => rfl)
      · exact h

theorem NoReintro.addFor (k : Nat) : ∀ {s : St}, NoReintro s → ∀ i subs, NoReintro (s.addFor k i subs) := by
  induction k with
  | zero => intro s h i subs; exact h
  | succ k ih =>
    intro s h i subs
    simp only [St.addFor]
    split
    · exact h
    · rename_i n hn
      have h2 := (h.upd i (fun n => { n with done := addSubs n.done subs }) fun _ => rfl).upd n.father (fun f =>
        { f with slots := f.slots.modify n.childNb (addSubs · subs), counter := if f.branching then f.counter - 1 else f.counter })
        fun _ => rfl
      split
      · exact h2
      · split
        · exact h2
        · exact NoReintro.sendWith (fun s c hs => ih hs _ _) h2 _

theorem NoReintro.nothingToDo {s : St} (h : NoReintro s) (i : Nat) : NoReintro (s.nothingToDo i) :=
  NoReintro.upd (s := s) h i _ fun _ => rfl

theorem NoReintro.expand {s : St} (h : NoReintro s) (i : Nat) {a : Applied} (ho : a.own.reintro = [] ∧ a.own.metas = [])
    (hb : ∀ b ∈ a.branches, b.reintro = [] ∧ b.metas = []) : NoReintro (s.expand i a) := by
  unfold St.expand
  split
  · exact h
  · intro n hn
    simp only [List.mem_append] at hn
    rcases hn with hn | hn
    · rcases List.mem_or_eq_of_mem_set hn with hn | rfl
      · exact h n hn
      · simp only [isGammaRule_false, Bool.false_eq_true, if_false]
        split <;> exact ho
    · obtain ⟨k, hk, rfl⟩ := List.mem_mapIdx.1 hn
      exact hb _ (List.getElem_mem hk)

theorem NoReintro.nonClosure {s s' : St} (h : NoReintro s) (i : Nat) (hs : s.nonClosure i = some s') : NoReintro s' := by
  unfold St.nonClosure at hs
  split at hs
  · obtain rfl := Option.some.inj hs; exact h
  · rename_i n hn
    obtain ⟨n1, n2⟩ := h n (List.mem_of_getElem? hn)
    split at hs
    · have : n.mgr.reintroduce s.m s.sk = some none := by unfold Mgr.reintroduce; rw [n1]; rfl
      rw [this] at hs
      obtain rfl := Option.some.inj hs
      exact h.nothingToDo i
    · split at hs
      · cases hs
      · rename_i a ha
        obtain ⟨e1, e2⟩ := tryToApply_reintro ha
        split at hs
        · obtain rfl := Option.some.inj hs
          refine NoReintro.nothingToDo ?_ i
          intro x hx
          rcases mem_modify hx with hx | ⟨y, hy, rfl⟩
          · exact h x hx
          · simp only [e1]; exact ⟨n1, n2⟩
        · obtain rfl := Option.some.inj hs
          exact h.expand i (by rw [e1]; exact ⟨n1, n2⟩) fun b hb => by rw [(e2 b hb).1, (e2 b hb).2]; exact ⟨n1, n2⟩

theorem NoReintro.step {U : Oracle} {s s' : St} (h : NoReintro s) (j : Nat) (hs : s.step U j = some s') : NoReintro s' := by
  have hsend : ∀ {s : St}, NoReintro s → ∀ i, NoReintro (s.send i) := fun h i =>
    NoReintro.sendWith (fun s c hs => hs.addFor _ _ _) h i
  unfold St.step at hs
  split at hs
  · cases hs
  · rename_i t ht
    generalize hs0 : ({ s with agenda := s.agenda.eraseIdx j, time := s.time + 1 } : St) = s0 at hs
    have h0 : NoReintro s0 := by subst hs0; exact h
    unfold St.doTask at hs
    split at hs
    · split at hs
      · obtain rfl := Option.some.inj hs; exact h0
      · split at hs
        · unfold St.searchNode at hs
          split at hs
          · obtain rfl := Option.some.inj hs; exact h0
          · split at hs
            · cases hs
            · exact h0.nonClosure _ hs
            · split at hs
              · obtain rfl := Option.some.inj hs
                exact NoReintro.addFor _ (h0.upd _ (fun n => { n with isClosed := true, closing := _ }) fun _ => rfl) _ _
              · exact NoReintro.nonClosure (h0.upd _ (fun n => { n with isClosed := true, closing := _ }) fun _ => rfl) _ hs
        · obtain rfl := Option.some.inj hs; exact hsend h0 _
    · split at hs
      · obtain rfl := Option.some.inj hs; exact h0
      · split at hs
        · exact h0.nonClosure _ hs
        · obtain rfl := Option.some.inj hs; exact hsend h0 _

theorem NoReintro.run {U : Oracle} (js : List Nat) {s s' : St} (h : NoReintro s) (hs : s.run U js = some s') : NoReintro s' := by
  induction js generalizing s with
  | nil => obtain rfl := Option.some.inj hs; exact h
  | cons j js ih =>
    simp only [St.run] at hs
    split at hs
    · cases hs
    · rename_i s1 h1
      exact ih (h.step j h1) hs

/-- **C62 is violated everywhere**: in every run on every formula no node ever has a formula to reintroduce, and an attempt to
reintroduce fails. -/
theorem C62_never (U : Oracle) (f : Form) (m sk : Nat) (sched : List Nat) (s : St) (h : (St.init f m sk).run U sched = some s)
    (n : Node) (hn : n ∈ s.nodes) : n.mgr.reintro = [] ∧ ∀ m' sk', n.mgr.reintroduce m' sk' = some none := by
  have h0 : NoReintro (St.init f m sk) := by
    intro n hn
    simp only [St.init, List.mem_singleton] at hn
    subst hn; exact ⟨rfl, rfl⟩
  have := NoReintro.run sched h0 h n hn
  exact ⟨this.1, fun m' sk' => by unfold Mgr.reintroduce; rw [this.1]; rfl⟩

namespace Sample

def tv (i : Nat) : TVar := ⟨"X", i, .constr "$i" []⟩
def v (i : Nat) : Term := .var i
def c (i : Nat) : Term := .fn i [] []
def f1 (i : Nat) (t : Term) : Term := .fn i [] [t]
def P1 (t : Term) : Form := .pred 50 [] [t]
def Q1 (t : Term) : Form := .pred 51 [] [t]
def P2 (t u : Term) : Form := .pred 50 [] [t, u]
def Q2 (t u : Term) : Form := .pred 51 [] [t, u]

/-- `p(a) ∧ ∀X (p(X) ⇒ p(f(X))) ∧ ¬p(f(f(a)))`. -/
def chain : Form := .and [P1 (c 61), .all [tv 100] (.imp (P1 (v 100)) (P1 (f1 63 (v 100)))), .neg (P1 (f1 63 (f1 63 (c 61))))]

/-- `∀X,Y (p(X,f(Y)) ∨ q(Y,f(X))) ∧ ∀Z ¬p(Z,Z) ∧ ∀W ¬q(W,W)`. -/
def cyclic : Form := .and [.all [tv 100, tv 101] (.or [P2 (v 100) (f1 60 (v 101)), Q2 (v 101) (f1 60 (v 100))]),
  .all [tv 102] (.neg (P2 (v 102) (v 102))), .all [tv 103] (.neg (Q2 (v 103) (v 103)))]

/-- `∀X ((⊥ ∨ p(X)) ∨ q(X)) ∧ ¬p(a) ∧ ¬q(b) ∧ ∀Z (¬p(h(Z)) ∧ ¬q(k(Z)))`. -/
def joker : Form := .and [.all [tv 100] (.or [.or [.bot, P1 (v 100)], Q1 (v 100)]), .neg (P1 (c 61)), .neg (Q1 (c 62)),
  .all [tv 101] (.and [.neg (P1 (f1 63 (v 101))), .neg (Q1 (f1 64 (v 101)))])]

end Sample
open Sample

/-- The run that always takes the first task. -/
theorem verdict_of (f : Form) (m sk k : Nat) (b : Bool)
    (h : ((St.init f m sk).run (realU 9) (List.replicate k 0)).map (fun s => (s.agenda.isEmpty, s.treeClosed (s.nodes.length + 1) 0)) =
      some (true, b)) : Verdict (realU 9) f m sk b := by
  rw [Option.map_eq_some_iff] at h
  obtain ⟨s, hs, he⟩ := h
  simp only [Prod.mk.injEq, List.isEmpty_iff] at he
  exact ⟨_, s, hs, he.1, he.2⟩

/-- **C62 has consequences**: `p(a) ∧ ∀X (p(X) ⇒ p(f(X))) ∧ ¬p(f(f(a)))` is unsatisfiable, which needs two instances; the search
ends without closing it. -/
theorem C62_incomplete : (∀ (D : Type u) (I : Interp D) (μ ρ : Nat → D), ¬ Form.holds I μ ρ chain) ∧
    Verdict (realU 9) chain 0 200 false := by
  constructor
  · intro D I μ ρ h
    simp only [chain, P1, c, f1, v, tv, Form.holds, Form.holdsAll, forallVars, Term.evalL, Term.eval, upd, if_true] at h
    exact h.2.2.1 (h.2.1 _ (h.2.1 _ h.1))
  · exact verdict_of _ _ _ 7 _ (by decide +kernel)

theorem C62_statement_false : ¬ C62_statement := by
  intro h
  let r : Rule := ⟨.all [tv 100] (P1 (v 100)), []⟩
  let g : Mgr := { rm := RM.root r.form }
  cases ha : g.tryToApply 0 9 [r] with
  | none => revert ha; decide +kernel
  | some a =>
    obtain ⟨h1, h2⟩ := tryToApply_reintro ha
    have hne : a.branches ≠ [] := by
      have : (g.tryToApply 0 9 [r]).map (fun a => a.branches.isEmpty) = some false := by decide +kernel
      rw [ha] at this
      intro h; simp [h] at this
    obtain ⟨b, hb⟩ := List.exists_mem_of_ne_nil _ hne
    obtain ⟨k, hk⟩ := h 0 9 g r [] a (Or.inl ⟨_, _, rfl⟩) ha b hb
    rw [(h2 b hb).1] at hk
    cases hk

/-! ### C64: soundness of the verdict -/

/-- **C64**: if the incremental search reports a closed formula `f` as closed, `f` has no model. -/
def C64_statement : Prop :=
  ∀ (U : Oracle) (f : Form) (m sk : Nat), Faithful U → WF f sk → f.metas = [] → Verdict U f m sk true →
    ∀ (D : Type) (I : Interp D) (μ ρ : Nat → D), ¬ Form.holds I μ ρ f

theorem wf_cyclic : WF cyclic 200 := by
  refine ⟨?_, by decide +kernel, by decide +kernel, by decide +kernel, ?_⟩
  · simp [cyclic, FO, FOL, P2, Q2, tv, isTType]
  · have : cyclic.fvs = [] := by decide +kernel
    simp [this]

theorem wf_joker : WF joker 200 := by
  refine ⟨?_, by decide +kernel, by decide +kernel, by decide +kernel, ?_⟩
  · simp [joker, FO, FOL, P1, Q1, tv, isTType]
  · have : joker.fvs = [] := by decide +kernel
    simp [this]

/-- **C64 is violated by cyclic bindings**: `∀X,Y (p(X,f(Y)) ∨ q(Y,f(X))) ∧ ∀Z ¬p(Z,Z) ∧ ∀W ¬q(W,W)` holds in the natural numbers
with `f` the successor and `p`, `q` inequality, and is reported closed: the branches are closed by `X ↦ f(Y)` and `Y ↦ f(X)`. -/
theorem C64_violated_cycle : Verdict (realU 9) cyclic 0 200 true ∧
    Form.holds (D := Nat) ⟨fun _ _ l => l.headD 0 + 1, fun _ _ l => l[0]? ≠ l[1]?⟩ (fun _ => 0) (fun _ => 0) cyclic := by
  constructor
  · exact verdict_of _ _ _ 8 _ (by decide +kernel)
  · simp [cyclic, P2, Q2, f1, v, tv, Form.holds, Form.holdsAll, Form.holdsAny, forallVars, Term.evalL, Term.eval, upd]
    omega

/-- **C64 is violated by a branch that needs no substitution**: `∀X ((⊥ ∨ p(X)) ∨ q(X)) ∧ ¬p(a) ∧ ¬q(b) ∧ ∀Z (¬p(h(Z)) ∧ ¬q(k(Z)))` has a model
with two elements. `X ↦ a` and `X ↦ b` do not agree, so both branches go on; the branch of `⊥` does
not report again, the node waits for it for ever, and what the others find is never compared: all leaves are closed. -/
theorem C64_violated_joker : Verdict (realU 9) joker 0 200 true ∧
    Form.holds (D := Bool) ⟨fun p _ _ => decide (p = 62 ∨ p = 64), fun p _ l => l = [decide (p = 50)]⟩ (fun _ => false) (fun _ => false)
      joker := by
  constructor
  · exact verdict_of _ _ _ 14 _ (by decide +kernel)
  · simp [joker, P1, Q1, f1, v, c, tv, Form.holds, Form.holdsAll, Form.holdsAny, forallVars, Term.evalL, Term.eval, upd]

theorem C64_statement_false : ¬ C64_statement := by
  intro h
  exact h (realU 9) cyclic 0 200 (realU_faithful 9) wf_cyclic (by decide +kernel) C64_violated_cycle.1 _ _ _ _ C64_violated_cycle.2

end Verif.Search.Incr
