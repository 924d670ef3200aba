import Verif.Search.IncrProof
import Verif.Search.IncrGroundRun
import Verif.Search.MainProofGround
/-!
# C95 for ground formulas

On a plain formula whose conjunctions and disjunctions have at least two members (but for the conjunctions of statements), every run that ends with a closed tree hands on a closed
tableau for the formula.
-/

namespace Verif.Search.Incr
open Verif.AST Verif.Search Verif.Unif
open Verif.Search.Main (Tableau ruleOf)
open Verif.Gs3 (PS closes alphaParts betaParts)

variable {ar : Nat → Nat} {B : Nat} {f : Form}

mutual
/-- Conjunctions and disjunctions have at least two members. -/
def Wide : Form → Prop
  | .neg f => Wide f
  | .and fs => 2 ≤ fs.length ∧ WideL fs
  | .or fs => 2 ≤ fs.length ∧ WideL fs
  | .imp f g => Wide f ∧ Wide g
  | .equ f g => Wide f ∧ Wide g
  | .all _ f => Wide f
  | .ex _ f => Wide f
  | _ => True
def WideL : List Form → Prop
  | [] => True
  | f :: fs => Wide f ∧ WideL fs
end

theorem WideL_iff {l : List Form} : WideL l ↔ ∀ f ∈ l, Wide f := by
  induction l with
  | nil => simp [WideL]
  | cons f l ih => simp [WideL, ih]

/-- Conjunctions and disjunctions have at least two members, but for the conjunctions that are (parts of) the formula itself. These are made when the
statements of the files are put together (src/main.go:315-331). -/
inductive WideTop : Form → Prop
  | wide {g : Form} : Wide g → WideTop g
  | and {fs : List Form} : (∀ g ∈ fs, WideTop g) → WideTop (.and fs)

theorem WideTop.down {f : Form} (h : WideTop f) (hn : ∀ fs, f ≠ .and fs) : Wide f := by
  cases h with
  | wide h => exact h
  | and h => exact absurd rfl (hn _)

theorem WideTop.members {fs : List Form} (h : WideTop (.and fs)) : ∀ f ∈ fs, WideTop f := by
  cases h with
  | wide h => simp only [Wide, WideL_iff] at h; exact fun f hf => .wide (h.2 f hf)
  | and h => exact h

/-- The results of a rule are wide. -/
theorem apply_wide (m sk : Nat) (args : List Nat) {r : Rule} {bs : List (List Rule)} (hk : IsConjunctive r.form ∨ IsDisjunctive r.form)
    (hw : WideTop r.form) (h : r.apply m sk args = some bs) : ∀ b ∈ bs, ∀ x ∈ b, WideTop x.form := by
  obtain ⟨g, ts⟩ := r
  dsimp only at hk hw
  rcases hk with (⟨fs, rfl⟩ | hk) | hk
  · simp only [Rule.apply, Option.some.injEq] at h
    subst h
    have := hw.members
    simp only [List.mem_cons, List.mem_map, List.not_mem_nil, or_false]
    grind
  all_goals
    have hw := hw.down (by
      rintro fs rfl
      simp [IsDisjunctive] at hk)
    suffices ∀ b ∈ bs, ∀ x ∈ b, Wide x.form from fun b hb x hx => .wide (this b hb x hx)
  · rcases hk with ⟨a, rfl⟩ | ⟨fs, rfl⟩ | ⟨a, b, rfl⟩ <;>
      simp only [Rule.apply, Option.some.injEq] at h <;> subst h <;> simp only [Wide, WideL_iff] at hw <;>
      simp only [List.mem_cons, List.mem_map, List.not_mem_nil, or_false] <;> grind [Wide]
  · rcases hk with ⟨fs, rfl⟩ | ⟨a, b, rfl⟩ | ⟨a, b, rfl⟩ | ⟨fs, rfl⟩ | ⟨a, b, rfl⟩ <;>
      simp only [Rule.apply, Option.some.injEq] at h <;> subst h <;> simp only [Wide, WideL_iff] at hw <;>
      simp only [List.mem_cons, List.mem_map, List.not_mem_nil, or_false] <;> grind [Wide]

/-- A conjunctive rule is an alpha step. -/
theorem noted_alpha (m sk : Nat) (args : List Nat) {r : Rule} {bs : List (List Rule)} (hk : IsConjunctive r.form)
    (h : r.apply m sk args = some bs) : (ruleOf r.form).isAlpha = true ∧ ∃ b, bs = [b] ∧ alphaParts (ruleOf r.form) r.form = some (b.map (·.form)) := by
  obtain ⟨g, ts⟩ := r
  dsimp only at hk ⊢
  rcases hk with ⟨fs, rfl⟩ | ⟨a, rfl⟩ | ⟨fs, rfl⟩ | ⟨a, b, rfl⟩ <;>
    simp only [Rule.apply, Option.some.injEq] at h <;> subst h <;> refine ⟨rfl, _, rfl, ?_⟩ <;>
    simp [ruleOf, alphaParts, Function.comp_def]

/-- A disjunctive rule is a beta step. -/
theorem noted_beta (m sk : Nat) (args : List Nat) {r : Rule} {bs : List (List Rule)} (hk : IsDisjunctive r.form) (hw : WideTop r.form)
    (h : r.apply m sk args = some bs) : (ruleOf r.form).isBeta = true ∧ betaParts (ruleOf r.form) r.form = some (formsOf bs) ∧ 2 ≤ bs.length := by
  obtain ⟨g, ts⟩ := r
  dsimp only at hk hw ⊢
  have hw := hw.down (by
    rintro fs rfl
    simp [IsDisjunctive] at hk)
  rcases hk with ⟨fs, rfl⟩ | ⟨a, b, rfl⟩ | ⟨a, b, rfl⟩ | ⟨fs, rfl⟩ | ⟨a, b, rfl⟩ <;>
    simp only [Rule.apply, Option.some.injEq] at h <;> subst h <;> refine ⟨rfl, ?_, ?_⟩ <;>
    simp only [Wide] at hw <;> simp [ruleOf, betaParts, formsOf, Function.comp_def] <;> omega

theorem closes_mono {Γ Γ' : List Form} (h : ∀ g ∈ Γ, g ∈ Γ') {q : Form} (hq : closes Γ q = true) : closes Γ' q = true := by
  unfold closes at hq ⊢
  simp only [Bool.and_eq_true, Bool.or_eq_true, decide_eq_true_eq] at hq ⊢
  obtain ⟨h1, h2⟩ := hq
  refine ⟨h q h1, ?_⟩
  rcases h2 with ((h2 | h2) | h2) | h2
  · exact Or.inl (Or.inl (Or.inl h2))
  · exact Or.inl (Or.inl (Or.inr h2))
  · exact Or.inl (Or.inr (h _ h2))
  · refine Or.inr ?_
    split at h2
    · simp only [decide_eq_true_eq] at h2 ⊢
      exact h _ h2
    · cases h2

/-- The formulas of a manager. -/
def RM.forms (rm : RM) : List Form := rm.all.map (·.form)

/-- A manager that is closed without substitution names a literal that closes it. -/
theorem closingRule_ground {U : Oracle} {time : Nat} {rm : RM} (hp : ∀ r ∈ rm.atomic, isNeg r.form = false) (h : rm.shut = true) :
    ∃ q, rm.closingRule U time = some q ∧ closes rm.forms q = true ∧ ruleOf q = .ax := by
  have hat : ∀ r ∈ rm.atomic, r.form ∈ rm.forms := fun r hr => List.mem_map.2 ⟨r, by simp [RM.all, hr], rfl⟩
  have hna : ∀ r ∈ rm.atomicNot, r.form ∈ rm.forms := fun r hr => List.mem_map.2 ⟨r, by simp [RM.all, hr], rfl⟩
  unfold RM.closingRule
  split
  · rename_i h1
    obtain ⟨r, hr, e⟩ := List.any_eq_true.1 h1
    have e : r.form = .bot := by simpa using e
    have := hat r hr
    rw [e] at this
    exact ⟨_, rfl, by simp [closes, this], rfl⟩
  · rename_i h1
    split
    · rename_i h2
      obtain ⟨r, hr, e⟩ := List.any_eq_true.1 h2
      have e : r.form = .neg .top := by simpa using e
      have := hna r hr
      rw [e] at this
      exact ⟨_, rfl, by simp [closes, this], rfl⟩
    · rename_i h2
      have hc : rm.complementary = true := by
        simp only [RM.shut, RM.trivial, Bool.or_eq_true] at h
        rcases h with (h | h) | h
        · exact absurd h h1
        · exact absurd h h2
        · exact h
      unfold RM.complementary at hc
      split
      · rename_i p hf
        have h3 := List.find?_some hf
        have h4 := hat p (List.mem_of_find?_eq_some hf)
        simp only [Bool.and_eq_true] at h3
        obtain ⟨q, hq, e⟩ := List.any_eq_true.1 h3.2
        have e : q.form = .neg p.form := by simpa using e
        have h5 := hna q hq
        rw [e] at h5
        refine ⟨_, rfl, by simp [closes, h4, h5], ?_⟩
        revert h3
        cases p.form <;> simp [isPred, ruleOf]
      · rename_i hf
        rw [List.find?_eq_none] at hf
        obtain ⟨p, hp', e⟩ := List.any_eq_true.1 hc
        exact absurd e (hf p hp')

/-! ### The invariant -/

/-- What is remembered fits the tree. -/
structure NotesOk (g : Nat → Option Node) (notes : Nat → Note) : Prop where
  wide : ∀ (i : Nat) (n : Node), g i = some n → ∀ r ∈ n.mgr.rm.all, WideTop r.form
  inner : ∀ (i : Nat) (n : Node), g i = some n → n.children ≠ [] → ∃ (r : Rule) (bs : List (List Rule)) (m sk : Nat) (args : List Nat),
    r ∈ n.mgr.rm.all ∧ (IsConjunctive r.form ∨ IsDisjunctive r.form) ∧ r.apply m sk args = some bs ∧
    notes i = ⟨some r.form, formsOf bs⟩ ∧ n.children.length = bs.length ∧
    ∀ (k c : Nat) (b : List Rule), n.children[k]? = some c → bs[k]? = some b →
      ∃ nc, g c = some nc ∧ ∀ x ∈ nc.mgr.rm.all, x ∈ n.mgr.rm.all ∨ x ∈ b
  leaf : ∀ (i : Nat) (n : Node), g i = some n → n.children = [] → n.isClosed = true →
    ∃ q, notes i = ⟨some q, []⟩ ∧ closes n.mgr.rm.forms q = true ∧ ruleOf q = .ax

/-- Changing the flags of a leaf. -/
theorem NotesOk.setLeaf {g : Nat → Option Node} {notes : Nat → Note} (h : NotesOk g notes) {i : Nat} {n n' : Node} (hn : g i = some n)
    (hl : n.children = []) (e1 : n'.mgr = n.mgr) (e2 : n'.children = []) (x : Note)
    (hx : n'.isClosed = true → ∃ q, x = ⟨some q, []⟩ ∧ closes n.mgr.rm.forms q = true ∧ ruleOf q = .ax) :
    NotesOk (fun j => if j = i then some n' else g j) (setNote notes i x) := by
  refine ⟨fun j y hy => ?_, fun j y hy hc => ?_, fun j y hy hc hcl => ?_⟩
  · split at hy
    · obtain rfl := Option.some.inj hy
      rw [e1]; exact h.wide i n hn
    · exact h.wide j y hy
  · split at hy
    · obtain rfl := Option.some.inj hy
      exact absurd e2 hc
    · rename_i hj
      obtain ⟨r, bs, m, sk, args, h1, h2, h3, h4, h5, h6⟩ := h.inner j y hy hc
      refine ⟨r, bs, m, sk, args, h1, h2, h3, by simp [setNote, hj, h4], h5, fun k c b hk hb => ?_⟩
      obtain ⟨nc, h7, h8⟩ := h6 k c b hk hb
      by_cases hci : c = i
      · subst hci
        rw [hn] at h7
        obtain rfl := Option.some.inj h7
        exact ⟨n', by simp, by rw [e1]; exact h8⟩
      · exact ⟨nc, by simp [hci, h7], h8⟩
  · split at hy
    · rename_i hj
      obtain rfl := Option.some.inj hy
      rw [e1]
      simpa [setNote, hj] using hx hcl
    · rename_i hj
      simpa [setNote, hj] using h.leaf j y hy hc hcl

/-- A step keeps the invariant. -/
theorem step_notes {U : Oracle} (hU : Faithful U) {s s' : St} {notes notes' : Nat → Note} (h : Inv ar B f s) (hN : NotesOk s.core notes) {j : Nat}
    (hs : s.stepN U notes j = some (s', notes')) : NotesOk s'.core notes' := by
  obtain ⟨hS, sent, hD⟩ := h
  unfold St.stepN at hs
  split at hs
  · cases hs
  rename_i t ht
  obtain ⟨i, nc, rfl, hnc, hl, hcl⟩ := hS.tasks t (List.mem_of_getElem? ht)
  obtain ⟨n, hn, rfl⟩ := of_core hnc
  have hl : n.children = [] := hl
  have hcl : n.isClosed = false := hcl
  generalize hs0 : ({ s with agenda := s.agenda.eraseIdx j, time := s.time + 1 } : St) = s0 at hs
  have hcore0 : s0.core = s.core := by rw [← hs0]; rfl
  have hag0 : s0.agenda = s.agenda.eraseIdx j := by rw [← hs0]
  have himp0 : s0.impossible = s.impossible := by rw [← hs0]
  have hn0 : s0.nodes[i]? = some n := by rw [← hs0]; exact hn
  have hlt : i < s0.nodes.length := (List.getElem?_eq_some_iff.1 hn0).1
  have hmem := @mem_eraseIdx_nodup _ hS.nodup _ _ ht
  have hperm : ∀ u, u ∈ Task.search i :: s0.agenda ↔ u ∈ s.agenda := by
    intro u
    rw [List.mem_cons, hag0, hmem]
    constructor
    · rintro (rfl | h)
      · exact List.mem_of_getElem? ht
      · exact h.1
    · intro h
      by_cases e : u = .search i
      · exact Or.inl e
      · exact Or.inr ⟨h, e⟩
  have hD0 : Dyn s0 sent none := by
    rw [← hs0]; exact ⟨hD.node, hD.bound⟩
  have hW : Working ar B f s0 i n sent := by
    refine ⟨?_, hD0, hn0, hl, hcl⟩
    rw [hcore0, himp0]
    exact { hS with
      nodup := by
        rw [List.nodup_cons, hag0]
        exact ⟨fun h => (hmem.1 h).2 rfl, hS.nodup.eraseIdx j⟩
      tasks := fun u hu => hS.tasks u ((hperm u).1 hu)
      opened := fun k x hx hc => by rw [hperm]; exact hS.opened k x hx hc }
  have hN0 : NotesOk s0.core notes := by rw [hcore0]; exact hN
  obtain ⟨g1, g2, g3⟩ := hS.good i _ hnc
  have g1 : n.mgr.rm.Good ar B := g1
  have g2 : n.mgr.reintro = [] := g2
  have g3 : n.mgr.metas = [] := g3
  simp only [Option.map_eq_some_iff, Prod.mk.injEq] at hs
  obtain ⟨s1, hs, rfl, hnotes⟩ := hs
  simp only [St.doTask, hn0, hcl, Bool.not_false, Bool.true_and] at hs
  simp only [St.noteTask, hn0, hcl, Bool.not_false, Bool.true_and] at hnotes
  split at hs
  · rename_i hcond
    rw [if_pos hcond] at hnotes
    simp only [St.searchNode, hn0] at hs
    split at hs
    · cases hs
    · rename_i hclosure
      rw [hclosure] at hnotes
      dsimp only at hnotes
      simp only [St.nonClosure, hn0] at hs
      split at hs
      · rename_i hnext
        have : n.mgr.reintroduce s0.m s0.sk = some none := by unfold Mgr.reintroduce; rw [g2]; rfl
        rw [this] at hs
        obtain rfl := Option.some.inj hs
        have hcore : (s0.nothingToDo i).core = (s0.upd i fun n => { n with finished := true, isClosed := false }).core := rfl
        rw [hcore, upd_core hn0, ← hnotes]
        exact hN0.setLeaf (n' := ({ n with finished := true, isClosed := false } : Node).core) (core_some hn0) hl rfl hl _ fun e => by cases e
      · rename_i hnext
        obtain ⟨r, rest, hcat⟩ := List.exists_cons_of_ne_nil hnext
        have hr : r ∈ n.mgr.rm.alpha ∨ r ∈ n.mgr.rm.beta := by
          have : r ∈ n.mgr.rm.next := by rw [hcat]; simp
          unfold RM.next at this
          rw [g1.gamma, g1.delta] at this
          split at this
          · exact Or.inl this
          · simp only [ne_eq, not_true, if_false] at this
            split at this
            · exact Or.inr this
            · cases this
        have hrall : r ∈ n.mgr.rm.all := by
          simp only [RM.all, List.mem_append]; tauto
        have hk : IsConjunctive r.form ∨ IsDisjunctive r.form :=
          hr.elim (fun e => Or.inl (g1.sorted.3 r e)) fun e => Or.inr (g1.sorted.4 r e)
        have hwr : WideTop r.form := hN0.wide i n.core (core_some hn0) r hrall
        rw [hcat] at hs
        cases hap : r.apply s0.m s0.sk r.form.metaElems with
        | none => simp [Mgr.tryToApply, hap] at hs
        | some bs =>
          simp only [Mgr.tryToApply, hap, Option.map_some, isGammaRule_false, Bool.false_and, Bool.false_eq_true, if_false,
            List.append_nil, List.map_eq_nil_iff] at hs
          have hnote : s0.noteNon i (notes i) = ⟨some r.form, formsOf bs⟩ := by
            simp [St.noteNon, hn0, hcat, hap]
          rw [hnote] at hnotes
          have hbne : bs ≠ [] := (apply_plain _ _ _ (g1.plain r hrall) hap).1
          rw [if_neg hbne] at hs
          obtain rfl := Option.some.inj hs
          clear hs
          generalize ha : (⟨r, bs.map fun b => ⟨(n.mgr.rm.remove r).insertAll b, n.mgr.reintro, n.mgr.metas⟩, _⟩ : Applied) = a
          have hab : a.branches = bs.map fun b => ⟨(n.mgr.rm.remove r).insertAll b, n.mgr.reintro, n.mgr.metas⟩ := by rw [← ha]
          have hao : a.own.rm = n.mgr.rm := by rw [← ha]
          have hbl : a.branches.length = bs.length := by rw [hab]; simp
          obtain ⟨n3, e1, e2, -, -, -, e3, e4, -, -⟩ := expand_get hn0 a
          rw [hbl] at e4
          have hcore : ∀ q x, (s0.expand i a).core q = some x →
              (q = i ∧ x = n3.core) ∨ (q ≠ i ∧ s0.core q = some x) ∨
              ∃ k b, q = s0.nodes.length + k ∧ bs[k]? = some b ∧ x.mgr.rm = (n.mgr.rm.remove r).insertAll b ∧ x.children = [] ∧ x.isClosed = false := by
            intro q x hx
            obtain ⟨y, hy, rfl⟩ := of_core hx
            rw [e1] at hy
            rcases Nat.lt_or_ge q s0.nodes.length with hq | hq
            · rw [List.getElem?_append_left (by simpa using hq), List.getElem?_set] at hy
              split at hy
              · rename_i e
                simp only [hlt, if_true, Option.some.injEq] at hy
                exact Or.inl ⟨e.symm, by rw [hy]⟩
              · rename_i e
                exact Or.inr (Or.inl ⟨fun h => e h.symm, core_some hy⟩)
            · rw [List.getElem?_append_right (by simpa using hq), List.length_set, List.getElem?_mapIdx, hab] at hy
              simp only [List.getElem?_map, Option.map_map, Option.map_eq_some_iff] at hy
              obtain ⟨b, hb, rfl⟩ := hy
              exact Or.inr (Or.inr ⟨q - s0.nodes.length, b, by omega, hb, rfl, rfl, rfl⟩)
          have hold : ∀ q x, q ≠ i → s0.core q = some x → (s0.expand i a).core q = some x := by
            intro q x hq hx
            obtain ⟨y, hy, rfl⟩ := of_core hx
            have hlt' : q < s0.nodes.length := (List.getElem?_eq_some_iff.1 hy).1
            apply core_some
            rw [e1, List.getElem?_append_left (by simpa using hlt'), List.getElem?_set, if_neg (fun h => hq h.symm)]
            exact hy
          have hi : (s0.expand i a).core i = some n3.core := by
            apply core_some
            rw [e1, List.getElem?_append_left (by simpa using hlt), List.getElem?_set, if_pos rfl, if_pos hlt]
          have hnew : ∀ (k : Nat) (b : List Rule), bs[k]? = some b → ∃ x, (s0.expand i a).core (s0.nodes.length + k) = some x ∧
              x.mgr.rm = (n.mgr.rm.remove r).insertAll b := by
            intro k b hb
            refine ⟨_, core_some (n := { mgr := ⟨(n.mgr.rm.remove r).insertAll b, n.mgr.reintro, n.mgr.metas⟩, father := i, childNb := k, done := n3.done }) ?_, rfl⟩
            rw [e1, List.getElem?_append_right (by simp), List.length_set, List.getElem?_mapIdx, hab]
            simp [hb]
          have hrm : n3.mgr.rm = n.mgr.rm := by rw [e2]; exact hao
          rw [← hnotes]
          refine ⟨fun q x hx => ?_, fun q x hx hc => ?_, fun q x hx hc hcl' => ?_⟩
          · rcases hcore q x hx with ⟨rfl, rfl⟩ | ⟨-, h⟩ | ⟨k, b, -, hb, e, -⟩
            · show ∀ r ∈ n3.mgr.rm.all, _
              rw [hrm]; exact hN0.wide q n.core (core_some hn0)
            · exact hN0.wide q x h
            · rw [e]
              intro y hy
              rcases mem_insertAll.1 hy with hy | hy
              · exact hN0.wide i n.core (core_some hn0) y (mem_remove.1 hy)
              · exact apply_wide _ _ _ hk hwr hap b (List.mem_of_getElem? hb) y hy
          · rcases hcore q x hx with ⟨rfl, rfl⟩ | ⟨hq, h⟩ | ⟨k, b, -, hb, e, ec, -⟩
            · refine ⟨r, bs, _, _, _, ?_, hk, hap, by simp [setNote], ?_, ?_⟩
              · show r ∈ n3.mgr.rm.all
                rw [hrm]; exact hrall
              · show n3.children.length = _
                rw [e4]; simp
              · intro k c b hkc hb
                have hkc : n3.children[k]? = some c := hkc
                rw [e4, List.getElem?_map, Option.map_eq_some_iff] at hkc
                obtain ⟨k', hk', rfl⟩ := hkc
                have hk'' : k = k' := by
                  rw [List.getElem?_range (List.getElem?_eq_some_iff.1 hb).1] at hk'
                  exact Option.some.inj hk'
                subst hk''
                obtain ⟨y, hy, ey⟩ := hnew k b hb
                refine ⟨y, hy, fun z hz => ?_⟩
                rw [ey] at hz
                show z ∈ n3.mgr.rm.all ∨ _
                rw [hrm]
                rcases mem_insertAll.1 hz with hz | hz
                · exact Or.inl (mem_remove.1 hz)
                · exact Or.inr hz
            · obtain ⟨r', bs', m', sk', args', h1, h2, h3, h4, h5, h6⟩ := hN0.inner q x h hc
              refine ⟨r', bs', m', sk', args', h1, h2, h3, by simp [setNote, hq, h4], h5, fun k c b hkc hb => ?_⟩
              obtain ⟨nc, h7, h8⟩ := h6 k c b hkc hb
              by_cases hci : c = i
              · subst hci
                rw [core_some hn0] at h7
                obtain rfl := Option.some.inj h7
                refine ⟨n3.core, hi, ?_⟩
                show ∀ x ∈ n3.mgr.rm.all, _
                rw [hrm]; exact h8
              · exact ⟨nc, hold c nc hci h7, h8⟩
            · exact absurd ec hc
          · rcases hcore q x hx with ⟨rfl, rfl⟩ | ⟨hq, h⟩ | ⟨k, b, -, hb, e, ec, ecl⟩
            · have : n3.isClosed = true := hcl'
              rw [e3] at this; cases this
            · simpa [setNote, hq] using hN0.leaf q x h hc hcl'
            · rw [ecl] at hcl'; cases hcl'
    · rename_i subs hclosure
      rw [hclosure] at hnotes
      dsimp only at hnotes
      have hx := closure_ground hU g1 hclosure
      have hshut : n.mgr.rm.shut = true := by
        by_contra hc
        rw [if_neg (by simpa using hc)] at hx; cases hx
      rw [if_pos hshut] at hx
      obtain rfl := Option.some.inj hx
      have hdone : n.done = [] := by
        by_contra hc
        have := (hD0.node i n hn0).done hc
        rw [hW.unsent] at this; cases this
      simp only [hdone, hasNew, List.isEmpty_nil, Bool.true_or, if_true, Option.some.injEq] at hs hnotes
      subst hs
      obtain ⟨-, c2, -⟩ := closed_ok hW hshut
      have hcore := funext c2
      rw [hcore, ← hnotes]
      obtain ⟨q, hq, h2, h3⟩ := closingRule_ground (U := U) (time := s0.time) g1.pos hshut
      exact hN0.setLeaf (n' := ({ n with isClosed := true, closing := [Sub.theJoker] } : Node).core) (core_some hn0) hl rfl hl ⟨n.mgr.rm.closingRule U s0.time, []⟩ fun _ => ⟨q, by rw [hq], h2, h3⟩
  · rename_i hcond
    rw [if_neg hcond] at hnotes
    rw [send_leaf hn0 (hS.leaf i n.core hnc hl) ((hD0.node i n hn0).blank hl hW.unsent) g3] at hs
    obtain rfl := Option.some.inj hs
    rw [← hnotes]
    exact hN0

theorem stepN_step {U : Oracle} {s s' : St} {notes notes' : Nat → Note} {j : Nat} (h : s.stepN U notes j = some (s', notes')) :
    s.step U j = some s' := by
  unfold St.stepN at h
  unfold St.step
  split at h
  · cases h
  · rename_i t ht
    simp only [Option.map_eq_some_iff, Prod.mk.injEq] at h
    obtain ⟨s1, h1, rfl, -⟩ := h
    simp only [ht]
    exact h1

theorem run_notes {U : Oracle} (hU : Faithful U) (js : List Nat) {s s' : St} {notes notes' : Nat → Note} (h : Inv ar B f s)
    (hN : NotesOk s.core notes) (hs : s.runN U js notes = some (s', notes')) : Inv ar B f s' ∧ NotesOk s'.core notes' := by
  induction js generalizing s notes with
  | nil =>
    simp only [St.runN, Option.some.injEq, Prod.mk.injEq] at hs
    obtain ⟨rfl, rfl⟩ := hs
    exact ⟨h, hN⟩
  | cons j js ih =>
    simp only [St.runN] at hs
    split at hs
    · cases hs
    · rename_i p hp
      obtain ⟨s1, notes1⟩ := p
      exact ih (step_ok hU h (stepN_step hp)).1 (step_notes hU h hN hp) hs

/-- The runs with what is remembered are the runs of the search. -/
theorem runN_run {U : Oracle} (js : List Nat) {s s' : St} {notes notes' : Nat → Note} (hs : s.runN U js notes = some (s', notes')) :
    s.run U js = some s' := by
  induction js generalizing s notes with
  | nil =>
    simp only [St.runN, Option.some.injEq, Prod.mk.injEq] at hs
    rw [hs.1]; rfl
  | cons j js ih =>
    simp only [St.runN] at hs
    split at hs
    · cases hs
    · rename_i p hp
      obtain ⟨s1, notes1⟩ := p
      simp only [St.run, stepN_step hp]
      exact ih hs

/-- Every run of the search is one with what is remembered. -/
theorem run_runN {U : Oracle} (js : List Nat) {s s' : St} (notes : Nat → Note) (hs : s.run U js = some s') :
    ∃ notes', s.runN U js notes = some (s', notes') := by
  induction js generalizing s notes with
  | nil => exact ⟨notes, by simp only [St.run, Option.some.injEq] at hs; rw [hs]; rfl⟩
  | cons j js ih =>
    simp only [St.run] at hs
    split at hs
    · cases hs
    · rename_i s1 h1
      unfold St.step at h1
      split at h1
      · cases h1
      · rename_i t ht
        simp only [St.runN, St.stepN, ht, h1, Option.map_some]
        exact ih _ hs

/-! ### The proof -/

theorem mapM_exists {α β : Type} {F : α → Option β} : ∀ {l : List α}, (∀ x ∈ l, ∃ y, F x = some y) →
    ∃ r, l.mapM F = some r ∧ r.length = l.length ∧ ∀ (i : Nat) (x : α) (y : β), l[i]? = some x → r[i]? = some y → F x = some y
  | [], _ => ⟨[], rfl, rfl, by simp⟩
  | x :: l, h => by
    obtain ⟨y, hy⟩ := h x (by simp)
    obtain ⟨r, h1, h2, h3⟩ := mapM_exists (l := l) fun x hx => h x (by simp [hx])
    refine ⟨y :: r, by simp [List.mapM_cons, hy, h1], by simp [h2], fun i a b ha hb => ?_⟩
    cases i with
    | zero =>
      simp only [List.getElem?_cons_zero, Option.some.injEq] at ha hb
      rw [← ha, ← hb]; exact hy
    | succ i => exact h3 i a b (by simpa using ha) (by simpa using hb)

/-- The proof below a node with a closed tree. -/
theorem proofOf_ok {s : St} {notes : Nat → Note} (hN : NotesOk s.core notes) (k : Nat) : ∀ (i : Nat) (n : Node) (Γ : List Form),
    s.nodes[i]? = some n → s.treeClosed k i = true → (∀ r ∈ n.mgr.rm.all, r.form ∈ Γ) →
    ∃ pr, s.proofOf notes [] k i = some pr ∧ Tableau true Γ pr := by
  have hid : substBy [] = id := rfl
  induction k with
  | zero => intro i n Γ _ h; simp [St.treeClosed] at h
  | succ k ih =>
    intro i n Γ hn h hΓ
    simp only [St.treeClosed, hn] at h
    split at h
    · rename_i hc
      rw [List.all_eq_true] at h
      obtain ⟨r, bs, m, sk, args, h1, h2, h3, h4, h5, h6⟩ := hN.inner i n.core (core_some hn) hc
      have h1 : r ∈ n.mgr.rm.all := h1
      have h5 : n.children.length = bs.length := h5
      have sub : ∀ (q c : Nat) (b : List Rule), n.children[q]? = some c → bs[q]? = some b →
          ∃ pr, s.proofOf notes [] k c = some pr ∧ Tableau true (Γ ++ b.map (·.form)) pr := by
        intro q c b hq hb
        obtain ⟨nc, h7, h8⟩ := h6 q c b hq hb
        obtain ⟨y, hy, rfl⟩ := of_core h7
        refine ih c y _ hy (h c (List.mem_of_getElem? hq)) fun x hx => ?_
        rcases h8 x hx with hx | hx
        · exact List.mem_append_left _ (hΓ x hx)
        · exact List.mem_append_right _ (List.mem_map.2 ⟨x, hx, rfl⟩)
      have hlen : ¬ n.children.length < (formsOf bs).length := by simp [formsOf, h5]
      rcases h2 with h2 | h2
      · obtain ⟨a1, b, rfl, a2⟩ := noted_alpha _ _ _ h2 h3
        obtain ⟨c, hcc⟩ := List.length_eq_one_iff.1 (by simpa using h5)
        obtain ⟨pr, p1, p2⟩ := sub 0 c b (by simp [hcc]) rfl
        refine ⟨.mk r.form i (ruleOf r.form) [b.map (·.form)] [] :: pr, ?_, .alpha (hΓ r h1) a1 a2 (fun g hg => hg) p2⟩
        simp only [St.proofOf, hn, h4, if_neg hlen, hcc, p1, hid]
        simp [formsOf]
      · obtain ⟨b1, b2, b3⟩ := noted_beta _ _ _ h2 (hN.wide i n.core (core_some hn) r h1) h3
        obtain ⟨prs, q1, q2, q3⟩ := mapM_exists (F := s.proofOf notes [] k) (l := n.children) (by
          intro c hcm
          obtain ⟨q, hq⟩ := List.mem_iff_getElem?.1 hcm
          have hlt : q < bs.length := by rw [← h5]; exact (List.getElem?_eq_some_iff.1 hq).1
          obtain ⟨pr, p1, -⟩ := sub q c bs[q] hq (by simp [hlt])
          exact ⟨pr, p1⟩)
        refine ⟨[.mk r.form i (ruleOf r.form) (formsOf bs) prs], ?_, .beta (hΓ r h1) b1 b2 (by simp [q2, h5, formsOf]) ?_⟩
        · obtain ⟨c, c', rest, hcc⟩ : ∃ c c' rest, n.children = c :: c' :: rest := by
            match hch : n.children with
            | [] => rw [hch] at h5; simp at h5; omega
            | [_] => rw [hch] at h5; simp at h5; omega
            | c :: c' :: rest => exact ⟨c, c', rest, rfl⟩
          rw [hcc] at q1 hlen
          simp only [St.proofOf, hn, h4, if_neg hlen, hcc, q1, hid]
          simp
        · intro q G c hG hc
          simp only [formsOf, List.getElem?_map, Option.map_eq_some_iff] at hG
          obtain ⟨b, hb, rfl⟩ := hG
          have hlt : q < n.children.length := by rw [← q2]; exact (List.getElem?_eq_some_iff.1 hc).1
          obtain ⟨pr, p1, p2⟩ := sub q n.children[q] b (by simp [hlt]) hb
          have := q3 q n.children[q] c (by simp [hlt]) hc
          rw [this] at p1
          obtain rfl := Option.some.inj p1
          exact p2
    · rename_i hc
      have hc : n.children = [] := by simpa using hc
      obtain ⟨q, h1, h2, h3⟩ := hN.leaf i n.core (core_some hn) hc h
      refine ⟨[.mk q i .ax [] []], ?_, .ax (closes_mono (fun g hg => ?_) h2)⟩
      · simp only [St.proofOf, hn, h1, hc, h3, hid]
        simp
      · obtain ⟨r, hr, rfl⟩ := List.mem_map.1 hg
        exact hΓ r hr

theorem compatibleSubs_mem_blank {slots : List (List Sub)} (h : ∀ l ∈ slots, ∀ x ∈ l, x.l = []) : ∀ x ∈ compatibleSubs slots, x.l = [] := by
  cases slots with
  | nil => simp [compatibleSubs]
  | cons c cs =>
    simp only [compatibleSubs]
    have hc := h c (by simp)
    have hcs : ∀ l ∈ cs, ∀ x ∈ l, x.l = [] := fun l hl => h l (by simp [hl])
    clear h
    induction cs generalizing c with
    | nil => exact hc
    | cons d cs ih => exact ih _ (between_blank hc (hcs d (by simp))).1 fun l hl => hcs l (by simp [hl])

/-- No metavariable is replaced. -/
theorem chosen_ground {s : St} (h : Inv ar B f s) : s.chosen = [] := by
  obtain ⟨hS, sent, hD⟩ := h
  unfold St.chosen
  split
  · rfl
  · rename_i n hn
    have hm : n.mgr.metas = [] := (hS.good 0 n.core (core_some hn)).2.2
    have hb : ∀ x ∈ n.compat, x.l = [] := by
      unfold Node.compat addMissing
      rw [if_pos (Or.inl hm)]
      exact compatibleSubs_mem_blank (hD.node 0 n hn).subs
    split
    · rfl
    · rename_i c cs hc
      have : c ∈ instanciateAny n.compat := by rw [hc]; simp
      unfold instanciateAny at this
      obtain ⟨x, hx, rfl⟩ := List.mem_map.1 this
      simp [Sub.pairs, hb x hx]

theorem init_notes (hw : WideTop f) (m sk : Nat) : NotesOk (St.init f m sk).core (fun _ => {}) := by
  have hget' : ∀ {j x}, (St.init f m sk).core j = some x → j = 0 ∧ x = ({ mgr := { rm := RM.root f }, father := 0 } : Node).core := by
    intro j x h
    obtain ⟨y, hy, rfl⟩ := of_core h
    cases j with
    | zero => exact ⟨rfl, by rw [← Option.some.inj hy]⟩
    | succ j => simp [St.init] at hy
  refine ⟨fun i n h => ?_, fun i n h hc => ?_, fun i n h _ hc => ?_⟩ <;> obtain ⟨-, rfl⟩ := hget' h
  · intro r hr
    have hr : r ∈ (RM.root f).all := hr
    rw [RM.root, mem_insert] at hr
    rcases hr with hr | rfl
    · simp [RM.all] at hr
    · exact hw
  · exact absurd rfl hc
  · cases hc

/-- **C95 (partial), ground formulas**: when the incremental search says that the formula is closed, the proof it hands on is a closed tableau
for the formula, whatever the schedule; no metavariable is left to be replaced. Missing: quantified formulas (`C95_violated`), and conjunctions
and disjunctions with one member inside the statements of the problem.
(The parser makes none: `presearch_wide`.) -/
theorem C95_ground_partial {U : Oracle} (hU : Faithful U) (hf : Plain ar B f) (hw : WideTop f) (m sk : Nat) (sched : List Nat) (s : St)
    (notes : Nat → Note) (h : (St.init f m sk).runN U sched (fun _ => {}) = some (s, notes))
    (hc : s.treeClosed (s.nodes.length + 1) 0 = true) : ∃ pr, s.proof notes = some pr ∧ Tableau true [f] pr := by
  obtain ⟨h1, h2⟩ := run_notes hU sched (init_inv hf m sk) (init_notes hw m sk) h
  unfold St.proof
  rw [if_pos hc, chosen_ground h1]
  obtain ⟨n, hn, -, e⟩ := h1.1.root
  obtain ⟨y, hy, rfl⟩ := of_core hn
  refine proofOf_ok h2 _ 0 y [f] hy hc fun r hr => ?_
  have e : y.mgr.rm = RM.root f := e
  rw [e, RM.root, mem_insert] at hr
  rcases hr with hr | rfl
  · simp [RM.all] at hr
  · simp

/-- The GS3 module translates the proof of a ground formula into a refutation of it (C66). -/
theorem C95_ground_gs3 {U : Oracle} (hU : Faithful U) (hf : Plain ar B f) (hw : WideTop f) (m sk : Nat) (sched : List Nat) (s : St)
    (notes : Nat → Note) (h : (St.init f m sk).runN U sched (fun _ => {}) = some (s, notes))
    (hc : s.treeClosed (s.nodes.length + 1) 0 = true) : ∃ pr, s.proof notes = some pr ∧ Gs3.Closed [f] pr := by
  obtain ⟨pr, h1, h2⟩ := C95_ground_partial hU hf hw m sk sched s notes h hc
  exact ⟨pr, h1, h2.closed (ar := ar) (B := B) (by simpa using hf)⟩

/-- An open tree has the empty proof. -/
theorem C95_open (s : St) (notes : Nat → Note) (hc : s.treeClosed (s.nodes.length + 1) 0 = false) : s.proof notes = some [] := by
  unfold St.proof
  rw [hc]; rfl

open Sample

/-- The run on `ground` meets the hypotheses; its proof is a conjunction followed by a disjunction. -/
example : Plain (fun p => if p < 60 then 1 else 0) 3 ground ∧ WideTop ground ∧
    ((St.init ground 0 200).runN (realU 9) (List.replicate 7 0) (fun _ => {})).map
      (fun p => (p.1.treeClosed (p.1.nodes.length + 1) 0, (p.1.proof p.2).map fun pr : List PS => pr.map (·.rule))) = some (true, some [.and, .or]) := by
  refine ⟨by simp [ground, P1, Q1, c, Plain, PlainL, TPlain, TPlainL], .wide (by simp [ground, P1, Q1, Wide, WideL]), by decide +kernel⟩

end Verif.Search.Incr
