import Verif.Mods.TptpAccept
/-!
# C82: the derivation in the TPTP format
-/

namespace Verif.Tptp
open Verif.AST
open Verif.Gs3 (Rule Tree allVars mem_allVarsL)
open Verif.Rocq (problem Follows root)

/-- **C82.** For a problem with a conjecture in which the names `sko_0`, `sko_1`, … do not occur, a derivation of
the conjecture from the axioms is printed for each refutation, and it is correct. -/
def C82_statement : Prop :=
  ∀ (cfg : Cfg) (As : List Form) (c : Form) (T body : Tree), (∀ i j, cfg.sko i = cfg.sko j → i = j) →
    (∀ j, cfg.sko j ∉ (problem As c).funs) → Follows As c T body →
    ∃ (n : Nat) (ls : List Line), makeOutput cfg n T = some (As, c, ls) ∧ accepts As c ls = true

theorem processMain_problem (As : List Form) (c : Form) : processMain (problem As c) = (As, c) := by
  cases As with
  | nil => rfl
  | cons a As =>
    simp only [problem, processMain, List.getLast?_append, List.getLast?_singleton, Option.some_or, List.dropLast_concat]

theorem makeOutput_eq {cfg : Cfg} {n : Nat} {As : List Form} {c : Form} {T body : Tree} (hT : Follows As c T body) :
    makeOutput cfg n T =
      match follow cfg n body (As ++ [.neg c]) (some 3) ⟨3, []⟩ with
      | none => none
      | some (lines, _) => some (As, c, lines ++ firstStep As c ++ cutAxioms As c) := by
  obtain ⟨hroot, _, hb⟩ := hT
  have hpm := processMain_problem As c
  cases As with
  | nil =>
    simp only at hb
    subst hb
    cases body with
    | hole cs => cases hroot
    | node rule f t forms cs =>
      simp only [root, Option.some.injEq] at hroot
      subst hroot
      simp only [makeOutput, hpm, List.isEmpty_nil, if_true]
      rfl
  | cons a As =>
    obtain ⟨t, forms, rfl⟩ := hb
    simp only [makeOutput, hpm, List.isEmpty_cons, Bool.false_eq_true, if_false, List.getElem?_cons_zero]
    rfl

/-- **C82 (partial).** For a problem with a conjecture, the derivation written for a refutation is printed and
correct if the refutation is `Good`: it has no weakening, its branches are closed by a formula and its negation,
the equivalences that it splits have no negation as a side, its delta steps have a Skolem term whose symbol is
new in the branch, and a Skolem term occurs at most once in the term of a gamma step. The depth `n` of the
recursion is any bound of the height of the refutation. Missing: what `Good` excludes (see the violations),
rewriting steps and printing. -/
theorem C82_partial {cfg : Cfg} {S : Nat → Prop} {As : List Form} {c : Form} {T body : Tree} {n : Nat}
    (hinj : ∀ i j, cfg.sko i = cfg.sko j → i = j) (hnew : ∀ j, cfg.sko j ∉ (problem As c).funs)
    (hS : ∀ j, ¬ S (cfg.sko j)) (hvars : ∀ f ∈ As ++ [.neg c], ∀ i ∈ allVars f, ¬ S i) (hT : Follows As c T body)
    (hG : Good S (fun q => ∃ j, q = cfg.sko j) [] (As ++ [.neg c]) body) (hn : height body ≤ n) :
    ∃ ls, makeOutput cfg n T = some (As, c, ls) ∧ accepts As c ls = true := by
  have hfuns : ∀ q ∈ Form.funsL (As ++ [.neg c]), ¬ Later cfg 0 q := by
    rintro q hq ⟨j, _, rfl⟩
    exact hnew j (by rw [Rocq.funs_problem]; exact hq)
  have hAs : ∀ q ∈ Form.funsL As, ¬ Later cfg 0 q := fun q hq => hfuns q (by
    obtain ⟨f, hf, hq⟩ := Form.mem_funsL.1 hq
    exact Form.mem_funsL.2 ⟨f, List.mem_append.2 (.inl hf), hq⟩)
  have hG' : Good S (Later cfg 0) [] (As ++ [.neg c]) body := hG.anti (fun q ⟨j, _, e⟩ => ⟨j, e⟩)
  obtain ⟨steps, st', e, _, _, _, hnames, hcheck, hmain⟩ := follow_fine (As := As) hinj hS hAs n body (As ++ [.neg c]) 3
    ⟨3, []⟩ hn ⟨fun f hf => ⟨hvars f hf, fun q hq => hfuns q (Form.mem_funsL.2 ⟨f, hf, hq⟩)⟩, by simp [Recorded],
      Nat.le_refl _⟩ hG'
  refine ⟨steps.map .step ++ firstStep As c ++ cutAxioms As c, ?_, ?_⟩
  · rw [makeOutput_eq hT, e]
  · exact output_ok hnames (hcheck [] (by simp [Apart])) (hmain 0 3 _ rfl rfl)

/-! ### More fuel does not change the output -/

theorem followAll_mono {g g' : Tree → List Form → Option Nat → St → Option (List Line × St)}
    (hg : ∀ c hs id st r, g c hs id st = some r → g' c hs id st = some r) :
    ∀ {cs : List Tree} {hss : List (List Form)} {ids : List (Option Nat)} {st : St} {r : List Line × St},
      followAll g cs hss ids st = some r → followAll g' cs hss ids st = some r
  | [], _, _, _, _, h => by simpa [followAll] using h
  | c :: cs, [], _, _, _, h => by simp [followAll] at h
  | c :: cs, _ :: _, [], _, _, h => by simp [followAll] at h
  | c :: cs, hs :: hss, id :: ids, st, r, h => by
    simp only [followAll] at h ⊢
    split at h
    · cases h
    · rename_i lines st' heq
      rw [hg _ _ _ _ _ heq]
      simp only
      split at h
      · cases h
      · rename_i rest st'' heq'
        rw [followAll_mono hg heq']
        exact h

theorem follow_mono {cfg : Cfg} : ∀ {n : Nat} {T : Tree} {hs : List Form} {id : Option Nat} {st : St} {r : List Line × St},
    follow cfg n T hs id st = some r → follow cfg (n + 1) T hs id st = some r := by
  intro n
  induction n with
  | zero => intro T hs id st r h; simp [follow] at h
  | succ n ih =>
    intro T hs id st r h
    cases T with
    | hole cs => cases cs <;> simpa [follow] using h
    | node rule f t forms cs =>
      cases id with
      | none => simp [follow] at h
      | some id =>
        rw [follow] at h ⊢
        split at h
        · cases h
        · rename_i o ho
          split at h
          · cases h
          · rename_i lines st' heq
            rw [followAll_mono (fun _ _ _ _ _ h => ih h) heq]
            exact h

theorem makeOutput_mono {cfg : Cfg} {n : Nat} {T : Tree} {r : List Form × Form × List Line}
    (h : makeOutput cfg n T = some r) : makeOutput cfg (n + 1) T = some r := by
  cases T with
  | hole cs => cases h
  | node rule f t forms cs =>
    simp only [makeOutput] at h ⊢
    split at h
    · cases h
    · rename_i T' hT'
      split at h
      · cases h
      · rename_i lines st' heq
        rw [follow_mono heq]
        exact h

theorem makeOutput_le {cfg : Cfg} {n m : Nat} {T : Tree} {r : List Form × Form × List Line} (hnm : n ≤ m)
    (h : makeOutput cfg n T = some r) : makeOutput cfg m T = some r := by
  induction hnm with
  | refl => exact h
  | step _ ih => exact makeOutput_mono ih

theorem makeOutput_unique {cfg : Cfg} {n m : Nat} {T : Tree} {r r' : List Form × Form × List Line}
    (h : makeOutput cfg n T = some r) (h' : makeOutput cfg m T = some r') : r = r' := by
  have h1 := makeOutput_le (Nat.le_max_left n m) h
  have h2 := makeOutput_le (Nat.le_max_right n m) h'
  rw [h1] at h2
  exact Option.some.inj h2

/-! ### Weakening -/

/-- The step printed for a weakening of a formula that is not repeated is never correct: its conclusion lacks
the formula, and its premise has it. -/
theorem C82_weaken_rejected {As hs h : List Form} {f : Form} {i : Nat} {nm : Name} {prems : List Name} (hd : hs.Nodup)
    (hi : hs[i]? = some f) (hf : f ∈ h) :
    stepOk As ⟨nm, hs.eraseIdx i, [], .leftWeaken i, prems⟩ [⟨h, []⟩] = false := by
  refine Bool.eq_false_iff.2 (fun hok => ?_)
  simp only [stepOk, Bool.and_eq_true, same_iff] at hok
  have h1 := List.mem_of_mem_eraseIdx ((hok.1.2 f).1 hf)
  obtain ⟨hlt, he⟩ := List.getElem?_eq_some_iff.1 hi
  rw [List.mem_eraseIdx_iff_getElem] at h1
  obtain ⟨j, hj, hne, hej⟩ := h1
  rw [← he] at hej
  exact hne ((List.getElem_inj hd).1 hej)

/-! ### Examples and violations -/

namespace Ex
open Rocq.Ex (p0 q0 p v)

/-- `sko_0`, … are the symbols 2000, …. -/
def cfg : Cfg := { eq := 0, sko := fun k => 2000 + k, dummy := 49 }

/-- The Skolem symbols. -/
def S (q : Nat) : Prop := q = 101

/-- Axiom `∃X (p(X) ∧ q)`, conjecture `∃X p(X)`. -/
def ax1 : Form := .ex [v] (.and [p (.var 10), q0])
def conj : Form := .ex [v] (p (.var 10))
def sk : Term := .fn 101 [] []
def body : Tree :=
  .node .ex ax1 (some sk) [[.and [p sk, q0]]]
    [.node .and (.and [p sk, q0]) none [[p sk, q0]]
      [.node .nex (.neg conj) (some sk) [[.neg (p sk)]] [.node .ax (p sk) none [] []]]]
def tree : Tree := .node .and (problem [ax1] conj) none [[ax1, .neg conj]] [body]

theorem inj (i j : Nat) (h : cfg.sko i = cfg.sko j) : i = j := by
  simp only [cfg] at h; omega

/-- With a weakening: axioms `p` and `q`, conjecture `p`. -/
def weakBody : Tree := .node .w q0 none [] [.node .ax p0 none [] []]
def weakTree : Tree := .node .and (problem [p0, q0] p0) none [[p0, q0, .neg p0]] [weakBody]

/-- A weakening below a delta step. -/
def deltaWeakBody : Tree :=
  .node .ex ax1 (some sk) [[.and [p sk, q0]]]
    [.node .and (.and [p sk, q0]) none [[p sk, q0]]
      [.node .w (.and [p sk, q0]) none [] [.node .nex (.neg conj) (some sk) [[.neg (p sk)]] [.node .ax (p sk) none [] []]]]]
def deltaWeakTree : Tree := .node .and (problem [ax1] conj) none [[ax1, .neg conj]] [deltaWeakBody]

/-- Axioms `¬p ⇔ q` and `q`, conjecture `¬p`. -/
def iff : Form := .equ (.neg p0) q0
def iffBody : Tree :=
  .node .equ iff none [[.neg (.neg p0), .neg q0], [.neg p0, q0]]
    [.node .ax q0 none [] [], .node .ax (.neg (.neg p0)) none [] []]
def iffTree : Tree := .node .and (problem [iff, q0] (.neg p0)) none [[iff, q0, .neg (.neg p0)]] [iffBody]

/-- Axiom `⊥`, conjecture `p`. -/
def botBody : Tree := .node .ax .bot none [] []
def botTree : Tree := .node .and (problem [.bot] p0) none [[.bot, .neg p0]] [botBody]

/-- Axiom `¬⊤`, conjecture `p`. -/
def topBody : Tree := .node .ax (.neg .top) none [] []
def topTree : Tree := .node .and (problem [.neg .top] p0) none [[.neg .top, .neg p0]] [topBody]

/-- Axioms `∃X p(g(X, X))` and `∀X ¬p(X)`, conjecture `q`. -/
def two (t : Term) : Term := .fn 5 [] [t, t]
def twiceE : Form := .ex [v] (p (two (.var 10)))
def twiceA : Form := .all [v] (.neg (p (.var 10)))
def twiceBody : Tree :=
  .node .ex twiceE (some sk) [[p (two sk)]]
    [.node .all twiceA (some (two sk)) [[.neg (p (two sk))]] [.node .ax (p (two sk)) none [] []]]
def twiceTree : Tree := .node .and (problem [twiceE, twiceA] q0) none [[twiceE, twiceA, .neg q0]] [twiceBody]

/-- Axiom `∃X p(a)`, conjecture `p(a)`. -/
def a : Term := .fn 6 [] []
def vacuous : Form := .ex [v] (p a)
def vacuousBody : Tree := .node .ex vacuous none [[p a]] [.node .ax (p a) none [] []]
def vacuousTree : Tree := .node .and (problem [vacuous] (p a)) none [[vacuous, .neg (p a)]] [vacuousBody]

/-- Axioms `p(sko_0)` and `∃X (p(X) ∧ ¬p(X))`, conjecture `q`. -/
def clash : Form := .ex [v] (.and [p (.var 10), .neg (p (.var 10))])
def named : Form := p (.fn 2000 [] [])
def clashBody : Tree :=
  .node .ex clash (some sk) [[.and [p sk, .neg (p sk)]]]
    [.node .and (.and [p sk, .neg (p sk)]) none [[p sk, .neg (p sk)]] [.node .ax (p sk) none [] []]]
def clashTree : Tree := .node .and (problem [named, clash] q0) none [[named, clash, .neg q0]] [clashBody]

/-- Axioms `(∃X (p(X) ∧ ∃Y p(Y))) ∨ q` and `∀X (¬p(X) ∧ ¬q)`, conjecture `⊥`: the instance of the second axiom for a
Skolem term is used in both branches, and the Skolem term is created in the first. -/
def w : TVar := ⟨"Y", 11, .constr "$i" []⟩
def sk2 : Term := .fn 102 [] []
def inner : Form := .ex [w] (p (.var 11))
def left : Form := .ex [v] (.and [p (.var 10), inner])
def branchA : Form := .or [left, q0]
def branchB : Form := .all [v] (.and [.neg (p (.var 10)), .neg q0])
def branchI : Form := .and [.neg (p sk2), .neg q0]
def branchBody : Tree :=
  .node .or branchA none [[left], [q0]]
    [.node .ex left (some sk) [[.and [p sk, inner]]]
      [.node .and (.and [p sk, inner]) none [[p sk, inner]]
        [.node .ex inner (some sk2) [[p sk2]]
          [.node .all branchB (some sk2) [[branchI]]
            [.node .and branchI none [[.neg (p sk2), .neg q0]] [.node .ax (p sk2) none [] []]]]]],
     .node .all branchB (some sk2) [[branchI]]
       [.node .and branchI none [[.neg (p sk2), .neg q0]] [.node .ax q0 none [] []]]]
def branchTree : Tree :=
  .node .and (problem [branchA, branchB] .bot) none [[branchA, branchB, .neg .bot]] [branchBody]

/-- Axioms `¬p` and `p` without a conjecture. -/
def noConj : Form := .and [.neg p0, p0]
def noConjTree : Tree := .node .and noConj none [[.neg p0, p0]] [.node .ax p0 none [] []]
end Ex

open Ex Rocq.Ex in
/-- The hypotheses of `C82_partial` are met by a refutation with delta, alpha and gamma steps. -/
example : (∀ i j, Ex.cfg.sko i = Ex.cfg.sko j → i = j) ∧ (∀ j, Ex.cfg.sko j ∉ (problem [Ex.ax1] Ex.conj).funs) ∧
    (∀ j, ¬ Ex.S (Ex.cfg.sko j)) ∧ (∀ f ∈ [Ex.ax1] ++ [.neg Ex.conj], ∀ i ∈ allVars f, ¬ Ex.S i) ∧
    Follows [Ex.ax1] Ex.conj Ex.tree Ex.body ∧
    Good Ex.S (fun q => ∃ j, q = Ex.cfg.sko j) [] ([Ex.ax1] ++ [.neg Ex.conj]) Ex.body ∧ height Ex.body ≤ 4 := by
  refine ⟨Ex.inj, ?_, ?_, by unfold Ex.S; decide, ⟨rfl, by decide +kernel, _, _, rfl⟩, ?_, by decide⟩
  · intro j
    simp [problem, Ex.ax1, Ex.conj, Form.funs, Form.funsL, Rocq.Ex.p, Rocq.Ex.q0, Term.funsL, Term.funs]
  · intro j h; simp only [Ex.S, Ex.cfg] at h; omega
  · have hN : ∀ k, k < 2000 → ¬ ∃ j, k = Ex.cfg.sko j := by
      rintro k hk ⟨j, hj⟩; simp only [Ex.cfg] at hj; omega
    refine .delta (q := 101) (x := 10) (tys0 := []) (args0 := []) (b := .and [Rocq.Ex.p (.var 10), Rocq.Ex.q0]) (by simp) rfl rfl
      (by decide) (by decide) (by simp [Ex.S]) (hN _ (by omega)) rfl (by decide) (by simp) rfl ?_
    refine .alpha (by decide +kernel) rfl ?_
    refine .gamma (x := 10) (b := .neg (Rocq.Ex.p (.var 10))) (by decide +kernel) rfl rfl (by decide) (by decide)
      (by simp [Ex.S]) (hN _ (by omega)) rfl ?_ ?_ ?_
    · intro q hq
      simp only [Ex.sk, Term.funs, Term.funsL, List.mem_singleton] at hq
      subst hq
      exact ⟨hN _ (by omega), fun _ => ⟨_, List.mem_singleton.2 rfl, rfl⟩⟩
    · intro t ht
      rw [List.mem_singleton.1 ht]
      exact ⟨by decide, fun _ => .refl⟩
    · exact .axPos (by decide +kernel) (by decide +kernel) (by simp [Rocq.Ex.p])

open Ex Rocq.Ex in
/-- The derivation written for it. -/
example : makeOutput Ex.cfg 4 Ex.tree = some ([Ex.ax1], Ex.conj,
    let c : Term := .fn 2000 [] []
    let pq : Form := .and [Rocq.Ex.p c, Rocq.Ex.q0]
    let h0 : List Form := [Ex.ax1, .neg Ex.conj]
    [.step ⟨.f 6, h0 ++ [pq, Rocq.Ex.p c, Rocq.Ex.q0, .neg (Rocq.Ex.p c)], [], .leftHyp 3, []⟩,
     .step ⟨.f 5, h0 ++ [pq, Rocq.Ex.p c, Rocq.Ex.q0], [], .leftNotEx 1 c, [.f 6]⟩,
     .step ⟨.f 4, h0 ++ [pq], [], .leftAnd 2, [.f 5]⟩,
     .step ⟨.f 3, h0, [], .leftExists 0 c, [.f 4]⟩,
     .step ⟨.f 2, [Ex.ax1, Ex.conj], [Ex.conj], .hyp 1, []⟩,
     .step ⟨.f 1, [Ex.ax1], [Ex.conj, .neg Ex.conj], .rightNot 1, [.f 2]⟩,
     .step ⟨.f 0, [Ex.ax1], [Ex.conj], .cut 1, [.f 1, .f 3]⟩,
     .step ⟨.ac 0, [], [Ex.conj], .cut 0, [.ax 0, .f 0]⟩]) := by decide +kernel

/-- **C82, violated.** A refutation with a weakening gives a derivation that is not correct. -/
theorem C82_violated_weaken : Follows [Rocq.Ex.p0, Rocq.Ex.q0] Rocq.Ex.p0 Ex.weakTree Ex.weakBody ∧
    ∃ ls, makeOutput Ex.cfg 2 Ex.weakTree = some ([Rocq.Ex.p0, Rocq.Ex.q0], Rocq.Ex.p0, ls) ∧
      accepts [Rocq.Ex.p0, Rocq.Ex.q0] Rocq.Ex.p0 ls = false := by
  refine ⟨⟨rfl, by decide +kernel, _, _, rfl⟩, ?_⟩
  refine ⟨((makeOutput Ex.cfg 2 Ex.weakTree).map (·.2.2)).getD [], by decide +kernel, by decide +kernel⟩

/-- **C82, violated.** A weakening below a delta step is an index out of range. -/
theorem C82_violated_delta_weaken : Follows [Ex.ax1] Ex.conj Ex.deltaWeakTree Ex.deltaWeakBody ∧
    ∀ n, makeOutput Ex.cfg n Ex.deltaWeakTree = none := by
  refine ⟨⟨rfl, by decide +kernel, _, _, rfl⟩, fun n => ?_⟩
  cases n with
  | zero => rfl
  | succ n => rfl

/-- **C82, violated.** An equivalence with a negation as a side ends in an anomaly. -/
theorem C82_violated_iff : Follows [Ex.iff, Rocq.Ex.q0] (.neg Rocq.Ex.p0) Ex.iffTree Ex.iffBody ∧
    ∀ n, makeOutput Ex.cfg n Ex.iffTree = none := by
  refine ⟨⟨rfl, by decide +kernel, _, _, rfl⟩, fun n => ?_⟩
  cases n with
  | zero => rfl
  | succ n => rfl

/-- **C82, violated.** A branch closed by `⊥` gives a step that is not correct. -/
theorem C82_violated_bot : Follows [.bot] Rocq.Ex.p0 Ex.botTree Ex.botBody ∧
    ∃ ls, makeOutput Ex.cfg 1 Ex.botTree = some ([.bot], Rocq.Ex.p0, ls) ∧ accepts [.bot] Rocq.Ex.p0 ls = false := by
  refine ⟨⟨rfl, by decide +kernel, _, _, rfl⟩, ?_⟩
  refine ⟨((makeOutput Ex.cfg 1 Ex.botTree).map (·.2.2)).getD [], by decide +kernel, by decide +kernel⟩

/-- **C82, violated.** A branch closed by `¬⊤` ends in an anomaly. -/
theorem C82_violated_top : Follows [.neg .top] Rocq.Ex.p0 Ex.topTree Ex.topBody ∧
    ∀ n, makeOutput Ex.cfg n Ex.topTree = none := by
  refine ⟨⟨rfl, by decide +kernel, _, _, rfl⟩, fun n => ?_⟩
  cases n with
  | zero => rfl
  | succ n => rfl

/-- **C82, violated.** In the term of a gamma step only the first occurrence of a Skolem term is replaced. -/
theorem C82_violated_twice : Follows [Ex.twiceE, Ex.twiceA] Rocq.Ex.q0 Ex.twiceTree Ex.twiceBody ∧
    ∃ ls, makeOutput Ex.cfg 3 Ex.twiceTree = some ([Ex.twiceE, Ex.twiceA], Rocq.Ex.q0, ls) ∧
      (∃ s, Line.step s ∈ ls ∧ s.inf = .leftForall 1 (.fn 5 [] [.fn 2000 [] [], Ex.sk])) ∧
      accepts [Ex.twiceE, Ex.twiceA] Rocq.Ex.q0 ls = false := by
  refine ⟨⟨rfl, by decide +kernel, _, _, rfl⟩, ?_⟩
  refine ⟨((makeOutput Ex.cfg 3 Ex.twiceTree).map (·.2.2)).getD [], by decide +kernel, ?_, by decide +kernel⟩
  refine ⟨⟨.f 4, [Ex.twiceE, Ex.twiceA, .neg Rocq.Ex.q0, Rocq.Ex.p (Ex.two (.fn 2000 [] []))], [],
    .leftForall 1 (.fn 5 [] [.fn 2000 [] [], Ex.sk]), [.f 5]⟩, by decide +kernel, rfl⟩

/-- **C82, violated.** A Skolem term used in a branch other than the one that creates it is printed as the constant
in the gamma step, but not in the formulas. -/
theorem C82_violated_branch : Follows [Ex.branchA, Ex.branchB] .bot Ex.branchTree Ex.branchBody ∧
    ∃ ls, makeOutput Ex.cfg 7 Ex.branchTree = some ([Ex.branchA, Ex.branchB], .bot, ls) ∧
      (∃ s, Line.step s ∈ ls ∧ s.left = [Ex.branchA, Ex.branchB, .neg .bot, Rocq.Ex.q0] ∧
        s.inf = .leftForall 1 (.fn 2001 [] []) ∧ s.prems = [.f 11] ∧
        ∃ s', Line.step s' ∈ ls ∧ s'.name = .f 11 ∧ Ex.branchI ∈ s'.left) ∧
      accepts [Ex.branchA, Ex.branchB] .bot ls = false := by
  refine ⟨⟨rfl, by decide +kernel, _, _, rfl⟩, ?_⟩
  refine ⟨((makeOutput Ex.cfg 7 Ex.branchTree).map (·.2.2)).getD [], by decide +kernel, ?_, by decide +kernel⟩
  refine ⟨⟨.f 5, [Ex.branchA, Ex.branchB, .neg .bot, Rocq.Ex.q0], [], .leftForall 1 (.fn 2001 [] []), [.f 11]⟩,
    by decide +kernel, rfl, rfl, rfl, ?_⟩
  exact ⟨⟨.f 11, [Ex.branchA, Ex.branchB, .neg .bot, Rocq.Ex.q0, Ex.branchI], [], .leftAnd 4, [.f 12]⟩,
    by decide +kernel, rfl, by decide +kernel⟩

/-- **C82, violated.** A delta step for a variable that does not occur has no term, and nil is dereferenced. -/
theorem C82_violated_vacuous : Follows [Ex.vacuous] (Rocq.Ex.p Ex.a) Ex.vacuousTree Ex.vacuousBody ∧
    ∀ n, makeOutput Ex.cfg n Ex.vacuousTree = none := by
  refine ⟨⟨rfl, by decide +kernel, _, _, rfl⟩, fun n => ?_⟩
  cases n with
  | zero => rfl
  | succ n => rfl

/-- **C82.** That the names `sko_0`, … do not occur in the problem is needed: otherwise the constant is not new. -/
theorem C82_violated_clash : Follows [Ex.named, Ex.clash] Rocq.Ex.q0 Ex.clashTree Ex.clashBody ∧
    ∃ ls, makeOutput Ex.cfg 3 Ex.clashTree = some ([Ex.named, Ex.clash], Rocq.Ex.q0, ls) ∧
      accepts [Ex.named, Ex.clash] Rocq.Ex.q0 ls = false := by
  refine ⟨⟨rfl, by decide +kernel, _, _, rfl⟩, ?_⟩
  refine ⟨((makeOutput Ex.cfg 3 Ex.clashTree).map (·.2.2)).getD [], by decide +kernel, by decide +kernel⟩

/-- **C82, violated.** Without a conjecture the last axiom is taken for the conjecture and its negation for a
hypothesis. -/
theorem C82_violated_conjecture : Gs3.valid [Ex.noConj] Ex.noConjTree = true ∧
    processMain Ex.noConj = ([.neg Rocq.Ex.p0], Rocq.Ex.p0) ∧ ∀ n, makeOutput Ex.cfg n Ex.noConjTree = none := by
  refine ⟨by decide +kernel, by decide +kernel, fun n => ?_⟩
  cases n with
  | zero => rfl
  | succ n => rfl

theorem C82_statement_false : ¬ C82_statement := by
  intro h
  obtain ⟨hF, ls, hm, hr⟩ := C82_violated_weaken
  obtain ⟨n, ls', hm', ha⟩ := h Ex.cfg _ _ _ _ Ex.inj (by
    intro j; simp [problem, Rocq.Ex.p0, Rocq.Ex.q0, Form.funs, Form.funsL, Term.funsL]) hF
  have := makeOutput_unique hm hm'
  simp only [Prod.mk.injEq, true_and] at this
  subst this
  rw [hr] at ha
  cases ha

end Verif.Tptp
