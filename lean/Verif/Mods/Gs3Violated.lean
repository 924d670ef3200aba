import Verif.Mods.Gs3Props
import Verif.Search.Tableau
/-!
# C67: tableaux that the GS3 translation does not translate

The full claim speaks of the closed tableaux that the search produces: metavariables for gamma
formulas, Skolem terms over the metavariables of the delta formula, and one substitution that closes
all branches and has been applied to the whole proof.
-/
set_option linter.unusedVariables false

namespace Verif.Gs3
open Verif.AST

mutual
/-- A substitution applied to a formula. -/
def instF (σ : Nat → Term) : Form → Form
  | .pred p tys args => .pred p tys (Search.instTL σ args)
  | .top => .top
  | .bot => .bot
  | .neg f => .neg (instF σ f)
  | .and fs => .and (instFL σ fs)
  | .or fs => .or (instFL σ fs)
  | .imp f g => .imp (instF σ f) (instF σ g)
  | .equ f g => .equ (instF σ f) (instF σ g)
  | .all vs f => .all vs (instF σ f)
  | .ex vs f => .ex vs (instF σ f)
def instFL (σ : Nat → Term) : List Form → List Form
  | [] => []
  | f :: fs => instF σ f :: instFL σ fs
end

/-- A closed free-variable tableau for the hypotheses `Γ`: the steps are those of a tableau whose
metavariables and Skolem symbols are new (the numbers from `lo` up to `hi`), instantiated by the
substitution `σ`, which closes the branches. -/
inductive Free (σ : Nat → Term) : Nat → Nat → List Form → List PS → Prop
  | ax {lo : Nat} {Γ : List Form} {f : Form} {n : Int} :
      f ∈ Γ → closes (instFL σ Γ) (instF σ f) = true → Free σ lo lo Γ [.mk (instF σ f) n .ax [] []]
  | alpha {lo hi : Nat} {Γ : List Form} {f : Form} {n : Int} {rule : Rule} {ps : List Form} {l : List PS} :
      f ∈ Γ → rule.isAlpha = true → alphaParts rule f = some ps →
      Free σ lo hi (Γ ++ ps) l → Free σ lo hi Γ (.mk (instF σ f) n rule [instFL σ ps] [] :: l)
  | gamma {lo hi : Nat} {Γ : List Form} {f : Form} {n : Int} {rule : Rule} {x : Nat} {b : Form} {l : List PS} :
      f ∈ Γ → rule.isGamma = true → quantParts rule f = some (x, b) → x ∉ b.funs → x ∉ b.binders →
      Free σ (lo + 1) hi (Γ ++ [(b.replaceTermByTerm (.var x) (.mv lo)).1]) l →
      Free σ lo hi Γ (.mk (instF σ f) n rule [[instF σ (b.replaceTermByTerm (.var x) (.mv lo)).1]] [] :: l)
  | delta {lo hi : Nat} {Γ : List Form} {f : Form} {n : Int} {rule : Rule} {x : Nat} {b : Form} {l : List PS} :
      f ∈ Γ → rule.isDelta = true → quantParts rule f = some (x, b) → x ∉ b.funs → x ∉ b.binders →
      Free σ (lo + 1) hi (Γ ++ [(b.replaceTermByTerm (.var x) (.fn lo [] (f.metas.eraseDups.map .mv))).1]) l →
      Free σ lo hi Γ
        (.mk (instF σ f) n rule
          [[instF σ (b.replaceTermByTerm (.var x) (.fn lo [] (f.metas.eraseDups.map .mv))).1]] [] :: l)
  | beta {Γ : List Form} {f : Form} {n : Int} {rule : Rule} {ps : List (List Form)} {cs : List (List PS)}
      {bs : List Nat} {lo hi : Nat} :
      f ∈ Γ → rule.isBeta = true → betaParts rule f = some ps → cs.length = ps.length →
      bs.length = ps.length + 1 → bs.head? = some lo → bs.getLast? = some hi →
      (∀ (i : Nat) (G : List Form) (c : List PS) (a b : Nat), ps[i]? = some G → cs[i]? = some c →
        bs[i]? = some a → bs[i + 1]? = some b → Free σ a b (Γ ++ G) c) →
      Free σ lo hi Γ [.mk (instF σ f) n rule (ps.map (instFL σ)) cs]

/-- The full claim: every closed tableau for a closed formula is translated into a refutation. -/
def C67_statement : Prop :=
  ∀ (cfg : Cfg) (F : Form) (σ : Nat → Term) (lo hi : Nat) (l : List PS), F.fvs = [] → F.metas = [] →
    F.binders.Nodup → (∀ i ∈ F.binders, i < lo) → (∀ p ∈ F.funs, p < lo ∧ p ∉ F.binders) →
    (∀ m, (σ m).vars = [] ∧ ∀ p ∈ (σ m).funs, p ∉ F.binders) →
    (∀ p, cfg.sko p = decide (lo ≤ p)) →
    Free σ lo hi [F] l →
    ∃ N, ∀ n, N ≤ n → ∃ a h T, makeGS3 cfg n l = .ok (a, h) ∧ Repr 0 h a T ∧ valid [F] T = true

/-! ## More calls do not change a result -/

/-- `x` has run out of calls or is `y`. -/
def Le {α : Type} (x y : R α) : Prop := x = .out ∨ x = y

theorem Le.refl {α : Type} (x : R α) : Le x x := .inr rfl

theorem Le.bind {α β : Type} {x y : R α} {f g : α → R β} (h : Le x y) (hf : ∀ a, Le (f a) (g a)) :
    Le (x.bind f) (y.bind g) := by
  rcases h with rfl | rfl
  · exact .inl rfl
  · cases x with
    | ok a => exact hf a
    | panic => exact .inr rfl
    | out => exact .inl rfl

section
variable {cfg : Cfg} {mk mk' : GS → List PS → Heap → R (Nat × Heap)} (hmk : ∀ gs l h, Le (mk gs l h) (mk' gs l h))
include hmk

theorem rulesBack_le (gs : GS) (under : Nat) (rules : List (Rule × PS)) (h : Heap) :
    Le (rulesBack cfg mk gs under rules h) (rulesBack cfg mk' gs under rules h) :=
  (Le.refl _).bind fun _ => (hmk _ _ _).bind fun _ => Le.refl _

theorem deltaStep_le (step : PS) (parent : Nat) (gs : GS) (h : Heap) :
    Le (deltaStep cfg mk step parent gs h) (deltaStep cfg mk' step parent gs h) := by
  unfold deltaStep
  refine (Le.refl _).bind fun result => (Le.refl _).bind fun t => (Le.refl _).bind fun intro => ?_
  split
  · exact Le.refl _
  · refine (Le.refl _).bind fun ro => ?_
    split
    · exact (Le.refl _).bind fun w => (Le.refl _).bind fun w => (Le.refl _).bind fun d => (Le.refl _).bind fun p =>
        (rulesBack_le hmk _ _ _ _).bind fun _ => Le.refl _
    · refine (Le.refl _).bind fun rel => (Le.refl _).bind fun w => (Le.refl _).bind fun w => (Le.refl _).bind fun d => ?_
      dsimp only
      by_cases hr : rel.2.isEmpty = true
      · rw [if_pos hr, if_pos hr]; exact Le.refl _
      · rw [if_neg hr, if_neg hr]
        exact (rulesBack_le hmk _ _ _ _).bind fun _ => Le.refl _

theorem oneStep_le (step : PS) (parent : Nat) (gs : GS) (h : Heap) :
    Le (oneStep cfg mk step parent gs h) (oneStep cfg mk' step parent gs h) := by
  unfold oneStep
  split
  all_goals first
    | exact Le.refl _
    | exact (deltaStep_le hmk _ _ _ _).bind fun _ => Le.refl _

theorem steps_le (parent : Nat) : ∀ (l : List PS) (gs : GS) (h : Heap),
    Le (steps cfg mk parent l gs h) (steps cfg mk' parent l gs h)
  | [], _, _ => Le.refl _
  | s :: l, gs, h => (oneStep_le hmk s parent gs h).bind fun r => steps_le parent l r.1 r.2

theorem childLoop_le (gs : GS) (node : Int) (results : List (List Form)) : ∀ (i : Nat) (cs : List (List PS)) (h : Heap),
    Le (childLoop mk gs node results i cs h) (childLoop mk' gs node results i cs h)
  | _, [], _ => Le.refl _
  | i, c :: cs, h => by
    unfold childLoop
    refine (Le.refl _).bind fun fs => (hmk _ _ _).bind fun r => ?_
    split
    · exact Le.refl _
    · exact childLoop_le gs node results (i + 1) cs _

end

theorem makeProof_le (cfg : Cfg) : ∀ (n : Nat) (gs : GS) (l : List PS) (h : Heap),
    Le (makeProof cfg n gs l h) (makeProof cfg (n + 1) gs l h)
  | 0, _, _, _ => .inl rfl
  | _ + 1, _, [], _ => Le.refl _
  | n + 1, gs, s :: l, h => by
    rw [makeProof.eq_3 (n := n), makeProof.eq_3 (n := n + 1)]
    exact (steps_le (makeProof_le cfg n) _ _ _ _).bind fun r =>
      (childLoop_le (makeProof_le cfg n) _ _ _ _ _ _).bind fun _ => Le.refl _

theorem makeGS3_stable {cfg : Cfg} {n : Nat} {l : List PS} {r : R (Nat × Heap)} (h : makeGS3 cfg n l = r)
    (hr : r ≠ .out) (k : Nat) : makeGS3 cfg (n + k) l = r := by
  induction k with
  | zero => exact h
  | succ k ih =>
    rcases makeProof_le cfg (n + k) {} l [] with h' | h'
    · exact absurd (ih.symm.trans h') hr
    · exact h'.symm.trans ih

/-- The output is a tree, and not a refutation of the formula. -/
def outputWrong (F : Form) (r : R (Nat × Heap)) : Bool :=
  match r with
  | .ok (a, h) =>
    match unfold h (2 * h.length + 2) a with
    | some t => !valid [F] t
    | none => false
  | .panic => true
  | .out => false

/-- A wrong output refutes the claim for the tableau. -/
theorem wrong_refutes {cfg : Cfg} {F : Form} {l : List PS} {m : Nat} (hw : outputWrong F (makeGS3 cfg m l) = true) :
    ¬ ∃ N, ∀ n, N ≤ n → ∃ a h T, makeGS3 cfg n l = .ok (a, h) ∧ Repr 0 h a T ∧ valid [F] T = true := by
  rintro ⟨N, hN⟩
  obtain ⟨a, h, T, hok, hT, hv⟩ := hN (m + N) (by omega)
  cases hm : makeGS3 cfg m l with
  | out => rw [hm] at hw; cases hw
  | panic =>
    have := makeGS3_stable hm (by simp) N
    rw [this] at hok; cases hok
  | ok r =>
    have := makeGS3_stable hm (by simp) N
    rw [this] at hok; cases hok
    rw [hm] at hw
    simp only [outputWrong] at hw
    split at hw
    · rename_i U hU
      have := Repr.unique hT (unfold_repr _ _ _ hU)
      subst this
      simp [hv] at hw
    · cases hw

/-! ## Skolemisation of a variable that does not occur -/

namespace Vacuous
/-- `(∃x p(a)) ∧ ¬p(a)`. -/
def pa : Form := .pred 1 [] [.fn 2 [] []]
def ex : Form := .ex [⟨"x", 10, .constr "$i" []⟩] pa
def F : Form := .and [ex, .neg pa]
def proof : List PS := [
  .mk F 1 .and [[ex, .neg pa]] [],
  .mk ex 2 .ex [[pa]] [],
  .mk pa 3 .ax [] []]
def cfg : Cfg := ⟨fun p => decide (100 ≤ p), false, 0⟩

theorem free : Free .mv 100 101 [F] proof := by
  refine .alpha (σ := .mv) (f := F) (ps := [ex, .neg pa]) (by decide +kernel) rfl rfl ?_
  refine .delta (σ := .mv) (f := ex) (x := 10) (b := pa) (by decide +kernel) rfl rfl (by decide +kernel) (by decide +kernel) ?_
  exact .ax (σ := .mv) (f := pa) (by decide +kernel) (by decide +kernel)
end Vacuous

/-- **C67 fails**: for `(∃x p(a)) ∧ ¬p(a)` with its tableau of three steps, the translation panics. The
witness of the delta step is nil because the variable does not occur, and the terms of the branch are
compared with nil (src/Mods/gs3/proof.go:408-416). -/
theorem C67_violated_vacuous :
    Free .mv 100 101 [Vacuous.F] Vacuous.proof ∧
    ∀ n, 2 ≤ n → makeGS3 Vacuous.cfg n Vacuous.proof = .panic := by
  refine ⟨Vacuous.free, fun n hn => ?_⟩
  have h2 : makeGS3 Vacuous.cfg 2 Vacuous.proof = .panic := by
    have : (match makeGS3 Vacuous.cfg 2 Vacuous.proof with | .panic => true | _ => false) = true := by decide +kernel
    split at this
    · assumption
    · cases this
  have := makeGS3_stable h2 (by simp) (n - 2)
  rwa [show 2 + (n - 2) = n by omega] at this

/-! ## A formula weakened twice -/

namespace Twice
def v (i : Nat) : TVar := ⟨"x", i, .constr "$i" []⟩
def p (a : Term) : Form := .pred 1 [] [a]
def body (x y : Term) : Form := .and [.neg (p y), p x]
/-- `∀x ∃y (¬p(y) ∧ p(x))`. -/
def F : Form := .all [v 10] (.ex [v 11] (body (.var 10) (.var 11)))
def sx : Term := .fn 103 [] [.mv 102]
def sy : Term := .fn 101 [] [sx]
/-- X is instantiated with the Skolem term of the second instance. -/
def σ : Nat → Term := fun m => if m = 100 then sx else .mv m
def proof : List PS := [
  .mk F 1 .all [[.ex [v 11] (body sx (.var 11))]] [],
  .mk (.ex [v 11] (body sx (.var 11))) 2 .ex [[body sx sy]] [],
  .mk (body sx sy) 3 .and [[.neg (p sy), p sx]] [],
  .mk F 4 .all [[.ex [v 11] (body (.mv 102) (.var 11))]] [],
  .mk (.ex [v 11] (body (.mv 102) (.var 11))) 5 .ex [[body (.mv 102) sx]] [],
  .mk (body (.mv 102) sx) 6 .and [[.neg (p sx), p (.mv 102)]] [],
  .mk (p sx) 7 .ax [] []]
def cfg : Cfg := ⟨fun p => decide (100 ≤ p), false, 0⟩

theorem free : Free σ 100 104 [F] proof := by
  refine .gamma (σ := σ) (f := F) (x := 10) (b := .ex [v 11] (body (.var 10) (.var 11)))
    (by decide +kernel) rfl rfl (by decide +kernel) (by decide +kernel) ?_
  refine .delta (σ := σ) (f := .ex [v 11] (body (.mv 100) (.var 11))) (x := 11) (b := body (.mv 100) (.var 11))
    (by decide +kernel) rfl rfl (by decide +kernel) (by decide +kernel) ?_
  refine .alpha (σ := σ) (f := body (.mv 100) (.fn 101 [] [.mv 100]))
    (ps := [.neg (p (.fn 101 [] [.mv 100])), p (.mv 100)]) (by decide +kernel) rfl rfl ?_
  refine .gamma (σ := σ) (f := F) (x := 10) (b := .ex [v 11] (body (.var 10) (.var 11)))
    (by decide +kernel) rfl rfl (by decide +kernel) (by decide +kernel) ?_
  refine .delta (σ := σ) (f := .ex [v 11] (body (.mv 102) (.var 11))) (x := 11) (b := body (.mv 102) (.var 11))
    (by decide +kernel) rfl rfl (by decide +kernel) (by decide +kernel) ?_
  refine .alpha (σ := σ) (f := body (.mv 102) (.fn 103 [] [.mv 102]))
    (ps := [.neg (p (.fn 103 [] [.mv 102])), p (.mv 102)]) (by decide +kernel) rfl rfl ?_
  exact .ax (σ := σ) (f := p (.mv 100)) (by decide +kernel) (by decide +kernel)
end Twice

/-- **C67 fails** where the steps are reordered: in the tableau of seven steps for `∀x ∃y (¬p(y) ∧ p(x))`
the first instance uses the Skolem term of the second. The result of a delta step is added to the
formulas of the branch twice (src/Mods/gs3/proof.go:231,509), so that it is weakened twice, the second time when it
is no longer a hypothesis; the Rocq output stops there with an anomaly. -/
theorem C67_violated_weakening :
    Free Twice.σ 100 104 [Twice.F] Twice.proof ∧
    outputWrong Twice.F (makeGS3 Twice.cfg 3 Twice.proof) = true := by
  exact ⟨Twice.free, by decide +kernel⟩

theorem C67_statement_false : ¬ C67_statement := fun h =>
  wrong_refutes (cfg := Twice.cfg) (m := 3) C67_violated_weakening.2
    (h Twice.cfg Twice.F Twice.σ 100 104 Twice.proof (by decide +kernel) (by decide +kernel) (by decide +kernel)
      (by decide +kernel) (by decide +kernel)
      (fun m => by unfold Twice.σ; split <;> simp [Twice.sx, Twice.F, Twice.body, Twice.p, Twice.v, Term.vars, Term.varsL, Term.funs, Term.funsL, Form.binders, Form.bindersL]) (fun _ => rfl) Twice.free)

end Verif.Gs3
