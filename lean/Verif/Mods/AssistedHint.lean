import Verif.Mods.AssistedProps
/-!
# C99: the step Goéland is said to take, in assisted mode (`printGoelandChoice`, `src/Mods/assisted/assistant.go`)

Below the formulas of a state the assisted mode prints what "Goéland would apply". The normal search is `Verif.Search.Main.rules`
(`applyRules`, src/Search/destructive.go:1231-1272); what it means that a rule was applied to a formula is `Applied`, the specification of C91.

Simplifications. As in `Verif.Mods.Assisted` (rewriting and equality are off). Counters are below `math.MaxInt`. What is printed is the rule and the
formula, not the text. By `C91_never` no user of the program as it is gets to see a state; C99 is about the function for every state.
-/

namespace Verif.Assisted
open Verif.AST Verif.Search Verif.Search.Main Verif.Unif

/-! ### Model -/

/-- What is printed. -/
inductive Hint where
  /-- The closure rule, with a substitution or without any. -/
  | closure (s : Option Subst)
  | rule (r : Rule) (f : Form)
  /-- Nothing is printed. -/
  | nothing

/-- The loop over the literals (src/Mods/assisted/assistant.go:219-229): `found`, `allSubs` and `withSubs`. `none`: the closure rule stops the program. -/
def lookLoop (e : Env) (time : Nat) (pos neg : List Atom) : List FT → Bool × List Subst × Bool → Option (Bool × List Subst × Bool)
  | [], r => some r
  | f :: l, (found, all, withS) => match Main.closure e time pos neg f.form with
    | none => none
    | some none => lookLoop e time pos neg l (found, all, withS)
    | some (some subs) => match subs with
      | (p :: s) :: ss => lookLoop e time pos neg l (true, all ++ (p :: s) :: ss, withS)
      | _ => lookLoop e time pos neg l (true, all, false)

/-- The loop of `chooseReintroRule` (src/Mods/assisted/assistant.go:266-273); `none` is the empty `MetaGen` with `math.MaxInt`. -/
def bestLoop : List (FT × Nat) → Option (FT × Nat) → Option (FT × Nat)
  | [], b => b
  | g :: l, none => bestLoop l (some g)
  | g :: l, some b => bestLoop l (if b.2 > g.2 then some g else some b)

/-- `chooseReintroRule` (src/Mods/assisted/assistant.go:265-275); `none` is the nil formula (src/Core/form_and_terms.go:49-55). -/
def chooseReintro (d : Data) : Option Form := (bestLoop d.metaGen none).map (·.1.form)

/-- The `switch` (src/Mods/assisted/assistant.go:240-263) with `CanApplyGammaRule` and `CanReintroduce` (src/Search/state.go:445-462) in a destructive search.
`none`: `ToString` is called on a nil formula. -/
def ruleHint (d : Data) : Option Hint :=
  match d.alpha, d.delta, d.beta with
  | f :: _, _, _ => some (.rule .alpha f.form)
  | [], f :: _, _ => some (.rule .delta f.form)
  | [], [], f :: _ => some (.rule .beta f.form)
  | [], [], [] =>
    match (if d.n > 0 then d.gamma else []) with
    | f :: _ => some (.rule .gamma f.form)
    | [] => if d.n > 0 then (chooseReintro d).map (.rule .reintro) else some .nothing

/-- `printGoelandChoice` (src/Mods/assisted/assistant.go:214-263). `none`: the program crashes or does not end. -/
def hint (e : Env) (time : Nat) (d : Data) : Option Hint :=
  match lookLoop e time (posAtoms d.atomic) (negAtoms d.atomic) d.atomic (false, [], true) with
  | none => none
  | some (true, all, true) => (all.head?).map fun s => .closure (some s)
  | some (true, _, false) => some (.closure none)
  | some (false, _, _) => ruleHint d

/-! ### Specification -/

/-- Whether a literal of the state closes the branch, and by which substitutions. -/
def Closes (e : Env) (time : Nat) (d : Data) (f : FT) (subs : List Subst) : Prop :=
  f ∈ d.atomic ∧ Main.closure e time (posAtoms d.atomic) (negAtoms d.atomic) f.form = some (some subs)

/-- What is printed is what the search does: `o` is the result of the normal search for the state. -/
inductive Matches (e : Env) (w : Now) (d : Data) (o : Out) : Hint → Prop
  | rule {r F} : F ∈ shown d r → Applied e w d F r o → Matches e w d o (.rule r F.form)
  | nothing : o = .answer false false d → Matches e w d o .nothing

/-- **C99**: if no literal closes the branch, the step printed is the one the search takes; if nothing is printed, the search gives up the branch. -/
def C99_statement : Prop := ∀ (e : Env) (w : Now) (d : Data) (o : Out),
  (∀ f ∈ d.atomic, Main.closure e w.time (posAtoms d.atomic) (negAtoms d.atomic) f.form = some none) → rules e w d = some o →
  ∃ h, hint e w.time d = some h ∧ Matches e w d o h

/-! ### Lemmas -/

theorem lookLoop_none {e : Env} {time : Nat} {pos neg : List Atom} {r : Bool × List Subst × Bool} {l : List FT}
    (h : ∀ f ∈ l, Main.closure e time pos neg f.form = some none) : lookLoop e time pos neg l r = some r := by
  induction l generalizing r with
  | nil => rfl
  | cons f l ih =>
    obtain ⟨a, b, c⟩ := r
    simp only [lookLoop, h f (by simp)]
    exact ih fun g hg => h g (by simp [hg])

/-- What the loop over the literals has found. -/
theorem lookLoop_spec {e : Env} {time : Nat} {pos neg : List Atom} {l : List FT} {r r' : Bool × List Subst × Bool}
    (h : lookLoop e time pos neg l r = some r') :
    (r'.1 = true ↔ r.1 = true ∨ ∃ f ∈ l, ∃ s, Main.closure e time pos neg f.form = some (some s)) ∧
    (∀ s ∈ r'.2.1, s ∈ r.2.1 ∨ ∃ f ∈ l, ∃ ss, Main.closure e time pos neg f.form = some (some ss) ∧ s ∈ ss) ∧
    (r'.2.2 = false ↔ r.2.2 = false ∨ ∃ f ∈ l, ∃ s, Main.closure e time pos neg f.form = some (some s) ∧ (s = [] ∨ s.head? = some [])) ∧
    ((r.1 = true → r.2.2 = true → r.2.1 ≠ []) → r'.1 = true → r'.2.2 = true → r'.2.1 ≠ []) := by
  induction l generalizing r with
  | nil =>
    simp only [lookLoop, Option.some.injEq] at h
    subst h
    simp
  | cons f l ih =>
    obtain ⟨a, b, c⟩ := r
    simp only [lookLoop] at h
    cases hc : Main.closure e time pos neg f.form with
    | none => rw [hc] at h; cases h
    | some x =>
      cases x with
      | none =>
        rw [hc] at h
        simpa [hc] using ih h
      | some subs =>
        rw [hc] at h
        rcases subs with _ | ⟨_ | ⟨p, s⟩, ss⟩
        · obtain ⟨h1, h2, h3, h4⟩ := ih h
          refine ⟨by simp [h1, hc], fun s hs => ?_, by simp [h3, hc], fun _ => h4 (by simp)⟩
          rcases h2 s hs with h' | ⟨g, hg, h'⟩
          · exact .inl h'
          · exact .inr ⟨g, by simp [hg], h'⟩
        · obtain ⟨h1, h2, h3, h4⟩ := ih h
          refine ⟨by simp [h1, hc], fun s hs => ?_, by simp [h3, hc], fun _ => h4 (by simp)⟩
          rcases h2 s hs with h' | ⟨g, hg, h'⟩
          · exact .inl h'
          · exact .inr ⟨g, by simp [hg], h'⟩
        · obtain ⟨h1, h2, h3, h4⟩ := ih h
          refine ⟨by simp [h1, hc], fun t ht => ?_, by simp [h3, hc], fun _ => h4 (by simp)⟩
          rcases h2 t ht with h' | ⟨g, hg, h'⟩
          · rcases List.mem_append.1 h' with h' | h'
            · exact .inl h'
            · exact .inr ⟨f, by simp, _, hc, h'⟩
          · exact .inr ⟨g, by simp [hg], h'⟩

/-- The two loops choose the same formula. -/
theorem best_choose (pre l : List (FT × Nat)) (b : FT × Nat) (i : Nat) (hi : (pre ++ l)[i]? = some b) :
    bestLoop l (some b) = (pre ++ l)[Reintro.chooseLoop (l.map (·.2)) pre.length (some b.2) i]? := by
  induction l generalizing pre b i with
  | nil => simpa [bestLoop, Reintro.chooseLoop] using hi.symm
  | cons g l ih =>
    have hl : pre ++ g :: l = (pre ++ [g]) ++ l := by simp
    rw [hl] at hi ⊢
    simp only [bestLoop, Reintro.chooseLoop, List.map_cons, gt_iff_lt]
    by_cases h : g.2 < b.2
    · rw [if_pos h, if_pos h, ih (pre ++ [g]) g pre.length (by simp)]
      simp
    · rw [if_neg h, if_neg h, ih (pre ++ [g]) b i hi]
      simp

theorem best_eq (l : List (FT × Nat)) : bestLoop l none = l[Reintro.choose (l.map (·.2))]? := by
  cases l with
  | nil => rfl
  | cons g l =>
    have := best_choose [g] l g 0 (by simp)
    simpa [bestLoop, Reintro.choose, Reintro.chooseLoop] using this

/-! ### Theorems -/

/-- **C99, where gamma rules may still be applied and there is something to reintroduce**: the step printed is the one the search takes. Missing: states
with gamma formulas and no steps left, and states with steps left and no formula at all but literals (`C99_violated_gamma`, `C99_violated_crash`). -/
theorem C99_hint_partial (e : Env) (w : Now) (d : Data) (o : Out)
    (hc : ∀ f ∈ d.atomic, Main.closure e w.time (posAtoms d.atomic) (negAtoms d.atomic) f.form = some none) (h : rules e w d = some o)
    (hg : d.alpha = [] → d.delta = [] → d.beta = [] → d.gamma ≠ [] → 0 < d.n)
    (hm : d.alpha = [] → d.delta = [] → d.beta = [] → d.gamma = [] → 0 < d.n → d.metaGen ≠ []) :
    ∃ h, hint e w.time d = some h ∧ Matches e w d o h := by
  simp only [hint, lookLoop_none hc]
  simp only [rules] at h
  cases ha : d.alpha with
  | cons f l =>
    simp only [ha] at h
    refine ⟨.rule .alpha f.form, by simp [ruleHint, ha], .rule (by simp [shown, ha]) ?_⟩
    exact C91_choice_partial e w d 0 .alpha f o (by simp [shown, ha]) (by simpa [apply, ha] using h) (by simp) (by simp)
  | nil =>
    simp only [ha] at h
    cases hd : d.delta with
    | cons f l =>
      simp only [hd] at h
      refine ⟨.rule .delta f.form, by simp [ruleHint, ha, hd], .rule (by simp [shown, hd]) ?_⟩
      exact C91_choice_partial e w d 0 .delta f o (by simp [shown, hd]) (by simpa [apply, hd, ha] using h) (by simp) (by simp)
    | nil =>
      simp only [hd] at h
      cases hb : d.beta with
      | cons f l =>
        simp only [hb] at h
        refine ⟨.rule .beta f.form, by simp [ruleHint, ha, hd, hb], .rule (by simp [shown, hb]) ?_⟩
        exact C91_choice_partial e w d 0 .beta f o (by simp [shown, hb]) (by simpa [apply, hb, ha, hd] using h) (by simp) (by simp)
      | nil =>
        simp only [hb] at h
        cases hga : d.gamma with
        | cons f l =>
          simp only [hga] at h
          have hn := hg ha hd hb (by simp [hga])
          refine ⟨.rule .gamma f.form, by simp [ruleHint, ha, hd, hb, hn, hga], .rule (by simp [shown, hga]) ?_⟩
          exact C91_choice_partial e w d 0 .gamma f o (by simp [shown, hga]) (by simpa [apply, hga, ha, hd, hb] using h) (by simp) (by simp)
        | nil =>
          simp only [hga] at h
          by_cases hn : 0 < d.n
          · have hne := hm ha hd hb hga hn
            rw [if_pos ⟨hne, hn⟩] at h
            have hne' : d.metaGen.map (·.2) ≠ [] := by simpa using hne
            obtain ⟨m, h1, -⟩ := Reintro.choose_spec _ hne'
            have hr : Reintro.reintroduce (d.metaGen.map (·.2)) none 0 =
                some (Reintro.choose (d.metaGen.map (·.2)), (d.metaGen.map (·.2)).set (Reintro.choose (d.metaGen.map (·.2))) (m + 1)) := by
              simp only [Reintro.reintroduce, h1]
            rw [hr] at h
            simp only [Option.map_eq_some_iff] at h
            obtain ⟨g, hget, rfl⟩ := h
            refine ⟨.rule .reintro g.1.form, ?_, .rule ?_ ?_⟩
            · simp [ruleHint, ha, hd, hb, hn, hga, chooseReintro, best_eq, hget]
            · simp only [shown, List.mem_map]
              exact ⟨g, List.mem_of_getElem? hget, rfl⟩
            · exact .reintro rfl ha.symm hb.symm hd.symm hga.symm rfl rfl rfl rfl
          · rw [if_neg (fun h => hn h.2)] at h
            simp only [Option.some.injEq] at h
            exact ⟨.nothing, by simp [ruleHint, ha, hd, hb, hn], .nothing h.symm⟩

/-- **C99, closure**: the closure rule is printed exactly if a literal closes the branch; a substitution that is printed closes it, and if none is
printed, a literal closes it without one. -/
theorem C99_closure (e : Env) (time : Nat) (d : Data) (h : Hint) (hh : hint e time d = some h) :
    ((∃ s, h = .closure s) ↔ ∃ f subs, Closes e time d f subs) ∧
    (∀ s, h = .closure (some s) → ∃ f subs, Closes e time d f subs ∧ s ∈ subs) ∧
    (h = .closure none → ∃ f subs, Closes e time d f subs ∧ (subs = [] ∨ subs.head? = some [])) := by
  simp only [hint] at hh
  cases hl : lookLoop e time (posAtoms d.atomic) (negAtoms d.atomic) d.atomic (false, [], true) with
  | none => rw [hl] at hh; cases hh
  | some r =>
    obtain ⟨h1, h2, h3, h4⟩ := lookLoop_spec hl
    obtain ⟨a, b, c⟩ := r
    rw [hl] at hh
    have ex : a = true ↔ ∃ f subs, Closes e time d f subs := by
      refine h1.trans ⟨?_, ?_⟩
      · rintro (h | ⟨f, hf, s, hs⟩)
        · cases h
        · exact ⟨f, s, hf, hs⟩
      · rintro ⟨f, s, hf, hs⟩
        exact .inr ⟨f, hf, s, hs⟩
    have nor : ∀ s, ruleHint d ≠ some (.closure s) := by
      intro s hs
      simp only [ruleHint] at hs
      split at hs
      · cases hs
      · cases hs
      · cases hs
      · split at hs
        · cases hs
        · split at hs
          · simp only [Option.map_eq_some_iff] at hs
            obtain ⟨_, -, hs⟩ := hs
            cases hs
          · cases hs
    cases a with
    | false =>
      simp only at hh
      have no : ∀ s, h ≠ .closure s := fun s hs => nor s (hs ▸ hh)
      refine ⟨⟨fun ⟨s, hs⟩ => absurd hs (no s), fun hx => absurd (ex.2 hx) (by simp)⟩, fun s hs => absurd hs (no _), fun hs => absurd hs (no _)⟩
    | true =>
      cases c with
      | true =>
        simp only [Option.map_eq_some_iff] at hh
        obtain ⟨s, hs, rfl⟩ := hh
        refine ⟨⟨fun _ => ex.1 rfl, fun _ => ⟨_, rfl⟩⟩, fun t ht => ?_, fun ht => by cases ht⟩
        cases ht
        rcases h2 s (List.mem_of_mem_head? hs) with h | ⟨f, hf, ss, hss, hm⟩
        · cases h
        · exact ⟨f, ss, ⟨hf, hss⟩, hm⟩
      | false =>
        simp only [Option.some.injEq] at hh
        subst hh
        refine ⟨⟨fun _ => ex.1 rfl, fun _ => ⟨_, rfl⟩⟩, fun t ht => (by cases ht), fun _ => ?_⟩
        rcases h3.1 rfl with h | ⟨f, hf, s, hs, h⟩
        · cases h
        · exact ⟨f, s, ⟨hf, hs⟩, h⟩

/-- If the closure rule does not stop the program and a literal closes the branch, a closure is printed: there is no crash. -/
theorem C99_closure_total (e : Env) (time : Nat) (d : Data) (f : FT) (subs : List Subst) (hf : Closes e time d f subs)
    (ht : ∀ g ∈ d.atomic, Main.closure e time (posAtoms d.atomic) (negAtoms d.atomic) g.form ≠ none) : ∃ s, hint e time d = some (.closure s) := by
  have tot : ∀ (l : List FT) r, (∀ g ∈ l, Main.closure e time (posAtoms d.atomic) (negAtoms d.atomic) g.form ≠ none) →
      ∃ r', lookLoop e time (posAtoms d.atomic) (negAtoms d.atomic) l r = some r' := by
    intro l
    induction l with
    | nil => exact fun r _ => ⟨r, rfl⟩
    | cons g l ih =>
      intro r hl
      obtain ⟨a, b, c⟩ := r
      have hr := fun r => ih r fun g' hg' => hl g' (by simp [hg'])
      simp only [lookLoop]
      cases hc : Main.closure e time (posAtoms d.atomic) (negAtoms d.atomic) g.form with
      | none => exact absurd hc (hl g (by simp))
      | some x =>
        cases x with
        | none => exact hr _
        | some subs => rcases subs with _ | ⟨_ | ⟨p, s⟩, ss⟩ <;> exact hr _
  obtain ⟨r, hl⟩ := tot d.atomic (false, [], true) ht
  obtain ⟨h1, -, -, h4⟩ := lookLoop_spec hl
  obtain ⟨a, b, c⟩ := r
  have ha : a = true := h1.2 (.inr ⟨f, hf.1, subs, hf.2⟩)
  subst ha
  simp only [hint, hl]
  cases c with
  | false => exact ⟨none, rfl⟩
  | true =>
    cases b with
    | nil => exact absurd rfl (h4 (by simp) rfl rfl)
    | cons s b => exact ⟨some s, rfl⟩

/-! ### Violations -/

/-- A run without metavariables in literals: no index is asked. -/
def noUnif : Env := ⟨fun _ _ _ => some [], 0, 0, fun l _ => l⟩

def hintP : Form := .pred 1 [] []

/-- **C99 violated, crash**: for the problem `p`, whose only step is to give up, the first state has steps left, no rule applies and nothing can be
reintroduced; the search gives up the branch, and the program crashes when it prints what the search would do. -/
theorem C99_violated_crash : ∃ d, prepare { n := 1, lf := [⟨hintP, []⟩] } = some d ∧ rules noUnif ⟨0, 0, 0⟩ d = some (.answer false false d) ∧
    hint noUnif 0 d = none := ⟨_, rfl, rfl, rfl⟩

def hintAll (p x : Nat) : Form := .all [⟨"X", x, .constr "$i" []⟩] (.pred p [] [.var x])

/-- The state of a run with limit 1 for `p(X)` and `q(X)` for all `X` after the first of the two was instantiated. -/
def afterFirst : Option Data :=
  match prepare { n := 1, lf := [⟨.and [hintAll 1 1, hintAll 2 2], []⟩] } with
  | none => none
  | some d => match rules noUnif ⟨0, 7, 0⟩ d with
    | some (.again d) => match prepare d with
      | some d => match rules noUnif ⟨0, 7, 0⟩ d with
        | some (.again d) => prepare d
        | _ => none
      | none => none
    | _ => none

/-- **C99 violated, gamma**: no steps are left; nothing is printed, while the search instantiates the second formula. -/
theorem C99_violated_gamma : ∃ d d', afterFirst = some d ∧ hint noUnif 0 d = some .nothing ∧
    rules noUnif ⟨0, 8, 0⟩ d = some (.again d') ∧ d'.lf.map (·.form) = [.pred 2 [] [.mv 8]] := ⟨_, _, rfl, rfl, rfl, rfl⟩

theorem C99_statement_false : ¬ C99_statement := by
  intro h
  obtain ⟨d, h1, h2, h3⟩ := C99_violated_crash
  cases h1
  obtain ⟨_, h4, -⟩ := h noUnif ⟨0, 0, 0⟩ _ _ (by decide) h2
  rw [h3] at h4
  cases h4

/-! ### Cases -/

/-- Nothing but two formulas to reintroduce; the second one was used less often. -/
def twoUsed : Data := { n := 3, metaGen := [(⟨hintAll 1 1, []⟩, 2), (⟨hintAll 2 2, []⟩, 1)] }

/-- The hypotheses of `C99_hint_partial` are met: the second formula is named, and it is the one that is reintroduced. -/
example : ∃ o, rules noUnif ⟨0, 7, 0⟩ twoUsed = some o ∧ hint noUnif 0 twoUsed = some (.rule .reintro (hintAll 2 2)) ∧
    Matches noUnif ⟨0, 7, 0⟩ twoUsed o (.rule .reintro (hintAll 2 2)) := by
  obtain ⟨o, ho⟩ : ∃ o, rules noUnif ⟨0, 7, 0⟩ twoUsed = some o := ⟨_, rfl⟩
  obtain ⟨h, h1, h2⟩ := C99_hint_partial noUnif ⟨0, 7, 0⟩ twoUsed o (by simp [twoUsed]) ho (by simp [twoUsed]) (by simp [twoUsed])
  have h3 : hint noUnif 0 twoUsed = some (.rule .reintro (hintAll 2 2)) := rfl
  have h4 : h = .rule .reintro (hintAll 2 2) := Option.some.inj (h1.symm.trans h3)
  exact ⟨o, ho, h3, h4 ▸ h2⟩

/-- A branch with `⊥` and another literal: it closes without a substitution. -/
example : hint noUnif 0 { n := 3, atomic := [⟨hintP, []⟩, ⟨.bot, []⟩] } = some (.closure none) := rfl

/-- A branch with `p(a)` and `¬p(X)`: the substitution is printed. -/
def askUnif : Env := ⟨fun _ l _ => some (if l = [] then [] else [[(0, .fn 1 [])]]), 5, 0, fun l _ => l⟩

example : hint askUnif 0 { n := 3, atomic := [⟨.pred 1 [] [.fn 1 [] []], []⟩, ⟨.neg (.pred 1 [] [.mv 0]), []⟩] } =
    some (.closure (some [(0, .fn 1 [])])) := rfl

end Verif.Assisted
