import Verif.Mods.Assisted
/-!
# C91: what the assisted mode does
-/

namespace Verif.Assisted
open Verif.AST Verif.Search Verif.Search.Main Verif.Unif

/-! ### The user is never asked -/

/-- **C91, the dialogue**: whatever has happened, the user can still be asked for a step or be given a verdict. -/
def C91_statement : Prop := ∀ (e : Env) (limit : Nat) (f : Form) (s : Sys), Steps e (begin limit f) s →
  ∃ t, Steps e s t ∧ (s.asked < t.asked ∨ t.printed ≠ none)

theorem prepare_none {limit : Nat} {f : Form} : prepare { n := limit, lf := [⟨f, []⟩] } = none ↔ obvious f = true := by
  have ho : obvious f = true → showKind f = .atomic := by
    cases f with
    | neg g => cases g <;> simp [obvious, showKind]
    | _ => simp [obvious, showKind]
  unfold prepare
  simp only [dispatchLF]
  by_cases h : obvious f = true
  · simp [ho h, h]
  · by_cases hk : showKind f = .atomic <;> simp [hk, h]

/-- What there is before anything is asked. -/
structure Early (f : Form) (s : Sys) : Prop where
  counter : s.counter = ⟨1, none⟩
  status : s.status = []
  awake : s.awake = none
  asked : s.asked = 0
  printed : s.printed = none
  work : (∃ limit : Nat, s.work = [.search { n := limit, lf := [⟨f, []⟩] }]) ∨ (obvious f = false ∧ ∃ d, s.work = [.rules d]) ∨
    (obvious f = true ∧ s.work = [])

theorem one_split {α : Type} {l r : List α} {x y : α} (h : [x] = l ++ y :: r) : l = [] ∧ r = [] ∧ x = y := by
  cases l with
  | nil => simp only [List.nil_append, List.cons.injEq] at h; exact ⟨rfl, h.2.symm, h.1⟩
  | cons a l => simp at h

theorem Early.step {e : Env} {f : Form} {s t : Sys} (h : Early f s) (hs : Step e s (some t)) : Early f t := by
  obtain ⟨h1, h2, h3, h4, h5, h6⟩ := h
  cases hs with
  | @search l d r d' hw hp =>
    rcases h6 with ⟨lim, h6⟩ | ⟨-, d0, h6⟩ | ⟨-, h6⟩ <;> rw [hw] at h6
    · obtain ⟨rfl, rfl, h6⟩ := one_split h6.symm
      cases h6
      have : obvious f = false := by
        cases ho : obvious f with
        | false => rfl
        | true => rw [prepare_none.2 ho] at hp; cases hp
      exact ⟨h1, h2, h3, h4, h5, .inr (.inl ⟨this, d', rfl⟩)⟩
    · obtain ⟨-, -, h6⟩ := one_split h6.symm
      cases h6
    · simp at h6
  | @closed l d r hw hp =>
    rcases h6 with ⟨lim, h6⟩ | ⟨-, d0, h6⟩ | ⟨-, h6⟩ <;> rw [hw] at h6
    · obtain ⟨rfl, rfl, h6⟩ := one_split h6.symm
      cases h6
      exact ⟨h1, h2, h3, h4, h5, .inr (.inr ⟨prepare_none.1 hp, rfl⟩)⟩
    · obtain ⟨-, -, h6⟩ := one_split h6.symm
      cases h6
    · simp at h6
  | offer hw hc => rw [h1] at hc; simp [Counter.dec] at hc
  | again ha => rw [h3] at ha; cases ha
  | split ha => rw [h3] at ha; cases ha
  | stay ha => rw [h3] at ha; cases ha
  | close ha => rw [h3] at ha; cases ha
  | finish ha => rw [h3] at ha; cases ha

theorem early {e : Env} {limit : Nat} {f : Form} {s : Sys} (h : Steps e (begin limit f) s) : Early f s := by
  induction h with
  | refl => exact ⟨by simp [begin, Counter.inc, Counter.empty], rfl, rfl, rfl, rfl, .inl ⟨limit, rfl⟩⟩
  | tail _ hs ih => exact ih.step hs

/-- **C91 is violated on every problem**: with `-assisted` the user is never asked for anything and never gets a verdict. If the formula searched
is not obviously false, every run can only go on to a crash: the counter of the states in preparation gets to 0 and calls a function that was never set.
Otherwise no crash is possible, and every run can only go on to a deadlock. -/
theorem C91_never (e : Env) (limit : Nat) (f : Form) (s : Sys) (h : Steps e (begin limit f) s) :
    s.asked = 0 ∧ s.printed = none ∧
    (obvious f = false → ∃ t, Steps e s t ∧ Step e t none) ∧
    (obvious f = true → ¬ Step e s none ∧ ∃ t, Steps e s t ∧ ∀ o, ¬ Step e t o) := by
  obtain ⟨h1, h2, h3, h4, h5, h6⟩ := early h
  refine ⟨h4, h5, ?_, ?_⟩
  · intro ho
    have crash : ∀ (t : Sys) (d : Data), t.counter = ⟨1, none⟩ → t.work = [.rules d] → Step e t none := by
      intro t d hc hw
      exact .crash (l := []) (r := []) hw (by rw [hc]; simp [Counter.dec])
    rcases h6 with ⟨lim, h6⟩ | ⟨-, d0, h6⟩ | ⟨ho', -⟩
    · obtain ⟨d', hd⟩ : ∃ d', prepare { n := lim, lf := [⟨f, []⟩] } = some d' := by
        cases hp : prepare { n := lim, lf := [⟨f, []⟩] } with
        | none => rw [prepare_none.1 hp] at ho; cases ho
        | some d' => exact ⟨d', rfl⟩
      exact ⟨_, .tail (.refl _) (.search (l := []) (r := []) h6 hd), crash _ d' h1 rfl⟩
    · exact ⟨s, .refl _, crash _ _ h1 h6⟩
    · rw [ho] at ho'; cases ho'
  · intro ho
    have stuck : ∀ t : Sys, t.awake = none → t.work = [] → ∀ o, ¬ Step e t o := by
      intro t ha hw o hs
      cases hs with
      | search hw' => rw [hw] at hw'; simp at hw'
      | closed hw' => rw [hw] at hw'; simp at hw'
      | offer hw' => rw [hw] at hw'; simp at hw'
      | crash hw' => rw [hw] at hw'; simp at hw'
      | again ha' => rw [ha] at ha'; cases ha'
      | split ha' => rw [ha] at ha'; cases ha'
      | stay ha' => rw [ha] at ha'; cases ha'
      | close ha' => rw [ha] at ha'; cases ha'
      | finish ha' => rw [ha] at ha'; cases ha'
    rcases h6 with ⟨lim, h6⟩ | ⟨ho', -⟩ | ⟨-, h6⟩
    · refine ⟨?_, _, .tail (.refl _) (.closed (l := []) (r := []) h6 (prepare_none.2 ho)), stuck _ h3 rfl⟩
      intro hs
      cases hs with
      | crash hw' =>
        rw [h6] at hw'
        obtain ⟨-, -, h⟩ := one_split hw'
        cases h
    · rw [ho] at ho'; cases ho'
    · exact ⟨stuck s h3 h6 none, s, .refl _, stuck s h3 h6⟩

theorem C91_statement_false : ¬ C91_statement := by
  intro h
  obtain ⟨t, ht, h'⟩ := h ⟨fun _ _ _ => none, 0, 0, fun l _ => l⟩ 0 .top _ (.refl _)
  obtain ⟨h1, h2, -⟩ := C91_never _ _ _ _ ht
  rw [h1, h2] at h'
  simp [begin] at h'

/-- Even the formula `⊤` crashes the program, and `⊥`, which needs no step, deadlocks it. -/
example (e : Env) : (∃ t, Steps e (begin 1 .top) t ∧ Step e t none) ∧ ∃ t, Steps e (begin 1 .bot) t ∧ ∀ o, ¬ Step e t o :=
  ⟨(C91_never e 1 .top _ (.refl _)).2.2.1 rfl, ((C91_never e 1 .bot _ (.refl _)).2.2.2 rfl).2⟩

/-! ### What is applied (if the user could choose) -/

/-- The rule is applied to the formula `F` (specification): its results are the new formulas, it is taken from the formulas to be treated, and the
others are kept; the metavariables of the state are kept, and gamma adds its own. -/
inductive Applied (e : Env) (w : Now) (d : Data) (F : FT) : Rule → Out → Prop
  | alpha {d'} : d.alpha.Perm (F :: d'.alpha) → d'.lf.map (·.form) = applyAlpha F.form → (∀ g ∈ d'.lf, g.terms = F.terms) →
      d'.beta = d.beta → d'.delta = d.delta → d'.gamma = d.gamma → d'.atomic = d.atomic → d'.n = d.n → d'.mm = d.mm → d'.mc = d.mc → Applied e w d F .alpha (.again d')
  | delta {d' g} : d.delta.Perm (F :: d'.delta) → skolemize w.sk (e.sko (uni d.mm d.mc) F.form) F.form = some g → d'.lf.map (·.form) = [g] →
      d'.alpha = d.alpha → d'.beta = d.beta → d'.gamma = d.gamma → d'.atomic = d.atomic → d'.n = d.n → d'.mm = d.mm → d'.mc = d.mc → Applied e w d F .delta (.again d')
  | gamma {d' g k} : d.gamma.Perm (F :: d'.gamma) → instantiate w.m k F.form = some g → d'.lf.map (·.form) = [g] →
      d'.alpha = d.alpha → d'.beta = d.beta → d'.delta = d.delta → d'.atomic = d.atomic → d'.n = d.n - 1 → d'.mm = d.mm →
      (∀ x, x ∈ d'.mc ↔ x ∈ d.mc ∨ firstIsTerm F.form = true ∧ x = w.m) → Applied e w d F .gamma (.again d')
  | reintro {d'} : d'.lf = [F] → d'.alpha = d.alpha → d'.beta = d.beta → d'.delta = d.delta → d'.gamma = d.gamma → d'.atomic = d.atomic →
      d'.n = d.n → d'.mm = d.mm → d'.mc = d.mc → Applied e w d F .reintro (.again d')
  | beta {d' kids} : kids.length = (applyBeta F.form).length →
      (∀ (i : Nat) k fs, kids[i]? = some k → (applyBeta F.form)[i]? = some fs → k.lf.map (·.form) = fs ∧ d.beta.Perm (F :: k.beta) ∧
        k.alpha = d.alpha ∧ k.delta = d.delta ∧ k.gamma = d.gamma ∧ k.atomic = d.atomic) → Applied e w d F .beta (.split d' kids)

/-- **C91, the choice of a formula**: the rule chosen is applied to the formula chosen. -/
def C91_choice_statement : Prop := ∀ (e : Env) (w : Now) (d : Data) (i : Nat) (rule : Rule) (F : FT) (o : Out),
  (shown d rule)[i]? = some F → apply e w d i rule = some o → Applied e w d F rule o

/-- **C91, alpha, delta and gamma rules**: the rule is applied to the formula chosen. So is the beta rule if it is the first one, and a formula is
reintroduced if it has not been reintroduced more often than there are steps left. -/
theorem C91_choice_partial (e : Env) (w : Now) (d : Data) (i : Nat) (rule : Rule) (F : FT) (o : Out) (hF : (shown d rule)[i]? = some F)
    (h : apply e w d i rule = some o) (hb : rule = .beta → i = 0)
    (hr : rule = .reintro → ∀ g, d.metaGen[i]? = some g → (g.2 : Int) ≤ d.n) : Applied e w d F rule o := by
  have perm : ∀ {l : List FT}, l[i]? = some F → l.Perm (F :: l.eraseIdx i) := by
    intro l hl
    obtain ⟨hi, rfl⟩ := List.getElem?_eq_some_iff.1 hl
    have := (List.getElem_cons_eraseIdx_perm hi).symm
    exact this
  cases rule with
  | alpha =>
    simp only [shown] at hF
    simp only [apply, hF, Option.map_some, Option.some.injEq] at h
    subst h
    refine .alpha (perm hF) (by rw [List.map_map]; exact List.map_id _) ?_ rfl rfl rfl rfl rfl rfl rfl
    intro g hg
    simp only [List.mem_map] at hg
    obtain ⟨_, _, rfl⟩ := hg
    rfl
  | beta =>
    cases hb rfl
    simp only [shown] at hF
    simp only [apply, hF, Option.map_some, Option.some.injEq] at h
    subst h
    refine .beta (by simp) ?_
    intro j k fs hk hfs
    rw [List.getElem?_map, hfs] at hk
    cases hk
    cases hl : d.beta with
    | nil => rw [hl] at hF; cases hF
    | cons x l =>
      rw [hl] at hF
      simp only [List.getElem?_cons_zero, Option.some.injEq] at hF
      subst hF
      exact ⟨by rw [List.map_map]; exact List.map_id _, List.Perm.refl _, rfl, rfl, rfl, rfl⟩
  | delta =>
    simp only [shown] at hF
    simp only [apply, hF, Option.bind_some, Option.map_eq_some_iff] at h
    obtain ⟨g, hg, rfl⟩ := h
    exact .delta (perm hF) hg rfl rfl rfl rfl rfl rfl rfl rfl
  | gamma =>
    simp only [shown] at hF
    simp only [apply, hF, Option.bind_some, Option.map_eq_some_iff] at h
    obtain ⟨g, hg, rfl⟩ := h
    refine .gamma (perm hF) hg rfl rfl rfl rfl rfl rfl rfl fun x => ?_
    cases firstIsTerm F.form
    · simp [uni]
    · by_cases hx : x ∈ d.mc
      · simp [uni, hx]
      · simp only [uni, if_true, List.mem_append, List.mem_filter, List.mem_singleton, decide_eq_true_eq, hx, false_or, true_and]
        exact ⟨fun h => h.1, fun h => ⟨h, not_false⟩⟩
  | reintro =>
    simp only [shown, List.getElem?_map, Option.map_eq_some_iff] at hF
    obtain ⟨g, hg, rfl⟩ := hF
    have hle := hr rfl g hg
    simp only [apply] at h
    have : Reintro.reintroduce (d.metaGen.map (·.2)) (some i) d.n.toNat = some (i, (d.metaGen.map (·.2)).set i (g.2 + 1)) := by
      have h2 : g.2 ≤ d.n.toNat := by omega
      simp [Reintro.reintroduce, hg, h2]
    rw [this] at h
    simp only [hg, Option.map_some, Option.some.injEq] at h
    subst h
    exact .reintro rfl rfl rfl rfl rfl rfl rfl rfl rfl

/-- Two formulas the user may choose for the beta rule. -/
def twoBeta : Data := { n := 5, beta := [⟨.or [.pred 1 [] [], .pred 2 [] []], []⟩, ⟨.or [.pred 3 [] [], .pred 4 [] [], .pred 5 [] []], []⟩] }

/-- **C91 violated, beta**: the user chooses the second formula, the rule is applied to the first one. -/
theorem C91_violated_beta (e : Env) (w : Now) :
    (shown twoBeta .beta)[1]? = some ⟨.or [.pred 3 [] [], .pred 4 [] [], .pred 5 [] []], []⟩ ∧
    ∃ kids, apply e w twoBeta 1 .beta = some (.split twoBeta kids) ∧ kids.map (fun k => k.lf.map (·.form)) = [[.pred 1 [] []], [.pred 2 [] []]] := by
  refine ⟨rfl, _, rfl, ?_⟩
  decide

theorem C91_choice_false : ¬ C91_choice_statement := by
  intro h
  obtain ⟨h1, kids, h2, h3⟩ := C91_violated_beta ⟨fun _ _ _ => none, 0, 0, fun l _ => l⟩ ⟨0, 0, 0⟩
  have := h _ _ _ _ _ _ _ h1 h2
  cases this with
  | beta hk _ =>
    have h4 := congrArg List.length h3
    simp only [List.length_map, List.length_cons, List.length_nil] at h4
    rw [h4] at hk
    revert hk
    decide

/-- Two formulas that may be reintroduced, one of them was three times, with two steps left. -/
def twoGen : Data := { n := 2, metaGen := [(⟨.all [] (.pred 1 [] []), []⟩, 3), (⟨.all [] (.pred 2 [] []), []⟩, 1)] }

/-- **C91 violated, reintroduction**: the user chooses the first formula, the second one is reintroduced. -/
theorem C91_violated_reintro (e : Env) (w : Now) : (shown twoGen .reintro)[0]? = some ⟨.all [] (.pred 1 [] []), []⟩ ∧
    ∃ d', apply e w twoGen 0 .reintro = some (.again d') ∧ d'.lf = [⟨.all [] (.pred 2 [] []), []⟩] := ⟨rfl, _, rfl, rfl⟩

/-- The hypotheses of `C91_choice_partial` are met: a gamma rule on the second formula. -/
example (e : Env) : ∃ o, apply e ⟨0, 7, 100⟩ { n := 5, gamma := [⟨.all [⟨"X", 1, .constr "$i" []⟩] (.pred 1 [] [.var 1]), []⟩,
      ⟨.all [⟨"Y", 2, .constr "$i" []⟩] (.pred 2 [] [.var 2]), []⟩] } 1 .gamma = some o ∧
    Applied e ⟨0, 7, 100⟩ { n := 5, gamma := [⟨.all [⟨"X", 1, .constr "$i" []⟩] (.pred 1 [] [.var 1]), []⟩,
      ⟨.all [⟨"Y", 2, .constr "$i" []⟩] (.pred 2 [] [.var 2]), []⟩] } ⟨.all [⟨"Y", 2, .constr "$i" []⟩] (.pred 2 [] [.var 2]), []⟩ .gamma o :=
  ⟨_, rfl, C91_choice_partial e _ _ 1 .gamma _ _ rfl rfl (fun h => nomatch h) fun h => nomatch h⟩

/-! ### Substitutions -/

theorem offered_nodup {l acc : List Subst} (h : (acc ++ l).Nodup) : l.foldl Clean.addNew acc = acc ++ l := by
  induction l generalizing acc with
  | nil => simp
  | cons x l ih =>
    have hx : x ∉ acc := by
      intro hx
      rw [List.nodup_append] at h
      exact h.2.2 x hx x List.mem_cons_self rfl
    simp only [List.foldl_cons, Clean.addNew, hx, if_false]
    rw [ih (by simpa using h)]
    simp

/-- **C91, substitutions**: if no substitution was found twice, the one shown under the number typed is the one applied. -/
theorem C91_subst_partial (l : List Subst) (h : l.Nodup) (c : Nat) : taken l c = (offered l)[c]? := by
  unfold taken offered
  rw [offered_nodup (by simpa using h)]
  simp

/-- **C91 violated, substitutions**: the first one was found twice; the user chooses the second one shown, and the first one is applied. -/
theorem C91_violated_subst : (offered [[(0, .fn 1 [])], [(0, .fn 1 [])], [(0, .fn 2 [])]])[1]? = some [(0, .fn 2 [])] ∧
    taken [[(0, .fn 1 [])], [(0, .fn 1 [])], [(0, .fn 2 [])]] 1 = some [(0, .fn 1 [])] := by
  constructor <;> decide

example : taken [[(0, .fn 1 [])], [(0, .fn 2 [])]] 1 = (offered [[(0, .fn 1 [])], [(0, .fn 2 [])]])[1]? :=
  C91_subst_partial _ (by decide) 1

end Verif.Assisted
