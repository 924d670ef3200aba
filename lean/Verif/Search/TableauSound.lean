import Verif.Search.Tableau
/-!
# C23: a closed tableau proves unsatisfiability
-/
set_option linter.unusedSimpArgs false

namespace Verif.Search
open Verif.AST

section
variable {D : Type u}

/-- The assignment respects the applied bindings. -/
def SatC (I : Interp D) (C : List (Nat × Term)) (μ : Nat → D) : Prop :=
  ∀ p ∈ C, ∀ ρ, μ p.1 = Term.eval I ρ μ p.2

/-- With the outer strategy, the value of a term on a branch is determined by the values of the
metavariables of the branch (under the applied bindings). -/
def DepT (s : Strategy) (I : Interp D) (C : List (Nat × Term)) (metas : List Nat) (t : Term) : Prop :=
  s = .outer → ∀ μ μ' : Nat → D, SatC I C μ → SatC I C μ' → (∀ i ∈ metas, μ i = μ' i) →
    ∀ ρ, Term.eval I ρ μ t = Term.eval I ρ μ' t

/-- The symbol provides the witnesses, for assignments respecting the bindings. -/
def SkoC (I : Interp D) (C : List (Nat × Term)) (sk : Nat) (args : List Nat) (v : TVar) (b : Form) : Prop :=
  ∀ μ : Nat → D, SatC I C μ → ∀ (ρ : Nat → D) (d : D), Form.holds I μ (upd ρ v.index d) b →
    Form.holds I μ (upd ρ v.index (I.fn sk [] (args.map μ))) b

/-- Invariant of the calculus relative to an interpretation. -/
structure Inv (s : Strategy) (V : Nat → Prop) (I : Interp D) (ρ : Nat → D) (T : Tab) : Prop where
  hV : ∀ i, V i → i < T.cpt
  good : ∀ b ∈ T.branches, ∀ f ∈ b.forms, Good V T.cpt (DepT s I T.cons b.metas) f
  cons : ∀ p ∈ T.cons, ∀ i ∈ p.2.funs, i < T.cpt
  linked : ∀ p ∈ T.linked, p.2 < T.cpt ∧ ¬ V p.2 ∧ ∃ F v b, deltaParts F = some (v, b) ∧ PartsWF v b T.cpt ∧
    skoKey F = p.1 ∧ SkoC I T.cons p.2 F.metaElems v b
  sem : ∀ μ, SatC I T.cons μ → ∃ b ∈ T.branches, ∀ f ∈ b.forms, Form.holds I μ ρ f

variable {s : Strategy} {V : Nat → Prop} {I J : Interp D} {ρ : Nat → D} {T : Tab}

theorem eval_ext {c : Nat} (hJ : ∀ p, p < c → J.fn p = I.fn p) {t : Term} (ht : ∀ i ∈ t.funs, i < c)
    {ρ μ : Nat → D} : Term.eval J ρ μ t = Term.eval I ρ μ t :=
  Term.eval_congr (fun _ _ => rfl) (fun _ _ => rfl) (fun p hp => hJ p (ht p hp))

theorem holds_ext {c : Nat} (hJ : ∀ p, p < c → J.fn p = I.fn p) (hp : J.pr = I.pr) {f : Form}
    (hf : ∀ i ∈ f.funs, i < c) {ρ μ : Nat → D} : Form.holds J μ ρ f ↔ Form.holds I μ ρ f :=
  Form.holds_congr (fun _ _ => rfl) (fun _ _ => rfl) (fun p hp => hJ p (hf p hp)) hp

theorem satC_ext {c : Nat} (hJ : ∀ p, p < c → J.fn p = I.fn p) {C : List (Nat × Term)}
    (hC : ∀ p ∈ C, ∀ i ∈ p.2.funs, i < c) {μ : Nat → D} : SatC J C μ ↔ SatC I C μ :=
  forall_congr' fun p => forall_congr' fun hp => forall_congr' fun ρ => by rw [eval_ext hJ (hC p hp)]

/-- Changing the interpretation of symbols that do not exist yet. -/
theorem Inv.ext (h : Inv s V I ρ T) (hp : J.pr = I.pr) (hJ : ∀ p, p < T.cpt → J.fn p = I.fn p) {c' : Nat}
    (hc : T.cpt ≤ c') : Inv s V J ρ { T with cpt := c' } := by
  have hsat : ∀ μ, SatC J T.cons μ ↔ SatC I T.cons μ := fun μ => satC_ext hJ h.cons
  refine ⟨fun i hi => Nat.lt_of_lt_of_le (h.hV i hi) hc, ?_, ?_, ?_, ?_⟩
  · intro b hb f hf
    refine (h.good b hb f hf).mono hc (fun t ht hQ hs μ μ' h1 h2 he ρ' => ?_)
    have ht' : ∀ i ∈ t.funs, i < T.cpt := fun i hi => ((h.good b hb f hf).funs i (atomArgs_funs ht i hi)).1
    rw [eval_ext hJ ht', eval_ext hJ ht']
    exact hQ hs μ μ' ((hsat _).1 h1) ((hsat _).1 h2) he ρ'
  · exact fun p hp i hi => Nat.lt_of_lt_of_le (h.cons p hp i hi) hc
  · intro p hp'
    obtain ⟨h1, h1', F, v, b, h2, h3, h4, h5⟩ := h.linked p hp'
    refine ⟨Nat.lt_of_lt_of_le h1 hc, h1', F, v, b, h2, ?_, h4, ?_⟩
    · exact ⟨h3.ty, h3.fo, h3.nodup, fun i hi => ⟨Nat.lt_of_lt_of_le (h3.binders i hi).1 hc, (h3.binders i hi).2⟩,
        fun i hi => Nat.lt_of_lt_of_le (h3.funs i hi) hc, h3.closed⟩
    · intro μ hμ ρ' d hd
      rw [holds_ext hJ hp h3.funs] at hd ⊢
      rw [hJ p.2 h1]
      exact h5 μ ((hsat μ).1 hμ) ρ' d hd
  · intro μ hμ
    obtain ⟨b, hb, hh⟩ := h.sem μ ((hsat μ).1 hμ)
    exact ⟨b, hb, fun f hf => (holds_ext hJ hp (fun i hi => ((h.good b hb f hf).funs i hi).1)).2 (hh f hf)⟩

/-- Replacing one branch by others that are at least as satisfiable. -/
theorem Inv.branch (h : Inv s V I ρ T) {pre post : List Branch} {b : Branch}
    (hT : T.branches = pre ++ b :: post) (bs : List Branch)
    (hg : ∀ b' ∈ bs, ∀ f ∈ b'.forms, Good V T.cpt (DepT s I T.cons b'.metas) f)
    (hs : ∀ μ, SatC I T.cons μ → (∀ f ∈ b.forms, Form.holds I μ ρ f) →
      ∃ b' ∈ bs, ∀ f ∈ b'.forms, Form.holds I μ ρ f) :
    Inv s V I ρ { T with branches := pre ++ bs ++ post } := by
  refine ⟨h.hV, ?_, h.cons, h.linked, ?_⟩
  · intro b' hb'
    simp only [List.mem_append] at hb'
    rcases hb' with (hb' | hb') | hb'
    · exact h.good b' (by rw [hT]; simp [hb'])
    · exact hg b' hb'
    · exact h.good b' (by rw [hT]; simp [hb'])
  · intro μ hμ
    obtain ⟨b', hb', hh⟩ := h.sem μ hμ
    rw [hT] at hb'
    simp only [List.mem_append, List.mem_cons] at hb'
    rcases hb' with hb' | rfl | hb'
    · exact ⟨b', by simp [hb'], hh⟩
    · obtain ⟨b2, hb2, hh2⟩ := hs μ hμ hh
      exact ⟨b2, by simp [hb2], hh2⟩
    · exact ⟨b', by simp [hb'], hh⟩

theorem Inv.branch1 (h : Inv s V I ρ T) {pre post : List Branch} {b : Branch}
    (hT : T.branches = pre ++ b :: post) (b' : Branch)
    (hg : ∀ f ∈ b'.forms, Good V T.cpt (DepT s I T.cons b'.metas) f)
    (hs : ∀ μ, SatC I T.cons μ → (∀ f ∈ b.forms, Form.holds I μ ρ f) →
      ∀ f ∈ b'.forms, Form.holds I μ ρ f) :
    Inv s V I ρ { T with branches := pre ++ b' :: post } := by
  have := h.branch hT [b'] (by simpa using hg) (by simpa using hs)
  simpa using this

theorem DepT.mono {C : List (Nat × Term)} {metas metas' : List Nat} {t : Term}
    (h : DepT s I C metas t) (hm : ∀ i ∈ metas, i ∈ metas') : DepT s I C metas' t :=
  fun hs μ μ' h1 h2 he => h hs μ μ' h1 h2 fun i hi => he i (hm i hi)

theorem holds_of_args {f : Form} {μ μ' : Nat → D} (h : ∀ t ∈ atomArgs f, ∀ ρ, Term.eval I ρ μ t = Term.eval I ρ μ' t)
    {ρ : Nat → D} : Form.holds I μ ρ f ↔ Form.holds I μ' ρ f := by
  induction f using Form.ind generalizing ρ with
  | pred p tys args =>
    simp only [Form.holds_pred]
    rw [List.map_congr_left (l := args) (fun a ha => h a ha ρ)]
  | top => simp
  | bot => simp
  | neg f ih => simp only [Form.holds_neg]; rw [ih h]
  | and fs ih =>
    simp only [Form.holds_and]
    exact forall_congr' fun f => forall_congr' fun hf => ih f hf fun t ht => h t (mem_atomArgsL.2 ⟨f, hf, ht⟩)
  | or fs ih =>
    simp only [Form.holds_or]
    exact exists_congr fun f => and_congr_right fun hf => ih f hf fun t ht => h t (mem_atomArgsL.2 ⟨f, hf, ht⟩)
  | imp f g ihf ihg =>
    simp only [Form.holds_imp]
    rw [ihf fun t ht => h t (by simp [atomArgs, ht]), ihg fun t ht => h t (by simp [atomArgs, ht])]
  | equ f g ihf ihg =>
    simp only [Form.holds_equ]
    rw [ihf fun t ht => h t (by simp [atomArgs, ht]), ihg fun t ht => h t (by simp [atomArgs, ht])]
  | all vs f ih =>
    simp only [Form.holds_all]
    exact forallVars_congr fun ρ' => ih h
  | ex vs f ih =>
    simp only [Form.holds_ex]
    exact existsVars_congr fun ρ' => ih h

/-- A new symbol can provide the witnesses when the body is determined by the arguments. -/
theorem exists_skoC (I : Interp D) (C : List (Nat × Term)) {sk : Nat} {args : List Nat} {v : TVar} {b : Form}
    (hsk : sk ∉ b.funs) (hC : ∀ p ∈ C, sk ∉ p.2.funs) (hc : ∀ i ∈ b.fvs, i = v.index)
    (hdep : ∀ μ μ' : Nat → D, SatC I C μ → SatC I C μ' → (∀ i ∈ args, μ i = μ' i) →
      ∀ ρ, Form.holds I μ ρ b ↔ Form.holds I μ' ρ b) :
    ∃ J : Interp D, J.pr = I.pr ∧ (∀ p, p ≠ sk → J.fn p = I.fn p) ∧ SkoC J C sk args v b := by
  classical
  let W : List D → D → Prop := fun ds d => ∃ μ ρ : Nat → D, SatC I C μ ∧ args.map μ = ds ∧
    Form.holds I μ (upd ρ v.index d) b
  let J : Interp D := { I with fn := fun p tys ds =>
    if p = sk then if h : ∃ d, W ds d then h.choose else I.fn p tys ds else I.fn p tys ds }
  have hJ : ∀ p, p ≠ sk → J.fn p = I.fn p := by
    intro p hp; funext tys ds; simp [J, hp]
  have hcong : ∀ μ ρ, Form.holds J μ ρ b ↔ Form.holds I μ ρ b := fun μ ρ =>
    Form.holds_congr (fun _ _ => rfl) (fun _ _ => rfl) (fun p hp => hJ p (fun e => hsk (e ▸ hp))) rfl
  have hsat : ∀ μ, SatC J C μ ↔ SatC I C μ := fun μ =>
    forall_congr' fun p => forall_congr' fun hp => forall_congr' fun ρ => by
      rw [Term.eval_congr (J := I) (ρ' := ρ) (μ' := μ) (fun _ _ => rfl) (fun _ _ => rfl)
        (fun q hq => hJ q (fun e => hC p hp (e ▸ hq)))]
  refine ⟨J, rfl, hJ, fun μ hμ ρ d hd => ?_⟩
  rw [hcong] at hd ⊢
  have hex : ∃ d, W (args.map μ) d := ⟨d, μ, ρ, (hsat μ).1 hμ, rfl, hd⟩
  have : J.fn sk [] (args.map μ) = hex.choose := by simp [J, hex]
  rw [this]
  obtain ⟨μ', ρ', hμ', e, hh⟩ := hex.choose_spec
  rw [hdep μ μ' ((hsat μ).1 hμ) hμ' (fun i hi => (eq_on_of_map_eq e i hi).symm)]
  refine (Form.holds_congr (fun i hi => ?_) (fun _ _ => rfl) (fun _ _ => rfl) rfl).1 hh
  rw [hc i hi, upd_same, upd_same]

theorem vars_mvs (l : List Nat) : Term.varsL (l.map .mv) = [] := by
  induction l with
  | nil => rfl
  | cons a l ih => simp [Term.varsL, Term.vars, ih]
theorem funs_mvs (l : List Nat) : Term.funsL (l.map .mv) = [] := by
  induction l with
  | nil => rfl
  | cons a l ih => simp [Term.funsL, Term.funs, ih]

theorem SkoC.holds {C : List (Nat × Term)} {sk : Nat} {args : List Nat} {v : TVar} {b : Form} {c : Nat}
    (w : PartsWF v b c) (h : SkoC I C sk args v b) {μ ρ : Nat → D} (hμ : SatC I C μ) {d : D}
    (hd : Form.holds I μ (upd ρ v.index d) b) :
    Form.holds I μ ρ (b.replaceTermByTerm (.var v.index) (.fn sk [] (args.map .mv))).1 := by
  rw [holds_replaceTermByTerm (w.binders v.index (by simp)).2 (List.nodup_cons.1 w.nodup).1 (by simp)
    (by simp [Term.vars, vars_mvs]), eval_sko]
  exact h μ hμ ρ d hd

/-- Adding a Skolemised formula when the symbol provides the witnesses. -/
theorem Inv.delta (h : Inv s V I ρ T) {pre post : List Branch} {b : Branch}
    (hT : T.branches = pre ++ b :: post) {F g : Form} (hF : F ∈ b.forms)
    {sk : Nat} (hsk : sk < T.cpt) (hskV : ¬ V sk) {args : List Nat} {v : TVar} {e : Form}
    (hp : deltaParts F = some (v, e)) (hg : skolemize sk args F = some g)
    (hax : SkoC I T.cons sk args v e) (hargs : s = .outer → ∀ i ∈ args, i ∈ b.metas) :
    Inv s V I ρ { T with branches := pre ++ ⟨g :: b.forms, b.metas⟩ :: post } := by
  have hb : b ∈ T.branches := by rw [hT]; simp
  have hgood := h.good b hb F hF
  obtain ⟨w, hmb⟩ := deltaParts_wf hp (hgood.wf h.hV)
  rw [skolemize_parts hp] at hg
  cases hg
  refine h.branch1 hT _ ?_ ?_
  · intro f hf
    rcases List.mem_cons.1 hf with rfl | hf
    · refine hgood.replace (deltaParts_same hp) w (Nat.le_refl _) (by simp [Term.vars, vars_mvs]) ?_ ?_
      · intro i hi
        simp only [Term.funs, funs_mvs, List.mem_singleton] at hi
        subst hi; exact ⟨hsk, hskV⟩
      · intro t ht hQ hs μ μ' h1 h2 he ρ'
        have hx : v.index ∉ t.funs := fun hx => (w.binders v.index (by simp)).2 (by
          rw [(deltaParts_same hp).1]; exact atomArgs_funs ht _ hx)
        rw [eval_replT hx (by simp), eval_replT hx (by simp), eval_sko, eval_sko,
          List.map_congr_left (fun i hi => he i (hargs hs i hi))]
        exact hQ hs μ μ' h1 h2 he _
    · exact h.good b hb f hf
  · intro μ hμ hh f hf
    rcases List.mem_cons.1 hf with rfl | hf
    · obtain ⟨d, hd⟩ := (holds_deltaParts hp).1 (hh F hF)
      exact hax.holds w hμ hd
    · exact hh f hf

/-- A Skolemisation with a new symbol. -/
theorem Inv.deltaNew (h : Inv s V I ρ T) {pre post : List Branch} {b : Branch}
    (hT : T.branches = pre ++ b :: post) {F g : Form} (hF : F ∈ b.forms) (hk : showKind F = .delta)
    {args : List Nat} (hg : skolemize T.cpt args F = some g)
    (hargs : s = .outer → ∀ i ∈ args, i ∈ b.metas)
    (hdep : (s = .outer ∧ ∀ i ∈ b.metas, i ∈ args) ∨ ∀ i ∈ F.metas, i ∈ args) :
    ∃ J : Interp D, J.pr = I.pr ∧ (∀ p, p < T.cpt → J.fn p = I.fn p) ∧
      Inv s V J ρ { T with branches := pre ++ ⟨g :: b.forms, b.metas⟩ :: post, cpt := T.cpt + 1 } ∧
      ∃ v e, deltaParts F = some (v, e) ∧ PartsWF v e (T.cpt + 1) ∧ SkoC J T.cons T.cpt args v e := by
  have hb : b ∈ T.branches := by rw [hT]; simp
  have hgood := h.good b hb F hF
  have hwf := hgood.wf h.hV
  obtain ⟨v, e, hp⟩ := deltaParts_isSome hwf ((showKind_spec F).2.2.2.2.1 hk)
  obtain ⟨w, hmb⟩ := deltaParts_wf hp hwf
  obtain ⟨J, h1, h2, h3⟩ := exists_skoC I T.cons (sk := T.cpt) (args := args) (v := v) (b := e)
    (fun hx => Nat.lt_irrefl _ (w.funs _ hx)) (fun p hp hx => Nat.lt_irrefl _ (h.cons p hp _ hx)) w.closed
    (by
      intro μ μ' hμ hμ' he ρ'
      rcases hdep with ⟨hs, hm⟩ | hm
      · refine holds_of_args fun t ht ρ'' => ?_
        rw [(deltaParts_same hp).2.1] at ht
        exact hgood.args t ht hs μ μ' hμ hμ' (fun i hi => he i (hm i hi)) ρ''
      · exact Form.holds_congr (fun _ _ => rfl) (fun i hi => he i (hm i (hmb ▸ hi))) (fun _ _ => rfl) rfl)
  have hJ : ∀ p, p < T.cpt → J.fn p = I.fn p := fun p hp => h2 p (Nat.ne_of_lt hp)
  refine ⟨J, h1, hJ, ?_, v, e, hp, ?_, h3⟩
  · have hI := h.ext h1 hJ (Nat.le_succ T.cpt)
    exact hI.delta (pre := pre) (post := post) (b := b) hT hF (Nat.lt_succ_self _)
      (fun hv => Nat.lt_irrefl _ (h.hV _ hv)) hp hg h3 hargs
  · exact ⟨w.ty, w.fo, w.nodup, fun i hi => ⟨Nat.lt_succ_of_lt (w.binders i hi).1, (w.binders i hi).2⟩,
      fun i hi => Nat.lt_succ_of_lt (w.funs i hi), w.closed⟩

theorem step_inv (h : Inv s V I ρ T) {T' : Tab} (hs : Step s T T') :
    ∃ J : Interp D, J.pr = I.pr ∧ (∀ p, p < T.cpt → J.fn p = I.fn p) ∧ T.cpt ≤ T'.cpt ∧ Inv s V J ρ T' := by
  cases hs with
  | alpha pre post b F hT hF hk =>
    have hb : b ∈ T.branches := by rw [hT]; simp
    refine ⟨I, rfl, fun _ _ => rfl, Nat.le_refl _, h.branch1 hT _ ?_ ?_⟩
    · intro f hf
      rcases List.mem_append.1 hf with hf | hf
      · exact (h.good b hb F hF).alpha hf
      · exact h.good b hb f hf
    · intro μ _ hh f hf
      rcases List.mem_append.1 hf with hf | hf
      · exact (C19_alpha _ _ _ F ((showKind_spec F).2.1.1 hk)).1 (hh F hF) f hf
      · exact hh f hf
  | beta pre post b F hT hF hk =>
    have hb : b ∈ T.branches := by rw [hT]; simp
    refine ⟨I, rfl, fun _ _ => rfl, Nat.le_refl _, h.branch hT _ ?_ ?_⟩
    · intro b' hb' f hf
      obtain ⟨l, hl, rfl⟩ := List.mem_map.1 hb'
      rcases List.mem_append.1 hf with hf | hf
      · exact (h.good b hb F hF).beta hl hf
      · exact h.good b hb f hf
    · intro μ _ hh
      obtain ⟨l, hl, hh'⟩ := (C20_beta _ _ _ F ((showKind_spec F).2.2.1.1 hk)).1 (hh F hF)
      refine ⟨_, List.mem_map.2 ⟨l, hl, rfl⟩, fun f hf => ?_⟩
      rcases List.mem_append.1 hf with hf | hf
      · exact hh' f hf
      · exact hh f hf
  | gamma pre post b F g k hT hF hk hg =>
    have hb : b ∈ T.branches := by rw [hT]; simp
    have hgood := h.good b hb F hF
    have hwf := hgood.wf h.hV
    obtain ⟨v, e, hp⟩ := gammaParts_isSome hwf ((showKind_spec F).2.2.2.1.1 hk)
    obtain ⟨w, hmb⟩ := gammaParts_wf hp hwf
    rw [instantiate_parts hp w.ty] at hg
    cases hg
    refine ⟨I, rfl, fun _ _ => rfl, Nat.le_succ _, ?_⟩
    refine (h.branch1 hT ⟨(e.replaceTermByTerm (.var v.index) (.mv T.cpt)).1 :: b.forms, T.cpt :: b.metas⟩
      ?_ ?_).ext rfl (fun _ _ => rfl) (Nat.le_succ _)
    · intro f hf
      rcases List.mem_cons.1 hf with rfl | hf
      · refine hgood.replace (gammaParts_same hp) w (Nat.le_refl _) (by simp [Term.vars])
          (by simp [Term.funs]) ?_
        intro t ht hQ hs μ μ' h1 h2 he ρ'
        have hx : v.index ∉ t.funs := fun hx => (w.binders v.index (by simp)).2 (by
          rw [(gammaParts_same hp).1]; exact atomArgs_funs ht _ hx)
        rw [eval_replT hx (by simp), eval_replT hx (by simp)]
        simp only [Term.eval]
        rw [he T.cpt (by simp)]
        exact hQ hs μ μ' h1 h2 (fun i hi => he i (by simp [hi])) _
      · exact (h.good b hb f hf).mono (Nat.le_refl _) (fun t _ hQ => hQ.mono (by simp_all))
    · intro μ _ hh f hf
      rcases List.mem_cons.1 hf with rfl | hf
      · rw [gamma_holds w]; exact (holds_gammaParts hp).1 (hh F hF) _
      · exact hh f hf
  | outer pre post b F g args hs hT hF hk ha hg =>
    obtain ⟨J, h1, h2, h3, _⟩ := h.deltaNew hT hF hk hg (fun _ i hi => (ha i).1 hi)
      (Or.inl ⟨hs, fun i hi => (ha i).2 hi⟩)
    exact ⟨J, h1, h2, Nat.le_succ _, h3⟩
  | inner pre post b F g hs hT hF hk hg =>
    obtain ⟨J, h1, h2, h3, _⟩ := h.deltaNew hT hF hk hg (by simp [hs])
      (Or.inr fun i hi => Form.mem_metaElems.2 hi)
    exact ⟨J, h1, h2, Nat.le_succ _, h3⟩
  | preinnerNew pre post b F g hs hT hF hk hg =>
    obtain ⟨J, h1, h2, h3, v, e, h4, h5, h6⟩ := h.deltaNew hT hF hk hg (by simp [hs])
      (Or.inr fun i hi => Form.mem_metaElems.2 hi)
    refine ⟨J, h1, h2, Nat.le_succ _, h3.hV, h3.good, h3.cons, ?_, h3.sem⟩
    intro p hp
    rcases List.mem_cons.1 hp with rfl | hp
    · exact ⟨Nat.lt_succ_self _, fun hv => Nat.lt_irrefl _ (h.hV _ hv), F, v, e, h4, h5, rfl, h6⟩
    · exact h3.linked p hp
  | preinnerReuse pre post b F g sk hs hT hF hk hl hg =>
    have hb : b ∈ T.branches := by rw [hT]; simp
    have hwf := (h.good b hb F hF).wf h.hV
    obtain ⟨v, e, hp⟩ := deltaParts_isSome hwf ((showKind_spec F).2.2.2.2.1 hk)
    obtain ⟨w, _⟩ := deltaParts_wf hp hwf
    obtain ⟨l1, l1', F', v', e', l2, l3, l4, l5⟩ := h.linked _ hl
    obtain ⟨k1, k2⟩ := same_key hp l2 w l3 l4.symm
    refine ⟨I, rfl, fun _ _ => rfl, Nat.le_refl _, h.delta hT hF l1 l1' hp hg ?_ (by simp [hs])⟩
    intro μ hμ ρ' d hd
    rw [k2 D I μ ρ' ρ' _] at hd ⊢
    rw [k1]
    exact l5 μ hμ ρ' d hd
  | subst pre post b m u forms hT hu hf hforms =>
    have hb : b ∈ T.branches := by rw [hT]; simp
    have hfu : ∀ i ∈ u.funs, i < T.cpt ∧ ¬ V i := by
      intro i hi
      obtain ⟨b', hb', f, hf', hi'⟩ := hf i hi
      exact (h.good b' hb' f hf').funs i hi'
    have hweak : ∀ μ, SatC I ((m, u) :: T.cons) μ → SatC I T.cons μ := fun μ hμ p hp => hμ p (by simp [hp])
    have h' : Inv s V I ρ { T with cons := (m, u) :: T.cons } := by
      refine ⟨h.hV, ?_, ?_, ?_, fun μ hμ => h.sem μ (hweak μ hμ)⟩
      · intro b' hb' f hf'
        exact (h.good b' hb' f hf').mono (Nat.le_refl _)
          (fun t _ hQ hs μ μ' h1 h2 => hQ hs μ μ' (hweak μ h1) (hweak μ' h2))
      · intro p hp
        rcases List.mem_cons.1 hp with rfl | hp
        · exact fun i hi => (hfu i hi).1
        · exact h.cons p hp
      · intro p hp
        obtain ⟨l1, l1', F', v', e', l2, l3, l4, l5⟩ := h.linked p hp
        exact ⟨l1, l1', F', v', e', l2, l3, l4, fun μ hμ => l5 μ (hweak μ hμ)⟩
    refine ⟨I, rfl, fun _ _ => rfl, Nat.le_refl _, h'.branch1 (pre := pre) (post := post) (b := b) hT ⟨forms, b.metas⟩ ?_ ?_⟩
    · intro g hg
      rcases hforms g hg with hg | ⟨f, hf', rfl⟩
      · exact h'.good b hb g hg
      · obtain ⟨a, a2, a3, a4, a5⟩ := replaceMeta_shape (m := m) hu f
        have gf := h'.good b hb f hf'
        refine ⟨a gf.fo, a2 ▸ gf.nodup, fun i hi => gf.binders i (a2 ▸ hi), ?_, fun i hi => gf.closed i (a4 i hi), ?_⟩
        · intro i hi
          rcases a3 i hi with hi | hi
          · exact gf.funs i hi
          · exact hfu i hi
        · rw [a5]
          intro t ht
          obtain ⟨t', ht', rfl⟩ := List.mem_map.1 ht
          intro hs μ μ' h1 h2 he ρ'
          rw [replaceSubTermBy_eval (h1 (m, u) (by simp) ρ'), replaceSubTermBy_eval (h2 (m, u) (by simp) ρ')]
          exact gf.args t' ht' hs μ μ' h1 h2 he ρ'
    · intro μ hμ hh g hg
      rcases hforms g hg with hg | ⟨f, hf', rfl⟩
      · exact hh g hg
      · exact (replaceMetaByTerm_holds_of_eq (fun ρ' => hμ (m, u) (by simp) ρ')).2 (hh f hf')
  | weaken pre post b forms hT hforms =>
    have hb : b ∈ T.branches := by rw [hT]; simp
    exact ⟨I, rfl, fun _ _ => rfl, Nat.le_refl _, h.branch1 hT _ (fun f hf => h.good b hb f (hforms f hf))
      (fun μ _ hh f hf => hh f (hforms f hf))⟩
  | draw n =>
    exact ⟨I, rfl, fun _ _ => rfl, Nat.le_add_right _ _, h.ext rfl (fun _ _ => rfl) (Nat.le_add_right _ _)⟩

theorem steps_inv {T T' : Tab} (h : Inv s V I ρ T) (hs : Steps s T T') :
    ∃ J : Interp D, J.pr = I.pr ∧ (∀ p, p < T.cpt → J.fn p = I.fn p) ∧ T.cpt ≤ T'.cpt ∧ Inv s V J ρ T' := by
  induction hs with
  | refl => exact ⟨I, rfl, fun _ _ => rfl, Nat.le_refl _, h⟩
  | tail T' T'' _ hstep ih =>
    obtain ⟨J, h1, h2, h3, h4⟩ := ih
    obtain ⟨K, k1, k2, k3, k4⟩ := step_inv h4 hstep
    exact ⟨K, k1.trans h1, fun p hp => (k2 p (Nat.lt_of_lt_of_le hp h3)).trans (h2 p hp), Nat.le_trans h3 k3, k4⟩

theorem eval_instT {σ : Nat → Term} {ρ μ : Nat → D} {t : Term} :
    Term.eval I ρ μ (instT σ t) = Term.eval I ρ (fun i => Term.eval I ρ μ (σ i)) t := by
  induction t using Term.ind with
  | var i => simp [instT, Term.eval]
  | mv i => simp [instT, Term.eval]
  | fn p tys args ih =>
    simp only [instT, Term.eval]
    congr 1
    induction args with
    | nil => rfl
    | cons a l ihl =>
      simp only [instTL, Term.evalL, ih a (by simp)]
      rw [ihl (fun a ha => ih a (by simp [ha]))]

theorem evalL_instTL {σ : Nat → Term} {ρ μ : Nat → D} {l : List Term} :
    Term.evalL I ρ μ (instTL σ l) = Term.evalL I ρ (fun i => Term.eval I ρ μ (σ i)) l := by
  induction l with
  | nil => rfl
  | cons a l ih => simp [instTL, Term.evalL, eval_instT, ih]

theorem closed_false {σ : Nat → Term} {b : Branch} (hb : b.closed σ) {ρ μ : Nat → D}
    (h : ∀ f ∈ b.forms, Form.holds I (fun i => Term.eval I ρ μ (σ i)) ρ f) : False := by
  rcases hb with hb | hb | ⟨p, tys, args, args', h1, h2, e⟩
  · simpa using h _ hb
  · simpa using h _ hb
  · have a := h _ h1
    have b := h _ h2
    simp only [Form.holds_neg, Form.holds_pred, ← Term.evalL_eq_map] at a b
    rw [← evalL_instTL] at a b
    rw [e] at a
    exact b a

theorem closedEq_false {eq : Nat} (hI : ∀ tys a b, I.pr eq tys [a, b] ↔ a = b) {σ : Nat → Term} {b : Branch}
    (hb : b.closedEq eq σ) {ρ μ : Nat → D}
    (h : ∀ f ∈ b.forms, Form.holds I (fun i => Term.eval I ρ μ (σ i)) ρ f) : False := by
  rcases hb with hb | ⟨tys, s, t, h1, e⟩
  · exact closed_false hb h
  · have a := h _ h1
    simp only [Form.holds_neg, Form.holds_pred, List.map_cons, List.map_nil, hI] at a
    rw [← eval_instT, ← eval_instT, e] at a
    exact a rfl

theorem init_inv {F : Form} {c : Nat} (hw : WF F c) (hm : F.metas = []) {μ : Nat → D}
    (h : Form.holds I μ ρ F) : Inv s (fun i => i ∈ F.binders) I ρ (initTab F c) := by
  have hargs : ∀ (f : Form), f.metas = [] → ∀ t ∈ atomArgs f, t.metas = [] := by
    intro f
    induction f using Form.ind with
    | pred p tys args =>
      intro hm t ht
      rw [List.eq_nil_iff_forall_not_mem] at hm ⊢
      exact fun i hi => hm i (Term.mem_metasL.2 ⟨t, ht, hi⟩)
    | top => intro _ t ht; cases ht
    | bot => intro _ t ht; cases ht
    | neg f ih => exact ih
    | and fs ih =>
      intro hm t ht
      obtain ⟨f, hf, ht⟩ := mem_atomArgsL.1 ht
      refine ih f hf ?_ t ht
      rw [List.eq_nil_iff_forall_not_mem] at hm ⊢
      exact fun i hi => hm i (Form.mem_metasL.2 ⟨f, hf, hi⟩)
    | or fs ih =>
      intro hm t ht
      obtain ⟨f, hf, ht⟩ := mem_atomArgsL.1 ht
      refine ih f hf ?_ t ht
      rw [List.eq_nil_iff_forall_not_mem] at hm ⊢
      exact fun i hi => hm i (Form.mem_metasL.2 ⟨f, hf, hi⟩)
    | imp f g ihf ihg =>
      intro hm t ht
      simp only [Form.metas, List.append_eq_nil_iff] at hm
      rcases List.mem_append.1 ht with ht | ht
      · exact ihf hm.1 t ht
      · exact ihg hm.2 t ht
    | equ f g ihf ihg =>
      intro hm t ht
      simp only [Form.metas, List.append_eq_nil_iff] at hm
      rcases List.mem_append.1 ht with ht | ht
      · exact ihf hm.1 t ht
      · exact ihg hm.2 t ht
    | all vs f ih => exact ih
    | ex vs f ih => exact ih
  refine ⟨fun i hi => (hw.binders i hi).1, ?_, by simp [initTab], by simp [initTab], ?_⟩
  · intro b hb f hf
    simp only [initTab, List.mem_singleton] at hb
    subst hb
    simp only [List.mem_singleton] at hf
    subst hf
    refine ⟨hw.fo, hw.nodup, fun i hi => hi, fun i hi => ⟨hw.funs i hi, fun hv => (hw.binders i hv).2 hi⟩, hw.closed, ?_⟩
    intro t ht _ μ μ' _ _ _ ρ'
    exact Term.eval_congr (fun _ _ => rfl) (by simp [hargs _ hm t ht]) (fun _ _ => rfl)
  · intro μ' _
    refine ⟨⟨[F], []⟩, by simp [initTab], fun f hf => ?_⟩
    simp only [List.mem_singleton] at hf
    subst hf
    exact (Form.holds_congr (fun _ _ => rfl) (by simp [hm]) (fun _ _ => rfl) rfl).1 h

end

/-- The bindings applied during the search are respected by the closing substitution. -/
def Respects (σ : Nat → Term) (C : List (Nat × Term)) : Prop := ∀ p ∈ C, σ p.1 = instT σ p.2

theorem subst_terms_no_vars {s : Strategy} {T T' : Tab} (h : Steps s T T')
    (h0 : ∀ p ∈ T.cons, p.2.vars = []) : ∀ p ∈ T'.cons, p.2.vars = [] := by
  induction h with
  | refl => exact h0
  | tail T' T'' _ hstep ih =>
    cases hstep
    case subst hu _ _ =>
      intro p hp
      rcases List.mem_cons.1 hp with rfl | hp
      · exact hu
      · exact ih p hp
    all_goals exact ih

theorem sound_core {s : Strategy} {F : Form} {c : Nat} (hw : WF F c) (hm : F.metas = []) {T : Tab}
    (hs : Steps s (initTab F c) T) (σ : Nat → Term) (hσ : Respects σ T.cons)
    {D : Type u} {I : Interp D} {μ ρ : Nat → D} (h : Form.holds I μ ρ F) :
    ∃ J : Interp D, J.pr = I.pr ∧ ∃ b ∈ T.branches, ∀ f ∈ b.forms,
      Form.holds J (fun i => Term.eval J ρ μ (σ i)) ρ f := by
  obtain ⟨J, h1, _, _, h4⟩ := steps_inv (init_inv hw hm h) hs
  have hnv := subst_terms_no_vars hs (by simp [initTab])
  refine ⟨J, h1, h4.sem _ ?_⟩
  intro p hp ρ'
  show Term.eval J ρ μ (σ p.1) = _
  rw [hσ p hp, eval_instT]
  exact Term.eval_congr (by simp [hnv p hp]) (fun _ _ => rfl) (fun _ _ => rfl)

/-- **C23** (formulas without type quantifiers). Start from a well-formed closed formula. If some
sequence of expansion steps and applications of bindings, on any branches in any order, with any of the
three Skolemisation strategies, leads to a tableau all of whose branches are closed by one substitution
(which respects the applied bindings), then the formula is false in every interpretation. -/
theorem C23_closed_tableau_partial (s : Strategy) (F : Form) (c : Nat) (hw : WF F c) (hm : F.metas = []) (T : Tab)
    (hs : Steps s (initTab F c) T) (σ : Nat → Term) (hσ : Respects σ T.cons)
    (hc : ∀ b ∈ T.branches, b.closed σ) (D : Type u) (I : Interp D) (μ ρ : Nat → D) :
    ¬ Form.holds I μ ρ F := by
  intro h
  obtain ⟨J, _, b, hb, hh⟩ := sound_core hw hm hs σ hσ h
  exact closed_false (hc b hb) hh

/-- **C23 with equality**: the same for interpretations in which `eq` is equality, branches being closed
also by a negated equality whose sides have the same instance. -/
theorem C23_closed_tableau_eq_partial (s : Strategy) (F : Form) (c eq : Nat) (hw : WF F c) (hm : F.metas = []) (T : Tab)
    (hs : Steps s (initTab F c) T) (σ : Nat → Term) (hσ : Respects σ T.cons)
    (hc : ∀ b ∈ T.branches, b.closedEq eq σ) (D : Type u) (I : Interp D)
    (hI : ∀ tys a b, I.pr eq tys [a, b] ↔ a = b) (μ ρ : Nat → D) :
    ¬ Form.holds I μ ρ F := by
  intro h
  obtain ⟨J, hJ, b, hb, hh⟩ := sound_core hw hm hs σ hσ h
  exact closedEq_false (by rw [hJ]; exact hI) (hc b hb) hh

/-- A concrete closed tableau: ¬((∀x. P(x)) ⇒ P(a)). -/
example : ∃ T, Steps .outer (initTab (.neg (.imp (.all [⟨"x", 1, .constr "$i" []⟩] (.pred 0 [] [.var 1]))
      (.pred 0 [] [.fn 2 [] []]))) 3) T ∧ ∀ b ∈ T.branches, b.closed (fun _ => .fn 2 [] []) := by
  refine ⟨_, .tail _ _ _ (.tail _ _ _ (.refl _) (.alpha _ [] [] _ _ rfl (List.mem_singleton.2 rfl) rfl))
    (.gamma _ [] [] _ (.all [⟨"x", 1, .constr "$i" []⟩] (.pred 0 [] [.var 1])) _ 0 rfl ?_ rfl rfl), ?_⟩
  · decide
  · intro b hb
    simp only [List.nil_append, List.mem_singleton] at hb
    subst hb
    exact Or.inr (Or.inr ⟨0, [], [.mv 3], [.fn 2 [] []], by decide, by decide, by decide⟩)

end Verif.Search
