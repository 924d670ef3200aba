import Verif.AST.Rename
/-!
# C17: `RenameVariables` preserves meaning and makes binders distinct
-/
set_option linter.unusedSimpArgs false

namespace Verif.AST

mutual
/-- Names of the variables introduced by the quantifiers of a formula. -/
def Form.bnames : Form → List String
  | .pred _ _ _ => []
  | .top => []
  | .bot => []
  | .neg f => Form.bnames f
  | .and fs => Form.bnamesL fs
  | .or fs => Form.bnamesL fs
  | .imp f g => Form.bnames f ++ Form.bnames g
  | .equ f g => Form.bnames f ++ Form.bnames g
  | .all vs f => vs.map TVar.name ++ Form.bnames f
  | .ex vs f => vs.map TVar.name ++ Form.bnames f
def Form.bnamesL : List Form → List String
  | [] => []
  | f :: fs => Form.bnames f ++ Form.bnamesL fs
end

/-- What is assumed about the formula and the counters: indices in use are below the counter and
variables and symbols have different indices (true of formulas built by the parser, all of whose
indices come from the counter); no type variables; the names of the variables do not end with a digit and
no name `<name><number>` with a number not yet drawn is registered. -/
structure RenameOK (f : Form) (m : Maker) : Prop where
  mono : f.mono
  names : ∀ s ∈ f.bnames, NoDigitEnd s
  fresh : m.NamesFresh
  binders : ∀ i ∈ f.binders, i < m.cpt ∧ i ∉ f.funs
  fvs : ∀ i ∈ f.fvs, i < m.cpt

/-- What the claim says about the result, and facts about symbols used later. -/
structure RenameSpec (f : Form) (m : Maker) (f' : Form) (m' : Maker) : Prop where
  mono : f'.mono
  fresh : m'.NamesFresh
  cpt : m.cpt ≤ m'.cpt
  range : ∀ i ∈ f'.binders, m.cpt ≤ i ∧ i < m'.cpt
  nodup : f'.binders.Nodup
  fvs : ∀ i ∈ f'.fvs, i ∈ f.fvs
  funs : ∀ i ∈ f'.funs, i ∈ f.funs
  metas : ∀ i ∈ f'.metas, i ∈ f.metas
  holds : ∀ {D : Type u} (I : Interp D) (ρ μ : Nat → D), Form.holds I μ ρ f' ↔ Form.holds I μ ρ f

theorem substTVars_mono {ps : List (String × String)} {vs : List TVar} (h : ∀ v ∈ vs, v.ty.mono) :
    substTVars ps vs = vs := by
  unfold substTVars
  conv => rhs; rw [← List.map_id vs]
  apply List.map_congr_left
  intro v hv
  have : ∀ (ps : List (String × String)) (t : Ty), t.mono →
      ps.foldl (fun t p => Ty.substBound p.1 (.bound p.2) t) t = t := by
    intro ps
    induction ps with
    | nil => intro t _; rfl
    | cons p ps ih =>
      intro t ht
      rw [List.foldl_cons, Ty.substBound_mono _ _ t ht]
      exact ih t ht
  simp [this ps v.ty (h v hv)]

theorem mem_fvs_quant {i : Nat} {vs : List TVar} {f : Form} :
    i ∈ (f.fvs.filter (fun i => !(vs.map TVar.index).contains i)) ↔
      i ∈ f.fvs ∧ i ∉ vs.map TVar.index := by
  simp only [List.mem_filter, Bool.not_eq_true', List.contains_eq_mem, decide_eq_false_iff_not]

/-- Both quantifiers. -/
theorem quant_spec {vs : List TVar} {f : Form} {m : Maker} {f1 : Form} {m1 : Maker}
    (h1 : RenameSpec.{u} f m f1 m1)
    (hty : ∀ v ∈ vs, v.ty.mono) (hn : ∀ v ∈ vs, NoDigitEnd v.name)
    (hi : ∀ v ∈ vs, v.index < m.cpt ∧ v.index ∉ f.funs)
    (hv : ∀ i ∈ f.fvs, i ∉ vs.map TVar.index → i < m.cpt) :
    RenameSpec.{u} (.all vs f) m
      (.all (substTVars (renameVarsLoop vs f1 m1).2.1 (renameVarsLoop vs f1 m1).1)
        (renameVarsLoop vs f1 m1).2.2.1) (renameVarsLoop vs f1 m1).2.2.2 ∧
    RenameSpec.{u} (.ex vs f) m
      (.ex (substTVars (renameVarsLoop vs f1 m1).2.1 (renameVarsLoop vs f1 m1).1)
        (renameVarsLoop vs f1 m1).2.2.1) (renameVarsLoop vs f1 m1).2.2.2 := by
  have hc := h1.cpt
  have hL := renameVarsLoop_spec.{u} vs f1 m1 h1.mono h1.fresh hn
    (fun i hi => (h1.range i hi).2)
    (fun i hif => by
      by_cases e : i ∈ vs.map TVar.index
      · obtain ⟨w, hw, rfl⟩ := List.mem_map.1 e
        have := (hi w hw).1; omega
      · have := hv i (h1.fvs i hif) e; omega)
    (fun v hvv => by
      obtain ⟨a, b⟩ := hi v hvv
      refine ⟨by omega, fun hb => ?_, fun hb => b (h1.funs _ hb)⟩
      have := (h1.range _ hb).1; omega)
  generalize hr : renameVarsLoop vs f1 m1 = r at hL ⊢
  obtain ⟨vs', ps, f2, m2⟩ := r
  have hty' : ∀ v ∈ vs', v.ty.mono := by
    intro v hv'
    have : v.ty ∈ vs'.map TVar.ty := List.mem_map_of_mem hv'
    rw [hL.tys] at this
    obtain ⟨w, hw, e⟩ := List.mem_map.1 this
    exact e ▸ hty w hw
  rw [substTVars_mono hty']
  have hcc := hL.cpt
  have hrange : ∀ i ∈ vs'.map TVar.index ++ f2.binders, m.cpt ≤ i ∧ i < m2.cpt := by
    intro i hi'
    rcases List.mem_append.1 hi' with h | h
    · have := hL.range i h; simp only at this hcc; omega
    · rw [hL.binders] at h; have := h1.range i h; simp only at this hcc; omega
  have hnodup : (vs'.map TVar.index ++ f2.binders).Nodup := by
    rw [List.nodup_append]
    refine ⟨hL.nodup, by rw [hL.binders]; exact h1.nodup, ?_⟩
    intro a ha b hb e
    rw [hL.binders] at hb
    have := hL.range a ha
    have := h1.range b hb
    simp only at *; omega
  have hfv : ∀ i ∈ f2.fvs, i ∉ vs'.map TVar.index → i ∈ f.fvs ∧ i ∉ vs.map TVar.index := by
    intro i hi' hn'
    rcases hL.fvs i hi' with h | h
    · exact ⟨h1.fvs i h.1, h.2⟩
    · exact absurd h hn'
  constructor
  · refine ⟨⟨hty', hL.mono⟩, hL.names, Nat.le_trans hc hcc, hrange, hnodup, ?_,
      fun i hi' => h1.funs i (hL.funs i hi'), fun i hi' => h1.metas i (hL.metas i hi'), ?_⟩
    · intro i hi'
      simp only [Form.fvs, mem_fvs_quant] at hi' ⊢
      exact hfv i hi'.1 hi'.2
    · intro D I ρ μ
      rw [hL.all I ρ μ, Form.holds_all, Form.holds_all]
      simp only [forallVars_iff, h1.holds]
  · refine ⟨⟨hty', hL.mono⟩, hL.names, Nat.le_trans hc hcc, hrange, hnodup, ?_,
      fun i hi' => h1.funs i (hL.funs i hi'), fun i hi' => h1.metas i (hL.metas i hi'), ?_⟩
    · intro i hi'
      simp only [Form.fvs, mem_fvs_quant] at hi' ⊢
      exact hfv i hi'.1 hi'.2
    · intro D I ρ μ
      rw [hL.ex I ρ μ, Form.holds_ex, Form.holds_ex]
      simp only [existsVars_iff, h1.holds]

/-- The same for the lists of subformulas of a conjunction or disjunction. -/
structure RenameSpecL (fs : List Form) (m : Maker) (fs' : List Form) (m' : Maker) : Prop where
  mono : Form.monoL fs'
  fresh : m'.NamesFresh
  cpt : m.cpt ≤ m'.cpt
  range : ∀ i ∈ Form.bindersL fs', m.cpt ≤ i ∧ i < m'.cpt
  nodup : (Form.bindersL fs').Nodup
  fvs : ∀ i ∈ Form.fvsL fs', i ∈ Form.fvsL fs
  funs : ∀ i ∈ Form.funsL fs', i ∈ Form.funsL fs
  metas : ∀ i ∈ Form.metasL fs', i ∈ Form.metasL fs
  and : ∀ {D : Type u} (I : Interp D) (ρ μ : Nat → D),
    (∀ f ∈ fs', Form.holds I μ ρ f) ↔ ∀ f ∈ fs, Form.holds I μ ρ f
  or : ∀ {D : Type u} (I : Interp D) (ρ μ : Nat → D),
    (∃ f ∈ fs', Form.holds I μ ρ f) ↔ ∃ f ∈ fs, Form.holds I μ ρ f

/-- Two subformulas renamed one after the other. -/
theorem pair_nodup {f g : List Nat} {a b c : Nat} (hf : ∀ i ∈ f, a ≤ i ∧ i < b)
    (hg : ∀ i ∈ g, b ≤ i ∧ i < c) (hab : a ≤ b) (hbc : b ≤ c) (nf : f.Nodup) (ng : g.Nodup) :
    (∀ i ∈ f ++ g, a ≤ i ∧ i < c) ∧ (f ++ g).Nodup := by
  constructor
  · intro i hi
    rcases List.mem_append.1 hi with h | h
    · have := hf i h; omega
    · have := hg i h; omega
  · rw [List.nodup_append]
    refine ⟨nf, ng, ?_⟩
    intro x hx y hy e
    have := hf x hx
    have := hg y hy
    omega

mutual
theorem Form.rename_spec : ∀ (f : Form) (m : Maker), f.mono → (∀ s ∈ f.bnames, NoDigitEnd s) →
    m.NamesFresh → (∀ i ∈ f.binders, i < m.cpt ∧ i ∉ f.funs) → (∀ i ∈ f.fvs, i < m.cpt) →
    RenameSpec.{u} f m (f.rename m).1 (f.rename m).2
  | .pred p tys args, m, h, _, hm, _, _ => by
    simp only [Form.rename]
    exact ⟨h, hm, Nat.le_refl _, by simp [Form.binders], by simp [Form.binders], fun _ h => h,
      fun _ h => h, fun _ h => h, fun _ _ _ => Iff.rfl⟩
  | .top, m, h, _, hm, _, _ => by
    simp only [Form.rename]
    exact ⟨h, hm, Nat.le_refl _, by simp [Form.binders], by simp [Form.binders], fun _ h => h,
      fun _ h => h, fun _ h => h, fun _ _ _ => Iff.rfl⟩
  | .bot, m, h, _, hm, _, _ => by
    simp only [Form.rename]
    exact ⟨h, hm, Nat.le_refl _, by simp [Form.binders], by simp [Form.binders], fun _ h => h,
      fun _ h => h, fun _ h => h, fun _ _ _ => Iff.rfl⟩
  | .neg f, m, h, hn, hm, hb, hv => by
    have ih := Form.rename_spec f m h hn hm hb hv
    simp only [Form.rename]
    exact ⟨ih.mono, ih.fresh, ih.cpt, ih.range, ih.nodup, ih.fvs, ih.funs, ih.metas,
      fun I ρ μ => by simp [ih.holds]⟩
  | .and fs, m, h, hn, hm, hb, hv => by
    have ih := Form.renameL_spec fs m h hn hm hb hv
    simp only [Form.rename]
    exact ⟨ih.mono, ih.fresh, ih.cpt, ih.range, ih.nodup, ih.fvs, ih.funs, ih.metas,
      fun I ρ μ => by rw [Form.holds_and, Form.holds_and]; exact ih.and I ρ μ⟩
  | .or fs, m, h, hn, hm, hb, hv => by
    have ih := Form.renameL_spec fs m h hn hm hb hv
    simp only [Form.rename]
    exact ⟨ih.mono, ih.fresh, ih.cpt, ih.range, ih.nodup, ih.fvs, ih.funs, ih.metas,
      fun I ρ μ => by rw [Form.holds_or, Form.holds_or]; exact ih.or I ρ μ⟩
  | .imp f g, m, h, hn, hm, hb, hv => by
    simp only [Form.bnames, Form.binders, Form.funs, Form.fvs, List.mem_append, not_or] at hn hb hv
    have ih := Form.rename_spec f m h.1 (fun s hs => hn s (.inl hs)) hm
      (fun i hi => ⟨(hb i (.inl hi)).1, (hb i (.inl hi)).2.1⟩) (fun i hi => hv i (.inl hi))
    have c := ih.cpt
    have ih' := Form.rename_spec g (f.rename m).2 h.2 (fun s hs => hn s (.inr hs)) ih.fresh
      (fun i hi => ⟨Nat.lt_of_lt_of_le (hb i (.inr hi)).1 c, (hb i (.inr hi)).2.2⟩)
      (fun i hi => Nat.lt_of_lt_of_le (hv i (.inr hi)) c)
    obtain ⟨hr, hd⟩ := pair_nodup ih.range ih'.range c ih'.cpt ih.nodup ih'.nodup
    simp only [Form.rename]
    refine ⟨⟨ih.mono, ih'.mono⟩, ih'.fresh, Nat.le_trans c ih'.cpt, hr, hd, ?_, ?_, ?_,
      fun I ρ μ => by simp [ih.holds, ih'.holds]⟩
    · exact fun i hi => (List.mem_append.1 hi).elim (fun h => List.mem_append_left _ (ih.fvs i h))
        (fun h => List.mem_append_right _ (ih'.fvs i h))
    · exact fun i hi => (List.mem_append.1 hi).elim (fun h => List.mem_append_left _ (ih.funs i h))
        (fun h => List.mem_append_right _ (ih'.funs i h))
    · exact fun i hi => (List.mem_append.1 hi).elim (fun h => List.mem_append_left _ (ih.metas i h))
        (fun h => List.mem_append_right _ (ih'.metas i h))
  | .equ f g, m, h, hn, hm, hb, hv => by
    simp only [Form.bnames, Form.binders, Form.funs, Form.fvs, List.mem_append, not_or] at hn hb hv
    have ih := Form.rename_spec f m h.1 (fun s hs => hn s (.inl hs)) hm
      (fun i hi => ⟨(hb i (.inl hi)).1, (hb i (.inl hi)).2.1⟩) (fun i hi => hv i (.inl hi))
    have c := ih.cpt
    have ih' := Form.rename_spec g (f.rename m).2 h.2 (fun s hs => hn s (.inr hs)) ih.fresh
      (fun i hi => ⟨Nat.lt_of_lt_of_le (hb i (.inr hi)).1 c, (hb i (.inr hi)).2.2⟩)
      (fun i hi => Nat.lt_of_lt_of_le (hv i (.inr hi)) c)
    obtain ⟨hr, hd⟩ := pair_nodup ih.range ih'.range c ih'.cpt ih.nodup ih'.nodup
    simp only [Form.rename]
    refine ⟨⟨ih.mono, ih'.mono⟩, ih'.fresh, Nat.le_trans c ih'.cpt, hr, hd, ?_, ?_, ?_,
      fun I ρ μ => by simp [ih.holds, ih'.holds]⟩
    · exact fun i hi => (List.mem_append.1 hi).elim (fun h => List.mem_append_left _ (ih.fvs i h))
        (fun h => List.mem_append_right _ (ih'.fvs i h))
    · exact fun i hi => (List.mem_append.1 hi).elim (fun h => List.mem_append_left _ (ih.funs i h))
        (fun h => List.mem_append_right _ (ih'.funs i h))
    · exact fun i hi => (List.mem_append.1 hi).elim (fun h => List.mem_append_left _ (ih.metas i h))
        (fun h => List.mem_append_right _ (ih'.metas i h))
  | .all vs f, m, h, hn, hm, hb, hv => by
    simp only [Form.bnames, Form.binders, Form.funs, Form.fvs, mem_fvs_quant, List.mem_append] at hn hb hv
    refine (quant_spec ?_ h.1 (fun v hv => hn _ (.inl (List.mem_map_of_mem hv)))
      (fun v hv => hb _ (.inl (List.mem_map_of_mem hv))) (fun i hi hni => hv i ⟨hi, hni⟩)).1
    refine Form.rename_spec f m h.2 (fun s hs => hn s (.inr hs)) hm (fun i hi => hb i (.inr hi)) ?_
    intro i hi
    by_cases e : i ∈ vs.map TVar.index
    · exact (hb i (.inl e)).1
    · exact hv i ⟨hi, e⟩
  | .ex vs f, m, h, hn, hm, hb, hv => by
    simp only [Form.bnames, Form.binders, Form.funs, Form.fvs, mem_fvs_quant, List.mem_append] at hn hb hv
    refine (quant_spec ?_ h.1 (fun v hv => hn _ (.inl (List.mem_map_of_mem hv)))
      (fun v hv => hb _ (.inl (List.mem_map_of_mem hv))) (fun i hi hni => hv i ⟨hi, hni⟩)).2
    refine Form.rename_spec f m h.2 (fun s hs => hn s (.inr hs)) hm (fun i hi => hb i (.inr hi)) ?_
    intro i hi
    by_cases e : i ∈ vs.map TVar.index
    · exact (hb i (.inl e)).1
    · exact hv i ⟨hi, e⟩
theorem Form.renameL_spec : ∀ (fs : List Form) (m : Maker), Form.monoL fs →
    (∀ s ∈ Form.bnamesL fs, NoDigitEnd s) → m.NamesFresh →
    (∀ i ∈ Form.bindersL fs, i < m.cpt ∧ i ∉ Form.funsL fs) → (∀ i ∈ Form.fvsL fs, i < m.cpt) →
    RenameSpecL.{u} fs m (Form.renameL fs m).1 (Form.renameL fs m).2
  | [], m, h, _, hm, _, _ => by
    simp only [Form.renameL]
    exact ⟨h, hm, Nat.le_refl _, by simp [Form.bindersL], by simp [Form.bindersL], fun _ h => h,
      fun _ h => h, fun _ h => h, fun _ _ _ => Iff.rfl, fun _ _ _ => Iff.rfl⟩
  | f :: fs, m, h, hn, hm, hb, hv => by
    simp only [Form.bnamesL, Form.bindersL, Form.funsL, Form.fvsL, List.mem_append, not_or] at hn hb hv
    have ih := Form.rename_spec f m h.1 (fun s hs => hn s (.inl hs)) hm
      (fun i hi => ⟨(hb i (.inl hi)).1, (hb i (.inl hi)).2.1⟩) (fun i hi => hv i (.inl hi))
    have c := ih.cpt
    have ih' := Form.renameL_spec fs (f.rename m).2 h.2 (fun s hs => hn s (.inr hs)) ih.fresh
      (fun i hi => ⟨Nat.lt_of_lt_of_le (hb i (.inr hi)).1 c, (hb i (.inr hi)).2.2⟩)
      (fun i hi => Nat.lt_of_lt_of_le (hv i (.inr hi)) c)
    obtain ⟨hr, hd⟩ := pair_nodup ih.range ih'.range c ih'.cpt ih.nodup ih'.nodup
    simp only [Form.renameL]
    refine ⟨⟨ih.mono, ih'.mono⟩, ih'.fresh, Nat.le_trans c ih'.cpt, hr, hd, ?_, ?_, ?_,
      fun I ρ μ => by simp [ih.holds, ih'.and], fun I ρ μ => by simp [ih.holds, ih'.or]⟩
    · exact fun i hi => (List.mem_append.1 hi).elim (fun h => List.mem_append_left _ (ih.fvs i h))
        (fun h => List.mem_append_right _ (ih'.fvs i h))
    · exact fun i hi => (List.mem_append.1 hi).elim (fun h => List.mem_append_left _ (ih.funs i h))
        (fun h => List.mem_append_right _ (ih'.funs i h))
    · exact fun i hi => (List.mem_append.1 hi).elim (fun h => List.mem_append_left _ (ih.metas i h))
        (fun h => List.mem_append_right _ (ih'.metas i h))
end

/-! ### The claim -/

/-- The formula is one the parser can build with this maker: every variable is the one registered
under its name, different names have different variables, no variable is a symbol, and every index
was drawn from the counter. -/
structure Parsed (f : Form) (m : Maker) : Prop where
  closed : f.fvs = []
  registered : ∀ i ∈ f.binders, ∃ s, s ∈ f.bnames ∧ m.vars s = some i
  inj : ∀ s t i, m.vars s = some i → m.vars t = some i → s = t
  below : ∀ s i, m.vars s = some i → i < m.cpt
  symbols : ∀ i ∈ f.funs, i < m.cpt ∧ ∀ s, m.vars s ≠ some i

/-- **C17, full claim**, for formulas without type variables. -/
def C17_statement : Prop :=
  ∀ (f : Form) (m : Maker), f.mono → Parsed f m →
    (f.rename m).1.binders.Nodup ∧
    ∀ (D : Type) (I : Interp D) (ρ μ : Nat → D),
      Form.holds I μ ρ (f.rename m).1 ↔ Form.holds I μ ρ f

/-- State after interning `=`, `p`, `q`, then reading the variables `X5` and `X`. -/
def captureMaker : Maker :=
  let m := (Maker.reset.id "=").2
  let m := (m.id "p").2
  let m := (m.id "q").2
  let m := (m.var "X5").2
  (m.var "X").2

/-- `![X5]: ![X]: q(X, X5)`. -/
def captureForm : Form :=
  .all [⟨"X5", 3, .constr "$i" []⟩] (.all [⟨"X", 4, .constr "$i" []⟩] (.pred 2 [] [.var 4, .var 3]))

/-- The code turns `∀X5 ∀X q(X, X5)` into `∀y ∀X5 q(y, y)`: the fresh name for `X` is the name of
the other variable. -/
theorem C17_violated_capture :
    (captureForm.rename captureMaker).1 =
      .all [⟨"X56", 7, .constr "$i" []⟩] (.all [⟨"X5", 3, .constr "$i" []⟩]
        (.pred 2 [] [.var 7, .var 7])) := by decide

theorem captureForm_parsed : Parsed captureForm captureMaker := by
  have hv : ∀ s i, captureMaker.vars s = some i → (s = "X" ∧ i = 4) ∨ (s = "X5" ∧ i = 3) := by
    intro s i h
    have e : captureMaker.vars s = if s = "X" then some 4 else if s = "X5" then some 3 else none := rfl
    rw [e] at h
    split at h
    · cases h; exact Or.inl ⟨by assumption, rfl⟩
    · split at h
      · cases h; exact Or.inr ⟨by assumption, rfl⟩
      · cases h
  refine ⟨by decide, ?_, ?_, ?_, ?_⟩
  · intro i hi
    have : i = 3 ∨ i = 4 := by simpa [captureForm, Form.binders] using hi
    rcases this with rfl | rfl
    · exact ⟨"X5", by decide, by decide⟩
    · exact ⟨"X", by decide, by decide⟩
  · intro s t i h1 h2
    rcases hv s i h1 with ⟨rfl, rfl⟩ | ⟨rfl, rfl⟩ <;> rcases hv t _ h2 with ⟨rfl, e⟩ | ⟨rfl, e⟩ <;>
      first | rfl | cases e
  · intro s i h
    have hc : captureMaker.cpt = 5 := rfl
    rcases hv s i h with ⟨_, rfl⟩ | ⟨_, rfl⟩ <;> omega
  · intro i hi
    simp [captureForm, Form.funs, Term.funsL, Term.funs] at hi

/-- The renamed formula follows from reflexivity of `q`; the original does not. So a conjecture can be
replaced by a strictly weaker one. -/
theorem C17_violated_weaker :
    ∃ (I : Interp Bool), ∀ ρ μ, Form.holds I μ ρ (captureForm.rename captureMaker).1 ∧
      ¬ Form.holds I μ ρ captureForm := by
  refine ⟨⟨fun _ _ _ => true, fun _ _ ds => ds[0]? = ds[1]?⟩, fun ρ μ => ?_⟩
  rw [C17_violated_capture]
  refine ⟨?_, ?_⟩
  · simp [Form.holds_all, forallVars, Form.holds_pred, Term.eval, upd]
  · simp only [captureForm, Form.holds_all, forallVars, Form.holds_pred, List.map_cons, List.map_nil,
      Term.eval, upd]
    intro h
    have := h true false
    simp at this

theorem C17_statement_false : ¬ C17_statement := by
  intro h
  obtain ⟨I, hI⟩ := C17_violated_weaker
  have := (h captureForm captureMaker (by simp [captureForm, Form.mono, Ty.mono, Ty.monoL, Term.monoL, Term.mono])
    captureForm_parsed).2 Bool I (fun _ => true) (fun _ => true)
  exact (hI _ _).2 (this.1 (hI _ _).1)

/-- **C17 (partial).** The claim, for formulas whose variable names do not end with a digit, when
no name made of such a name and a number the counter has not reached is registered. The new variables
are moreover newly drawn. Missing: the other names, for which the claim is false, and formulas with type
variables. -/
theorem C17_rename_partial (f : Form) (m : Maker) (h : RenameOK f m) :
    (f.rename m).1.binders.Nodup ∧
    (∀ i ∈ (f.rename m).1.binders, m.cpt ≤ i ∧ i < (f.rename m).2.cpt) ∧
    (∀ i ∈ (f.rename m).1.fvs, i ∈ f.fvs) ∧
    (∀ i ∈ (f.rename m).1.funs, i ∈ f.funs) ∧
    (∀ i ∈ (f.rename m).1.metas, i ∈ f.metas) ∧
    ∀ (D : Type u) (I : Interp D) (ρ μ : Nat → D),
      Form.holds I μ ρ (f.rename m).1 ↔ Form.holds I μ ρ f := by
  have s := Form.rename_spec.{u} f m h.mono h.names h.fresh h.binders h.fvs
  exact ⟨s.nodup, s.range, s.fvs, s.funs, s.metas, fun _ I ρ μ => s.holds I ρ μ⟩

/-- A formula meeting the hypotheses, with the same variable bound three times:
`∀X (p(X) ∧ ∃X q(X, X) ∧ ∀X,Y q(X,Y))`. -/
example : RenameOK
    (.all [⟨"X", 3, .constr "$i" []⟩] (.and [.pred 1 [] [.var 3],
      .ex [⟨"X", 3, .constr "$i" []⟩] (.pred 2 [] [.var 3, .var 3]),
      .all [⟨"X", 3, .constr "$i" []⟩, ⟨"Y", 4, .constr "$i" []⟩] (.pred 2 [] [.var 3, .var 4])]))
    { cpt := 5, ids := fun _ => none, occ := fun _ => none,
      vars := fun s => if s = "X" then some 3 else if s = "Y" then some 4 else none } := by
  have hX : NoDigitEnd "X" := by intro c h; have : c = 'X' := by simpa using h.symm
                                 subst this; decide
  have hY : NoDigitEnd "Y" := by intro c h; have : c = 'Y' := by simpa using h.symm
                                 subst this; decide
  refine ⟨by simp [Form.mono, Form.monoL, Ty.mono, Ty.monoL, Term.monoL, Term.mono], ?_, ?_, by decide, by decide⟩
  · intro s hs
    have : s = "X" ∨ s = "Y" := by
      simp [Form.bnames, Form.bnamesL] at hs; grind
    rcases this with rfl | rfl <;> assumption
  · intro s i _ _
    have e1 : s ++ toString i ≠ "X" := Ne.symm (noDigitEnd_ne_number hX)
    have e2 : s ++ toString i ≠ "Y" := Ne.symm (noDigitEnd_ne_number hY)
    simp only [e1, e2, if_false]

/-- The result on that formula: three different binders for `X`. -/
example : ((Form.all [⟨"X", 3, .constr "$i" []⟩] (.and [.pred 1 [] [.var 3],
      .ex [⟨"X", 3, .constr "$i" []⟩] (.pred 2 [] [.var 3, .var 3])])).rename
    { cpt := 5, ids := fun _ => none, occ := fun _ => none, vars := fun _ => none }).1 =
    .all [⟨"X7", 8, .constr "$i" []⟩] (.and [.pred 1 [] [.var 8],
      .ex [⟨"X5", 6, .constr "$i" []⟩] (.pred 2 [] [.var 6, .var 6])]) := by decide

end Verif.AST
