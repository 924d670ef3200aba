import Verif.Search.Quant
/-!
# The alpha-conversion used by the pre-inner Skolemisation

src/Core/Sko/preinner-skolemization.go:103-206. The Go map `substitution` is shared and updated in
place; it is threaded through the model. Formula indices are dropped, as in the whole model.
-/
set_option linter.unusedSimpArgs false

namespace Verif.Search
open Verif.AST

/-- `substitution map[int]Var`. -/
abbrev VMap := Nat → Option Nat

def VMap.set (σ : VMap) (i j : Nat) : VMap := fun x => if x = i then some j else σ x

mutual
/-- `alphaConvertTerm` (src/Core/Sko/preinner-skolemization.go:186-206). -/
def acTerm (σ : VMap) : Term → Term
  | .var i => match σ i with
    | some j => .var j
    | none => .var i
  | .mv m => .mv m
  | .fn p tys args => .fn p tys (acTermL σ args)
def acTermL (σ : VMap) : List Term → List Term
  | [] => []
  | a :: l => acTerm σ a :: acTermL σ l
end

/-- `makeConvertedVarList` (src/Core/Sko/preinner-skolemization.go:172-184), `fresh` (:99-101). -/
def acVars : Nat → VMap → List TVar → Nat × VMap × List TVar
  | k, σ, [] => (k, σ, [])
  | k, σ, v :: vs =>
    let r := acVars (k + 1) (σ.set v.index k) vs
    (r.1, r.2.1, ⟨"x@" ++ toString k, k, v.ty⟩ :: r.2.2)

mutual
/-- `alphaConvert` (src/Core/Sko/preinner-skolemization.go:103-170). -/
def ac : Form → Nat → VMap → Form × VMap
  | .pred p tys args, _, σ => (.pred p tys (acTermL σ args), σ)
  | .top, _, σ => (.top, σ)
  | .bot, _, σ => (.bot, σ)
  | .neg f, k, σ => (.neg (ac f k σ).1, (ac f k σ).2)
  | .and fs, k, σ => (.and (acL fs k σ).1, (acL fs k σ).2)
  | .or fs, k, σ => (.or (acL fs k σ).1, (acL fs k σ).2)
  | .imp f g, k, σ => (.imp (ac f k σ).1 (ac g k (ac f k σ).2).1, (ac g k (ac f k σ).2).2)
  | .equ f g, k, σ => (.equ (ac f k σ).1 (ac g k (ac f k σ).2).1, (ac g k (ac f k σ).2).2)
  | .all vs f, k, σ =>
    let r := acVars k σ vs
    (.all r.2.2 (ac f r.1 r.2.1).1, (ac f r.1 r.2.1).2)
  | .ex vs f, k, σ =>
    let r := acVars k σ vs
    (.ex r.2.2 (ac f r.1 r.2.1).1, (ac f r.1 r.2.1).2)
def acL : List Form → Nat → VMap → List Form × VMap
  | [], _, σ => ([], σ)
  | f :: fs, k, σ => ((ac f k σ).1 :: (acL fs k (ac f k σ).2).1, (acL fs k (ac f k σ).2).2)
end

/-- The key under which the Skolem symbol is remembered
(src/Core/Sko/preinner-skolemization.go:68). -/
def skoKey (F : Form) : Form := (ac F 0 (fun _ => none)).1

/-! ### Meaning -/

theorem acTermL_eq_map (σ : VMap) (l : List Term) : acTermL σ l = l.map (acTerm σ) := by
  induction l with
  | nil => rfl
  | cons a l ih => simp [acTermL, ih]

section
variable {D : Type u} {I : Interp D} {μ : Nat → D}

/-- The values of the free variables agree along the renaming. -/
def Agree (S : List Nat) (k : Nat) (σ : VMap) (ρ ρ' : Nat → D) : Prop :=
  ∀ i ∈ S, ∃ j, σ i = some j ∧ j < k ∧ ρ i = ρ' j

theorem acTerm_eval {σ : VMap} {k : Nat} {ρ ρ' : Nat → D} {t : Term} (h : Agree t.vars k σ ρ ρ') :
    Term.eval I ρ' μ (acTerm σ t) = Term.eval I ρ μ t := by
  induction t using Term.ind with
  | var i =>
    obtain ⟨j, e, _, hv⟩ := h i (by simp [Term.vars])
    simp [acTerm, e, Term.eval, hv]
  | mv i => simp [acTerm, Term.eval]
  | fn p tys args ih =>
    simp only [acTerm, Term.eval, Term.evalL_eq_map, acTermL_eq_map, List.map_map]
    congr 1
    apply List.map_congr_left
    intro a ha
    exact ih a ha (fun i hi => h i (by simp only [Term.vars, Term.mem_varsL]; exact ⟨a, ha, hi⟩))

/-- What the conversion of `f` does to the map and to the meaning. -/
def AcSpec (I : Interp D) (μ : Nat → D) (f : Form) : Prop :=
  ∀ (k : Nat) (σ : VMap), f.binders.Nodup → (∀ i ∈ f.fvs, i ∉ f.binders) →
    (∀ i, i ∉ f.binders → (ac f k σ).2 i = σ i) ∧
    (∀ ρ ρ' : Nat → D, Agree f.fvs k σ ρ ρ' →
      (Form.holds I μ ρ f ↔ Form.holds I μ ρ' (ac f k σ).1))

theorem Agree.mono {S T : List Nat} {k : Nat} {σ σ' : VMap} {ρ ρ' : Nat → D} (h : Agree S k σ ρ ρ')
    (hs : ∀ i ∈ T, i ∈ S) (hσ : ∀ i ∈ T, σ' i = σ i) : Agree T k σ' ρ ρ' := by
  intro i hi
  obtain ⟨j, e, l, v⟩ := h i (hs i hi)
  exact ⟨j, by rw [hσ i hi, e], l, v⟩

theorem Agree.bind {S : List Nat} {k : Nat} {σ : VMap} {ρ ρ' : Nat → D} {i : Nat}
    (h : Agree (S.filter (fun j => !decide (j = i))) k σ ρ ρ') (d : D) :
    Agree S (k + 1) (σ.set i k) (upd ρ i d) (upd ρ' k d) := by
  intro j hj
  by_cases e : j = i
  · exact ⟨k, by simp [VMap.set, e], by omega, by simp [upd, e]⟩
  · obtain ⟨j', e', l, v⟩ := h j (by simp [hj, e])
    exact ⟨j', by simp [VMap.set, e, e'], by omega, by
      rw [upd_other _ _ e, upd_other _ _ (by omega), v]⟩

theorem mem_quant_fvs {i : Nat} {v : TVar} {vs : List TVar} {f : Form} :
    i ∈ (f.fvs.filter (fun i => !((v :: vs).map TVar.index).contains i)) ↔
      i ∈ (f.fvs.filter (fun i => !(vs.map TVar.index).contains i)) ∧ i ≠ v.index := by
  simp; grind

/-- Two formulas at a time. -/
theorem ac_pair {f g : Form} (hf : AcSpec I μ f) (hg : AcSpec I μ g) {k : Nat} {σ : VMap}
    (nd : (f.binders ++ g.binders).Nodup) (hd : ∀ i ∈ f.fvs ++ g.fvs, i ∉ f.binders ++ g.binders) :
    (∀ i, i ∉ f.binders ++ g.binders → (ac g k (ac f k σ).2).2 i = σ i) ∧
    (∀ ρ ρ' : Nat → D, Agree (f.fvs ++ g.fvs) k σ ρ ρ' →
      (Form.holds I μ ρ f ↔ Form.holds I μ ρ' (ac f k σ).1) ∧
      (Form.holds I μ ρ g ↔ Form.holds I μ ρ' (ac g k (ac f k σ).2).1)) := by
  simp only [List.nodup_append, List.mem_append, not_or] at nd hd
  obtain ⟨a1, a2⟩ := hf k σ nd.1 (fun i hi => (hd i (Or.inl hi)).1)
  obtain ⟨b1, b2⟩ := hg k (ac f k σ).2 nd.2.1 (fun i hi => (hd i (Or.inr hi)).2)
  refine ⟨fun i hi => ?_, fun ρ ρ' h => ⟨a2 ρ ρ' ?_, b2 ρ ρ' ?_⟩⟩
  · simp only [List.mem_append, not_or] at hi
    rw [b1 i hi.2, a1 i hi.1]
  · exact h.mono (fun i hi => by simp [hi]) (fun _ _ => rfl)
  · exact h.mono (fun i hi => by simp [hi]) (fun i hi => a1 i (hd i (Or.inr hi)).1)

theorem acL_spec {fs : List Form} (ih : ∀ f ∈ fs, AcSpec I μ f) {k : Nat} {σ : VMap}
    (nd : (Form.bindersL fs).Nodup) (hd : ∀ i ∈ Form.fvsL fs, i ∉ Form.bindersL fs) :
    (∀ i, i ∉ Form.bindersL fs → (acL fs k σ).2 i = σ i) ∧
    (∀ ρ ρ' : Nat → D, Agree (Form.fvsL fs) k σ ρ ρ' →
      ((∀ f ∈ fs, Form.holds I μ ρ f) ↔ ∀ f ∈ (acL fs k σ).1, Form.holds I μ ρ' f) ∧
      ((∃ f ∈ fs, Form.holds I μ ρ f) ↔ ∃ f ∈ (acL fs k σ).1, Form.holds I μ ρ' f)) := by
  induction fs generalizing σ with
  | nil => simp [acL]
  | cons f fs ihl =>
    simp only [Form.bindersL, Form.fvsL, List.nodup_append, List.mem_append, not_or] at nd hd ⊢
    obtain ⟨a1, a2⟩ := ih f (by simp) k σ nd.1 (fun i hi => (hd i (Or.inl hi)).1)
    obtain ⟨b1, b2⟩ := ihl (σ := (ac f k σ).2) (fun g hg => ih g (by simp [hg])) nd.2.1
      (fun i hi => (hd i (Or.inr hi)).2)
    refine ⟨fun i hi => by simp only [acL]; rw [b1 i hi.2, a1 i hi.1], fun ρ ρ' h => ?_⟩
    have x := a2 ρ ρ' (h.mono (fun i hi => by simp [hi]) (fun _ _ => rfl))
    have y := b2 ρ ρ' (h.mono (fun i hi => by simp [hi]) (fun i hi => a1 i (hd i (Or.inr hi)).1))
    have e : ∀ (a : Form) (l : List Form) (P : Form → Prop), (∃ g ∈ a :: l, P g) ↔ P a ∨ ∃ g ∈ l, P g := by
      simp
    simp only [acL, List.forall_mem_cons, e]
    exact ⟨by rw [x, y.1], by rw [x, y.2]⟩

/-- A block of quantifiers, one variable at a time. -/
theorem ac_quant {f : Form} (hf : AcSpec I μ f) (vs : List TVar) {k : Nat} {σ : VMap}
    (nd : (vs.map TVar.index ++ f.binders).Nodup)
    (hd : ∀ i ∈ f.fvs.filter (fun i => !(vs.map TVar.index).contains i), i ∉ vs.map TVar.index ++ f.binders) :
    (∀ i, i ∉ vs.map TVar.index ++ f.binders → (ac f (acVars k σ vs).1 (acVars k σ vs).2.1).2 i = σ i) ∧
    (∀ ρ ρ' : Nat → D, Agree (f.fvs.filter (fun i => !(vs.map TVar.index).contains i)) k σ ρ ρ' →
      (forallVars (fun ρ => Form.holds I μ ρ f) vs ρ ↔
        forallVars (fun ρ => Form.holds I μ ρ (ac f (acVars k σ vs).1 (acVars k σ vs).2.1).1)
          (acVars k σ vs).2.2 ρ') ∧
      (existsVars (fun ρ => Form.holds I μ ρ f) vs ρ ↔
        existsVars (fun ρ => Form.holds I μ ρ (ac f (acVars k σ vs).1 (acVars k σ vs).2.1).1)
          (acVars k σ vs).2.2 ρ')) := by
  induction vs generalizing k σ with
  | nil =>
    simp only [List.map_nil, List.nil_append] at nd hd ⊢
    have e : f.fvs.filter (fun i => !([] : List Nat).contains i) = f.fvs := by simp
    rw [e] at hd ⊢
    obtain ⟨a, b⟩ := hf k σ nd hd
    exact ⟨by simpa [acVars] using a, fun ρ ρ' h => by simpa [acVars, forallVars, existsVars] using b ρ ρ' h⟩
  | cons v vs ih =>
    simp only [List.map_cons, List.cons_append, List.nodup_cons] at nd
    have hd' : ∀ i ∈ f.fvs.filter (fun i => !(vs.map TVar.index).contains i),
        i ∉ vs.map TVar.index ++ f.binders := by
      intro i hi
      by_cases e : i = v.index
      · rw [e]; exact nd.1
      · have := hd i (mem_quant_fvs.2 ⟨hi, e⟩)
        simp only [List.map_cons, List.cons_append, List.mem_cons, not_or] at this
        exact this.2
    obtain ⟨a, b⟩ := ih (k := k + 1) (σ := σ.set v.index k) nd.2 hd'
    refine ⟨fun i hi => ?_, fun ρ ρ' h => ?_⟩
    · simp only [List.map_cons, List.cons_append, List.mem_cons, not_or] at hi
      simp only [acVars]
      rw [a i hi.2]
      simp [VMap.set, hi.1]
    · simp only [acVars, forallVars, existsVars]
      have key : ∀ d, Agree (f.fvs.filter (fun i => !(vs.map TVar.index).contains i)) (k + 1)
          (σ.set v.index k) (upd ρ v.index d) (upd ρ' k d) := by
        intro d
        refine Agree.bind (h.mono (fun i hi => ?_) (fun _ _ => rfl)) d
        rw [List.mem_filter] at hi
        exact mem_quant_fvs.2 ⟨hi.1, by simpa using hi.2⟩
      exact ⟨forall_congr' fun d => (b _ _ (key d)).1, exists_congr fun d => (b _ _ (key d)).2⟩

theorem ac_spec (f : Form) : AcSpec I μ f := by
  induction f using Form.ind with
  | pred p tys args =>
    intro k σ _ _
    refine ⟨by simp [ac], fun ρ ρ' h => ?_⟩
    simp only [ac, Form.holds_pred, acTermL_eq_map, List.map_map]
    have : List.map (Term.eval I ρ' μ ∘ acTerm σ) args = List.map (Term.eval I ρ μ) args :=
      List.map_congr_left fun a ha => acTerm_eval (k := k) (fun i hi => h i (by
        simp only [Form.fvs, Term.mem_varsL]; exact ⟨a, ha, hi⟩))
    rw [this]
  | top => intro k σ _ _; simp [ac]
  | bot => intro k σ _ _; simp [ac]
  | neg f ih =>
    intro k σ nd hd
    obtain ⟨a, b⟩ := ih k σ nd hd
    exact ⟨a, fun ρ ρ' h => by simp only [ac, Form.holds_neg]; rw [b ρ ρ' h]⟩
  | and fs ih =>
    intro k σ nd hd
    obtain ⟨a, b⟩ := acL_spec ih (k := k) (σ := σ) nd hd
    exact ⟨a, fun ρ ρ' h => by simp only [ac, Form.holds_and]; exact (b ρ ρ' h).1⟩
  | or fs ih =>
    intro k σ nd hd
    obtain ⟨a, b⟩ := acL_spec ih (k := k) (σ := σ) nd hd
    exact ⟨a, fun ρ ρ' h => by simp only [ac, Form.holds_or]; exact (b ρ ρ' h).2⟩
  | imp f g ihf ihg =>
    intro k σ nd hd
    obtain ⟨a, b⟩ := ac_pair ihf ihg (k := k) (σ := σ) nd hd
    exact ⟨a, fun ρ ρ' h => by simp only [ac, Form.holds_imp]; rw [(b ρ ρ' h).1, (b ρ ρ' h).2]⟩
  | equ f g ihf ihg =>
    intro k σ nd hd
    obtain ⟨a, b⟩ := ac_pair ihf ihg (k := k) (σ := σ) nd hd
    exact ⟨a, fun ρ ρ' h => by simp only [ac, Form.holds_equ]; rw [(b ρ ρ' h).1, (b ρ ρ' h).2]⟩
  | all vs f ih =>
    intro k σ nd hd
    obtain ⟨a, b⟩ := ac_quant ih vs (k := k) (σ := σ) nd hd
    exact ⟨a, fun ρ ρ' h => by simp only [ac, Form.holds_all]; exact (b ρ ρ' h).1⟩
  | ex vs f ih =>
    intro k σ nd hd
    obtain ⟨a, b⟩ := ac_quant ih vs (k := k) (σ := σ) nd hd
    exact ⟨a, fun ρ ρ' h => by simp only [ac, Form.holds_ex]; exact (b ρ ρ' h).2⟩
end

/-! ### Metavariables -/

mutual
theorem acTerm_getMetas (σ : VMap) : ∀ t : Term, (acTerm σ t).getMetas = t.getMetas
  | .var i => by simp only [acTerm]; split <;> simp [Term.getMetas]
  | .mv m => by simp [acTerm]
  | .fn p tys args => by simp only [acTerm, Term.getMetas]; exact acTermL_unionMetas σ args _
theorem acTermL_unionMetas (σ : VMap) : ∀ (l : List Term) s, Term.unionMetas s (acTermL σ l) = Term.unionMetas s l
  | [], s => by simp [acTermL]
  | a :: l, s => by
    simp only [acTermL, Term.unionMetas, acTerm_getMetas σ a]
    congr 1; funext m; congr 1; funext s'
    exact acTermL_unionMetas σ l s'
end

mutual
theorem ac_getMetas : ∀ (f : Form) (k : Nat) (σ : VMap), (ac f k σ).1.getMetas = f.getMetas
  | .pred p tys args, k, σ => by simp only [ac, Form.getMetas]; exact acTermL_unionMetas σ args _
  | .top, _, _ => rfl
  | .bot, _, _ => rfl
  | .neg f, k, σ => by simp only [ac, Form.getMetas]; exact ac_getMetas f k σ
  | .and fs, k, σ => by simp only [ac, Form.getMetas]; exact acL_unionMetas fs k σ _
  | .or fs, k, σ => by simp only [ac, Form.getMetas]; exact acL_unionMetas fs k σ _
  | .imp f g, k, σ => by simp only [ac, Form.getMetas]; rw [ac_getMetas f k σ, ac_getMetas g k _]
  | .equ f g, k, σ => by simp only [ac, Form.getMetas]; rw [ac_getMetas f k σ, ac_getMetas g k _]
  | .all vs f, k, σ => by simp only [ac, Form.getMetas]; exact ac_getMetas f _ _
  | .ex vs f, k, σ => by simp only [ac, Form.getMetas]; exact ac_getMetas f _ _
theorem acL_unionMetas : ∀ (fs : List Form) (k : Nat) (σ : VMap) s,
    Form.unionMetas s (acL fs k σ).1 = Form.unionMetas s fs
  | [], _, _, _ => rfl
  | f :: fs, k, σ, s => by
    simp only [acL, Form.unionMetas, ac_getMetas f k σ]
    congr 1; funext m; congr 1; funext s'
    exact acL_unionMetas fs k _ s'
end

theorem skoKey_metaElems (F : Form) : (skoKey F).metaElems = F.metaElems := by
  simp only [Form.metaElems, skoKey, ac_getMetas]

/-! ### Formulas with the same key need the same witnesses -/

theorem acVars_ne_nil {k : Nat} {σ : VMap} {vs : List TVar} : (acVars k σ vs).2.2.length = vs.length := by
  induction vs generalizing k σ with
  | nil => rfl
  | cons v vs ih => simp [acVars, ih]

theorem skoKey_parts {F : Form} {v : TVar} {b : Form} (h : deltaParts F = some (v, b)) :
    ∃ n, deltaParts (skoKey F) = some (⟨n, 0, v.ty⟩, (ac b 1 (VMap.set (fun _ => none) v.index 0)).1) := by
  unfold deltaParts at h
  split at h <;> cases h
  · rename_i vs f
    refine ⟨"x@" ++ toString 0, ?_⟩
    simp only [skoKey, ac, acVars, deltaParts, alls]
    by_cases hv : vs.length > 0
    · simp [hv, acVars_ne_nil, ac]
    · have : vs = [] := List.eq_nil_of_length_eq_zero (by omega)
      subst this; simp [acVars, ac]
  · rename_i vs f
    refine ⟨"x@" ++ toString 0, ?_⟩
    simp only [skoKey, ac, acVars, deltaParts, exs]
    by_cases hv : vs.length > 0
    · simp [hv, acVars_ne_nil, ac]
    · have : vs = [] := List.eq_nil_of_length_eq_zero (by omega)
      subst this; simp [acVars, ac]

theorem skoKey_holds {D : Type u} {I : Interp D} {v : TVar} {b : Form} {c : Nat}
    (w : PartsWF v b c) {μ ρ ρ' : Nat → D} {d : D} :
    Form.holds I μ (upd ρ v.index d) b ↔
      Form.holds I μ (upd ρ' 0 d) (ac b 1 (VMap.set (fun _ => none) v.index 0)).1 := by
  have nd := List.nodup_cons.1 w.nodup
  refine (ac_spec b 1 _ nd.2 (fun i hi => by rw [w.closed i hi]; exact nd.1)).2 _ _ ?_
  intro i hi
  rw [w.closed i hi]
  exact ⟨0, by simp [VMap.set], by omega, by simp [upd]⟩

/-- Formulas with the same key have the same metavariables in the same order and, for the same value
of the variable, bodies with the same meaning. -/
theorem same_key {F G : Form} {v w : TVar} {b e : Form} {c c' : Nat}
    (hF : deltaParts F = some (v, b)) (hG : deltaParts G = some (w, e)) (wF : PartsWF v b c)
    (wG : PartsWF w e c') (hk : skoKey F = skoKey G) :
    F.metaElems = G.metaElems ∧
    ∀ (D : Type u) (I : Interp D) (μ ρ ρ' : Nat → D) (d : D),
      Form.holds I μ (upd ρ v.index d) b ↔ Form.holds I μ (upd ρ' w.index d) e := by
  refine ⟨by rw [← skoKey_metaElems F, hk, skoKey_metaElems G], fun D I μ ρ ρ' d => ?_⟩
  obtain ⟨n, h1⟩ := skoKey_parts hF
  obtain ⟨n', h2⟩ := skoKey_parts hG
  rw [hk, h2] at h1
  simp only [Option.some.injEq, Prod.mk.injEq] at h1
  rw [skoKey_holds wF (ρ' := ρ), skoKey_holds wG (ρ' := ρ), h1.2]

/-- Two formulas with the same key, written with different variables. -/
example : skoKey (.ex [⟨"a", 5, .constr "$i" []⟩] (.all [⟨"b", 6, .constr "$i" []⟩] (.pred 0 [] [.var 5, .var 6, .mv 3]))) =
    skoKey (.ex [⟨"c", 8, .constr "$i" []⟩] (.all [⟨"d", 7, .constr "$i" []⟩] (.pred 0 [] [.var 8, .var 7, .mv 3]))) := by
  decide

end Verif.Search
