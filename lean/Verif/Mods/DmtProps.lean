import Verif.Mods.Dmt
/-!
# C42, C61: rewrite rules made from axioms
-/

namespace Verif.Mods.Dmt
open Verif.AST Verif.Search

/-- The rule as it is stored, before Skolemisation. -/
def Rule.norm (r : Rule) : Rule := ⟨r.pos, r.atom.removeNeg, r.cons⟩

theorem Rule.lit_below {D : Type u} {I J : Interp D} {r : Rule} {c : Nat} (w : WF r.atom c) (hP : J.pr = I.pr)
    (hF : ∀ p, p < c → J.fn p = I.fn p) {μ ρ : Nat → D} : Form.holds J μ ρ r.lit ↔ Form.holds I μ ρ r.lit := by
  unfold Rule.lit
  split
  · exact holds_below w hP hF
  · rw [Form.holds_neg, Form.holds_neg, holds_below w hP hF]

theorem Rule.valid_below {D : Type u} {I J : Interp D} {r : Rule} {c : Nat} (w : WF r.atom c) (w' : WF r.cons c)
    (hP : J.pr = I.pr) (hF : ∀ p, p < c → J.fn p = I.fn p) {ρ : Nat → D} : r.Valid J ρ ↔ r.Valid I ρ := by
  unfold Rule.Valid
  apply forall_congr'; intro μ
  rw [Rule.lit_below w hP hF, holds_below w' hP hF]

theorem addRule_spec (o : Opts) (sk : Nat) (r : Rule) (wa : WF r.atom.removeNeg sk) (wc : WF r.cons sk) :
    ∃ r' sk', addRule o sk r = some (r', sk') ∧ sk ≤ sk' ∧ WF r'.atom sk' ∧ WF r'.cons sk' ∧
      (o.presko = false → r' = r.norm ∧ sk' = sk) ∧
      (∀ (D : Type u) (I : Interp D) (ρ : Nat → D), r.norm.Valid I ρ → ∃ J : Interp D, J.pr = I.pr ∧
        (∀ p, p < sk → J.fn p = I.fn p) ∧ r'.Valid J ρ) ∧
      ∀ (D : Type u) (I : Interp D) (ρ : Nat → D), r'.Valid I ρ → r.norm.Valid I ρ := by
  unfold addRule
  cases hp : o.presko with
  | false =>
    exact ⟨_, _, rfl, Nat.le_refl _, wa, wc, fun _ => ⟨rfl, rfl⟩, fun D I ρ h => ⟨I, rfl, fun _ _ => rfl, h⟩,
      fun _ _ _ h => h⟩
  | true =>
    obtain ⟨g, sk', hg, hle, wg, h1, h2⟩ := skoLoop_spec.{u} _ r.cons sk rfl wc
    refine ⟨⟨r.pos, r.atom.removeNeg, g⟩, sk', by simp [hg], hle, wa.mono hle, wg, by simp, fun D I ρ h => ?_,
      fun D I ρ h μ hl => h2 D I μ ρ (h μ hl)⟩
    obtain ⟨J, j1, j2, j3⟩ := h1 D I
    refine ⟨J, j1, j2, fun μ hl => j3 μ ρ (h μ ?_)⟩
    exact (Rule.lit_below (r := r.norm) wa j1 j2).1 hl

theorem addRules_spec (o : Opts) (rs : List Rule) : ∀ (sk : Nat), (∀ r ∈ rs, WF r.atom.removeNeg sk ∧ WF r.cons sk) →
    ∃ rs' sk', addRules o sk rs = some (rs', sk') ∧ sk ≤ sk' ∧
      (o.presko = false → rs' = rs.map Rule.norm) ∧
      (∀ (D : Type u) (I : Interp D) (ρ : Nat → D), (∀ r ∈ rs, r.norm.Valid I ρ) → ∃ J : Interp D, J.pr = I.pr ∧
        (∀ p, p < sk → J.fn p = I.fn p) ∧ ∀ r ∈ rs', r.Valid J ρ) ∧
      ∀ (D : Type u) (I : Interp D) (ρ : Nat → D), (∀ r ∈ rs', r.Valid I ρ) → ∀ r ∈ rs, r.norm.Valid I ρ := by
  induction rs with
  | nil =>
    intro sk _
    exact ⟨[], sk, rfl, Nat.le_refl _, fun _ => rfl, fun D I ρ _ => ⟨I, rfl, fun _ _ => rfl, by simp⟩, by simp⟩
  | cons r rs ih =>
    intro sk hw
    obtain ⟨r', sk1, e1, l1, wa, wc, p1, v1, b1⟩ := addRule_spec.{u} o sk r (hw r (by simp)).1 (hw r (by simp)).2
    obtain ⟨rs', sk2, e2, l2, p2, v2, b2⟩ := ih sk1 fun s hs =>
      ⟨(hw s (by simp [hs])).1.mono l1, (hw s (by simp [hs])).2.mono l1⟩
    refine ⟨r' :: rs', sk2, by simp [addRules, e1, e2], by omega, ?_, ?_, ?_⟩
    · intro h
      rw [(p1 h).1, p2 h]; rfl
    · intro D I ρ h
      obtain ⟨J1, a1, a2, a3⟩ := v1 D I ρ (h r (by simp))
      obtain ⟨J, c1, c2, c3⟩ := v2 D J1 ρ fun s hs =>
        (Rule.valid_below (r := s.norm) (hw s (by simp [hs])).1 (hw s (by simp [hs])).2 a1 a2).2 (h s (by simp [hs]))
      refine ⟨J, by rw [c1, a1], fun p hp => by rw [c2 p (by omega), a2 p hp], ?_⟩
      intro s hs
      rcases List.mem_cons.1 hs with rfl | hs
      · exact (Rule.valid_below wa wc c1 c2).2 a3
      · exact c3 s hs
    · intro D I ρ h s hs
      rcases List.mem_cons.1 hs with rfl | hs
      · exact b1 D I ρ (h r' (by simp))
      · exact b2 D I ρ (fun t ht => h t (by simp [ht])) s hs

/-! ### Rules before Skolemisation -/

theorem wf_neg {f : Form} {c : Nat} (w : WF f c) : WF (.neg f) c :=
  ⟨w.fo, w.nodup, w.binders, w.funs, w.closed⟩

theorem wf_of_neg {f : Form} {c : Nat} (w : WF (.neg f) c) : WF f c :=
  ⟨w.fo, w.nodup, w.binders, w.funs, w.closed⟩

theorem wf_removeNeg {f : Form} {c : Nat} (w : WF f c) : WF f.removeNeg c := by
  suffices H : ∀ (f : Form) (b : Bool), WF f c → WF (f.deepWithoutNot b).1 c from H f true w
  intro f
  induction f using Form.ind with
  | neg f ih => intro b w; exact ih _ (wf_of_neg w)
  | _ => intro b w; simpa [Form.deepWithoutNot] using w

theorem wf_two {a b : Form} {c : Nat} (h : WF (.equ a b) c) : WF a c ∧ WF b c := by
  obtain ⟨fo, nd, bd, fu, cl⟩ := h
  simp only [FO, Form.binders, Form.funs, Form.fvs, List.mem_append, List.nodup_append] at fo nd bd fu cl
  exact ⟨⟨fo.1, nd.1, fun i hi => ⟨(bd i (Or.inl hi)).1, fun h => (bd i (Or.inl hi)).2 (Or.inl h)⟩,
      fun i hi => fu i (Or.inl hi), fun i hi => cl i (Or.inl hi)⟩,
    ⟨fo.2, nd.2.1, fun i hi => ⟨(bd i (Or.inr hi)).1, fun h => (bd i (Or.inr hi)).2 (Or.inr h)⟩,
      fun i hi => fu i (Or.inr hi), fun i hi => cl i (Or.inr hi)⟩⟩

theorem wf_two' {a b : Form} {c : Nat} (h : WF (.imp a b) c) : WF a c ∧ WF b c :=
  wf_two ⟨h.fo, h.nodup, h.binders, h.funs, h.closed⟩

/-- What a list of raw rules means for one choice of values. -/
def RawAt {D : Type u} (I : Interp D) (μ ρ : Nat → D) (rs : List Rule) : Prop :=
  ∀ r ∈ rs, Form.holds I μ ρ r.norm.lit → Form.holds I μ ρ r.cons

theorem atom_removeNeg {f : Form} (h : isAtomic f = true) :
    (f.removeNeg = f ∧ ∀ g, f ≠ .neg g) ∨ f = .neg f.removeNeg := by
  have := (C18_kind_exact f).1.1 (by simpa [isAtomic] using h)
  rcases this with (⟨p, tys, args, rfl⟩ | rfl | rfl) | ⟨g, (⟨p, tys, args, rfl⟩ | rfl | rfl), rfl⟩ <;>
    simp [Form.removeNeg, Form.deepWithoutNot]

theorem equRules_spec {ax cons : Form} (h : isAtomic ax = true) {D : Type u} {I : Interp D} {μ ρ : Nat → D} :
    RawAt I μ ρ (equRules ax cons) ↔ (Form.holds I μ ρ ax ↔ Form.holds I μ ρ cons) := by
  rcases atom_removeNeg h with ⟨h1, h2⟩ | h1
  · have : equRules ax cons = [⟨true, ax, cons⟩, ⟨false, ax, .neg cons⟩] := by
      cases ax <;> first | rfl | exact absurd rfl (h2 _)
    rw [this]
    simp only [RawAt, List.forall_mem_cons, List.not_mem_nil, false_imp_iff, implies_true, and_true, Rule.norm, Rule.lit,
      if_true, h1, Bool.false_eq_true, if_false, Form.holds_neg]
    constructor
    · rintro ⟨x, y⟩
      exact ⟨x, fun hc => Classical.byContradiction fun ha => y ha hc⟩
    · intro e; exact ⟨e.1, fun ha hc => ha (e.2 hc)⟩
  · have : equRules ax cons = [⟨true, ax, .neg cons⟩, ⟨false, ax, cons⟩] := by
      rw [h1]; rfl
    rw [this]
    have e : Form.holds I μ ρ ax ↔ ¬ Form.holds I μ ρ ax.removeNeg := by
      conv => lhs; rw [h1]
      rw [Form.holds_neg]
    simp only [RawAt, List.forall_mem_cons, List.not_mem_nil, false_imp_iff, implies_true, and_true, Rule.norm, Rule.lit,
      if_true, Bool.false_eq_true, if_false, Form.holds_neg, e]
    constructor
    · rintro ⟨x, y⟩
      exact ⟨y, fun hc ha => x ha hc⟩
    · intro e; exact ⟨fun ha hc => e.2 hc ha, e.1⟩

theorem equRules_wf {ax cons : Form} {c : Nat} (wa : WF ax c) (wc : WF cons c) :
    ∀ r ∈ equRules ax cons, WF r.atom.removeNeg c ∧ WF r.cons c := by
  intro r hr
  have : r.atom = ax ∧ (r.cons = cons ∨ r.cons = .neg cons) := by
    unfold equRules at hr
    split at hr <;> simp only [List.mem_cons, List.not_mem_nil, or_false] at hr <;> rcases hr with rfl | rfl <;> simp
  rw [this.1]
  rcases this.2 with e | e <;> rw [e]
  · exact ⟨wf_removeNeg wa, wc⟩
  · exact ⟨wf_removeNeg wa, wf_neg wc⟩

theorem fromEqu_spec {o : Opts} {a b : Form} {k : Bool} {rs : List Rule} {c : Nat} (w : WF (.equ a b) c)
    (h : fromEqu o a b = some (k, rs)) :
    (∀ r ∈ rs, WF r.atom.removeNeg c ∧ WF r.cons c) ∧
    (k = true → ∀ (D : Type u) (I : Interp D) (μ ρ : Nat → D), RawAt I μ ρ rs ↔ Form.holds I μ ρ (.equ a b)) ∧
    (k = false → rs = []) := by
  unfold fromEqu at h
  split at h
  · cases h; exact ⟨by simp, by simp, by simp⟩
  · rename_i hn
    simp only [Option.map_eq_some_iff] at h
    obtain ⟨e, he, h⟩ := h
    cases e with
    | true => cases h; exact ⟨by simp, by simp, by simp⟩
    | false =>
      cases ha : isAtomic a with
      | true =>
        simp only [ha, if_true, Bool.false_eq_true, if_false, Prod.mk.injEq] at h
        obtain ⟨rfl, rfl⟩ := h
        refine ⟨equRules_wf (wf_two w).1 (wf_two w).2, fun _ D I μ ρ => ?_, by simp⟩
        rw [equRules_spec ha, Form.holds_equ]
      | false =>
        have hb : isAtomic b = true := by
          cases hb : isAtomic b with
          | true => rfl
          | false => simp [ha, hb] at hn
        simp only [ha, Bool.false_eq_true, if_false, Prod.mk.injEq] at h
        obtain ⟨rfl, rfl⟩ := h
        refine ⟨equRules_wf (wf_two w).2 (wf_two w).1, fun _ D I μ ρ => ?_, by simp⟩
        rw [equRules_spec hb, Form.holds_equ]
        exact ⟨Iff.symm, Iff.symm⟩

theorem impLeft_spec {a b : Form} {l : List Rule} {c : Nat} (w : WF (.imp a b) c) (h : impLeft a b = some l) :
    (∀ r ∈ l, WF r.atom.removeNeg c ∧ WF r.cons c) ∧
    (∀ (D : Type u) (I : Interp D) (μ ρ : Nat → D), Form.holds I μ ρ (.imp a b) → RawAt I μ ρ l) ∧
    (l ≠ [] → ∀ (D : Type u) (I : Interp D) (μ ρ : Nat → D), RawAt I μ ρ l → Form.holds I μ ρ (.imp a b)) ∧
    (isAtomic a = true → l ≠ []) := by
  obtain ⟨wa, wb⟩ := wf_two' w
  unfold impLeft at h
  split at h
  · split at h
    · cases h
      refine ⟨by simpa using ⟨wa, wb⟩, fun D I μ ρ h => ?_, fun _ D I μ ρ h => ?_, by simp⟩
      · simpa [RawAt, Rule.norm, Rule.lit, Form.removeNeg, Form.deepWithoutNot] using h
      · simpa [RawAt, Rule.norm, Rule.lit, Form.removeNeg, Form.deepWithoutNot] using h
    · simp only [Option.map_eq_some_iff] at h
      obtain ⟨q, hq, rfl⟩ := h
      unfold predFromNegatedAtom at hq
      split at hq
      · cases hq
        refine ⟨by simpa using ⟨wf_of_neg wa, wb⟩, fun D I μ ρ h => ?_, fun _ D I μ ρ h => ?_, by simp⟩
        · simpa [RawAt, Rule.norm, Rule.lit, Form.removeNeg, Form.deepWithoutNot] using h
        · simpa [RawAt, Rule.norm, Rule.lit, Form.removeNeg, Form.deepWithoutNot] using h
      · cases hq
  · cases h
    rename_i hn
    exact ⟨by simp, fun D I μ ρ h => by simp [RawAt], by simp, fun e => absurd e hn⟩

theorem impRight_spec {o : Opts} {a b : Form} {l : List Rule} {c : Nat} (w : WF (.imp a b) c)
    (h : impRight o a b = some l) :
    (∀ r ∈ l, WF r.atom.removeNeg c ∧ WF r.cons c) ∧
    (∀ (D : Type u) (I : Interp D) (μ ρ : Nat → D), Form.holds I μ ρ (.imp a b) → RawAt I μ ρ l) ∧
    (l ≠ [] → ∀ (D : Type u) (I : Interp D) (μ ρ : Nat → D), RawAt I μ ρ l → Form.holds I μ ρ (.imp a b)) ∧
    (isAtomic b = true → isEqualityPred o b = some false → l ≠ []) := by
  obtain ⟨wa, wb⟩ := wf_two' w
  unfold impRight at h
  split at h
  · simp only [Option.bind_eq_some_iff] at h
    obtain ⟨e, he, h⟩ := h
    cases e with
    | true =>
      cases h
      exact ⟨by simp, fun D I μ ρ h => by simp [RawAt], by simp, fun _ e => by rw [he] at e; cases e⟩
    | false =>
      simp only [Bool.false_eq_true, if_false] at h
      split at h
      · cases h
        refine ⟨by simpa using ⟨wb, wf_neg wa⟩, fun D I μ ρ h => ?_, fun _ D I μ ρ h => ?_, by simp⟩
        · simp only [RawAt, Rule.norm, Rule.lit, Form.removeNeg, Form.deepWithoutNot, List.forall_mem_cons,
            List.not_mem_nil, false_imp_iff, implies_true, and_true, Bool.false_eq_true, if_false, Form.holds_neg, Form.holds_imp] at h ⊢
          exact fun nb ha => nb (h ha)
        · simp only [RawAt, Rule.norm, Rule.lit, Form.removeNeg, Form.deepWithoutNot, List.forall_mem_cons,
            List.not_mem_nil, false_imp_iff, implies_true, and_true, Bool.false_eq_true, if_false, Form.holds_neg, Form.holds_imp] at h ⊢
          exact fun ha => Classical.byContradiction fun nb => h nb ha
      · simp only [Option.map_eq_some_iff] at h
        obtain ⟨q, hq, rfl⟩ := h
        unfold predFromNegatedAtom at hq
        split at hq
        · cases hq
          refine ⟨by simpa using ⟨wf_of_neg wb, wf_neg wa⟩, fun D I μ ρ h => ?_, fun _ D I μ ρ h => ?_, by simp⟩
          · simp only [RawAt, Rule.norm, Rule.lit, Form.removeNeg, Form.deepWithoutNot, List.forall_mem_cons,
              List.not_mem_nil, false_imp_iff, implies_true, and_true, if_true, Form.holds_neg, Form.holds_imp] at h ⊢
            exact fun hb ha => h ha hb
          · simp only [RawAt, Rule.norm, Rule.lit, Form.removeNeg, Form.deepWithoutNot, List.forall_mem_cons,
              List.not_mem_nil, false_imp_iff, implies_true, and_true, if_true, Form.holds_neg, Form.holds_imp] at h ⊢
            exact fun ha hb => h hb ha
        · cases hq
  · cases h
    rename_i hn
    exact ⟨by simp, fun D I μ ρ h => by simp [RawAt], by simp, fun e => absurd e hn⟩

theorem RawAt.append {D : Type u} {I : Interp D} {μ ρ : Nat → D} {l r : List Rule} :
    RawAt I μ ρ (l ++ r) ↔ RawAt I μ ρ l ∧ RawAt I μ ρ r := by
  simp [RawAt, or_imp, forall_and]

theorem fromImp_spec {o : Opts} {a b : Form} {k : Bool} {rs : List Rule} {c : Nat} (w : WF (.imp a b) c)
    (h : fromImp o a b = some (k, rs)) :
    (∀ r ∈ rs, WF r.atom.removeNeg c ∧ WF r.cons c) ∧
    (∀ (D : Type u) (I : Interp D) (μ ρ : Nat → D), Form.holds I μ ρ (.imp a b) → RawAt I μ ρ rs) ∧
    (rs ≠ [] → ∀ (D : Type u) (I : Interp D) (μ ρ : Nat → D), RawAt I μ ρ rs → Form.holds I μ ρ (.imp a b)) ∧
    (k = true → (isAtomic a = true ∨ isEqualityPred o b = some false) → rs ≠ []) := by
  unfold fromImp at h
  split at h
  · cases h; exact ⟨by simp, by simp [RawAt], by simp, by simp⟩
  · rename_i hn
    simp only [Option.bind_eq_some_iff] at h
    obtain ⟨e, he, h⟩ := h
    cases e with
    | true => cases h; exact ⟨by simp, by simp [RawAt], by simp, by simp⟩
    | false =>
      simp only [Bool.false_eq_true, if_false, Option.bind_eq_some_iff, Option.map_eq_some_iff] at h
      obtain ⟨l, hl, r, hr, h⟩ := h
      cases h
      obtain ⟨l1, l2, l3, l4⟩ := impLeft_spec.{u} w hl
      obtain ⟨r1, r2, r3, r4⟩ := impRight_spec.{u} w hr
      refine ⟨?_, fun D I μ ρ h => RawAt.append.2 ⟨l2 D I μ ρ h, r2 D I μ ρ h⟩, fun hne D I μ ρ h => ?_, fun _ hh => ?_⟩
      · intro x hx
        rcases List.mem_append.1 hx with hx | hx
        · exact l1 x hx
        · exact r1 x hx
      · rw [RawAt.append] at h
        by_cases hle : l = []
        · exact r3 (fun e => hne (by simp [hle, e])) D I μ ρ h.2
        · exact l3 hle D I μ ρ h.1
      · intro e
        rw [List.append_eq_nil_iff] at e
        have ha : isAtomic a = false := by
          cases ha : isAtomic a with
          | false => rfl
          | true => exact absurd e.1 (l4 ha)
        have hb : isAtomic b = true := by
          cases hb : isAtomic b with
          | true => rfl
          | false => simp [ha, hb] at hn
        rcases hh with hh | hh
        · rw [ha] at hh; cases hh
        · exact r4 hb hh e.2

theorem fromMatrix_spec {o : Opts} {g : Form} {k : Bool} {rs : List Rule} {c : Nat} (w : WF g c)
    (h : fromMatrix o g = some (k, rs)) :
    (∀ r ∈ rs, WF r.atom.removeNeg c ∧ WF r.cons c) ∧
    (∀ (D : Type u) (I : Interp D) (μ ρ : Nat → D), Form.holds I μ ρ g → RawAt I μ ρ rs) ∧
    (rs ≠ [] → ∀ (D : Type u) (I : Interp D) (μ ρ : Nat → D), RawAt I μ ρ rs → Form.holds I μ ρ g) := by
  cases g with
  | equ a b =>
    obtain ⟨h1, h2, h3⟩ := fromEqu_spec.{u} w h
    cases k with
    | true => exact ⟨h1, fun D I μ ρ h => (h2 rfl D I μ ρ).2 h, fun _ D I μ ρ h => (h2 rfl D I μ ρ).1 h⟩
    | false => rw [h3 rfl]; exact ⟨by simp, by simp [RawAt], by simp⟩
  | imp a b =>
    simp only [fromMatrix] at h
    split at h
    · obtain ⟨h1, h2, h3, -⟩ := fromImp_spec.{u} w h
      exact ⟨h1, h2, h3⟩
    · cases h; exact ⟨by simp, by simp [RawAt], by simp⟩
  | _ => cases h; exact ⟨by simp, by simp [RawAt], by simp⟩

theorem register_spec {o : Opts} {m sk sk' c : Nat} {F : Form} {k : Bool} {rules : List Rule} (w : WF F c)
    (hc : c ≤ sk) (hm : ∀ i ∈ F.metas, i < m) (h : register o m sk F = some (k, rules, sk')) :
    (∀ (D : Type u) (I : Interp D) (ρ : Nat → D), (∀ μ, Form.holds I μ ρ F) → ∃ J : Interp D, J.pr = I.pr ∧
      (∀ p, p < sk → J.fn p = I.fn p) ∧ (o.presko = false → J = I) ∧ ∀ r ∈ rules, r.Valid J ρ) ∧
    (rules ≠ [] → ∀ (D : Type u) (I : Interp D) (ρ : Nat → D), (∀ r ∈ rules, r.Valid I ρ) →
      ∀ μ, Form.holds I μ ρ F) ∧
    (k = true → (∃ g a b, instForalls (leadAll F) m F = some g ∧ (g = .equ a b ∨ g = .imp a b ∧
      (isAtomic a = true ∨ isEqualityPred o b = some false))) → rules ≠ []) := by
  obtain ⟨g, hg, wg, -, he⟩ := instForalls_spec.{u} _ F c m rfl w hm
  simp only [register, hg, Option.bind_some, Option.bind_eq_some_iff, Option.map_eq_some_iff] at h
  obtain ⟨⟨k', rs⟩, hr, ⟨rs', sk''⟩, hs, h⟩ := h
  simp only [Prod.mk.injEq] at h
  obtain ⟨rfl, rfl, rfl⟩ := h
  obtain ⟨f1, f2, f3⟩ := fromMatrix_spec.{u} wg hr
  obtain ⟨_, _, a1, a2, a3, a4, a5⟩ := addRules_spec.{u} o rs sk fun r hr => ⟨(f1 r hr).1.mono hc, (f1 r hr).2.mono hc⟩
  dsimp only at hs
  rw [hs] at a1
  cases a1
  have hne : rs = [] ↔ rs' = [] := by
    cases rs with
    | nil => simp only [addRules, Option.some.injEq, Prod.mk.injEq] at hs; simp [hs.1.symm]
    | cons r rs =>
      simp only [addRules, Option.bind_eq_some_iff, Option.map_eq_some_iff] at hs
      obtain ⟨_, _, _, _, hs⟩ := hs
      cases hs
      simp
  have raw : ∀ {D : Type u} {I : Interp D} {ρ : Nat → D}, (∀ r ∈ rs, r.norm.Valid I ρ) ↔ ∀ μ, RawAt I μ ρ rs := by
    intro D I ρ
    exact ⟨fun h μ r hr => h r hr μ, fun h r hr μ => h μ r hr⟩
  refine ⟨fun D I ρ hF => ?_, fun hn D I ρ hv μ => ?_, ?_⟩
  · have hv : ∀ r ∈ rs, r.norm.Valid I ρ := raw.2 fun μ => f2 D I μ ρ ((he D I ρ μ).1 (hF μ) μ fun _ _ => rfl)
    cases hp : o.presko with
    | false =>
      refine ⟨I, rfl, fun _ _ => rfl, fun _ => rfl, fun r hr => ?_⟩
      rw [a3 hp] at hr
      obtain ⟨r0, h0, rfl⟩ := List.mem_map.1 hr
      exact hv r0 h0
    | true =>
      obtain ⟨J, j1, j2, j3⟩ := a4 D I ρ hv
      exact ⟨J, j1, j2, by simp, j3⟩
  · refine (he D I ρ μ).2 fun μ' _ => ?_
    exact f3 (fun e => hn (hne.1 e)) D I μ' ρ (raw.1 (a5 D I ρ hv) μ')
  · rintro rfl ⟨g', a, b, hg', hh⟩ e
    rw [hg] at hg'
    cases hg'
    rw [← hne] at e
    rcases hh with rfl | ⟨rfl, hh⟩
    · obtain ⟨-, h2, -⟩ := fromEqu_spec.{0} wg hr
      subst e
      simp only [fromMatrix] at hr
      unfold fromEqu at hr
      split at hr
      · cases hr
      · simp only [Option.map_eq_some_iff] at hr
        obtain ⟨e, -, hr⟩ := hr
        cases e with
        | true => cases hr
        | false =>
          simp only [Bool.false_eq_true, if_false, Prod.mk.injEq, true_and] at hr
          unfold equRules at hr
          split at hr <;> cases hr
    · simp only [fromMatrix] at hr
      split at hr
      · exact (fromImp_spec.{0} wg hr).2.2.2 rfl hh e
      · cases hr

/-! ### Instances of rules -/

theorem occ_replaceSubTermBy {m n : Nat} {u t : Term} (h : n ≠ m) (hu : n ∉ u.metas) :
    Term.occ n (Term.replaceSubTermBy (.mv m) u t) = Term.occ n t := by
  induction t using Term.ind with
  | var j => simp [Term.replaceSubTermBy]
  | mv j =>
    by_cases e : j = m
    · subst e
      have hj : j ≠ n := fun e => h e.symm
      simp [Term.replaceSubTermBy, Term.occ, Term.metas, List.count_eq_zero.2 hu, hj]
    · simp [Term.replaceSubTermBy, e]
  | fn p tys args ih =>
    simp only [Term.replaceSubTermBy, reduceCtorEq, if_false, Term.occ, Term.metas] at ih ⊢
    induction args with
    | nil => rfl
    | cons a l ihl =>
      simp only [Term.replaceFirst]
      split
      · simp only [Term.metasL, List.count_append]
        rw [ihl fun a ha => ih a (by simp [ha])]
      · simp only [Term.metasL, List.count_append]
        rw [ih a (by simp)]

theorem linearIn_replace {m n : Nat} {u : Term} {f : Form} (h : n ≠ m) (hu : n ∉ u.metas) (hl : f.linearIn n) :
    (Form.replaceMetaByTerm m u f).linearIn n := by
  induction f using Form.ind with
  | pred p tys args =>
    simp only [Form.replaceMetaByTerm, Form.linearIn, List.forall_mem_map] at hl ⊢
    intro a ha
    rw [occ_replaceSubTermBy h hu]
    exact hl a ha
  | top => trivial
  | bot => trivial
  | neg f ih => exact ih hl
  | and fs ih =>
    simp only [Form.replaceMetaByTerm, Form.linearIn, Form.linearInL_iff, Form.replaceMetaByTermL_eq, List.forall_mem_map] at hl ⊢
    exact fun f hf => ih f hf (hl f hf)
  | or fs ih =>
    simp only [Form.replaceMetaByTerm, Form.linearIn, Form.linearInL_iff, Form.replaceMetaByTermL_eq, List.forall_mem_map] at hl ⊢
    exact fun f hf => ih f hf (hl f hf)
  | imp f g ihf ihg => exact ⟨ihf hl.1, ihg hl.2⟩
  | equ f g ihf ihg => exact ⟨ihf hl.1, ihg hl.2⟩
  | all vs f ih => exact ih hl
  | ex vs f ih => exact ih hl

theorem instμ_not_key {D : Type u} {I : Interp D} {ρ μ : Nat → D} {σ : List (Nat × Term)} {i : Nat}
    (h : ∀ p ∈ σ, p.1 ≠ i) : instμ I ρ μ σ i = μ i := by
  unfold instμ
  have : σ.find? (fun p => decide (p.1 = i)) = none := by
    rw [List.find?_eq_none]
    intro p hp
    simpa using h p hp
  rw [this]

theorem substituteAll_holds {D : Type u} {I : Interp D} {ρ : Nat → D} (σ : List (Nat × Term)) : ∀ (f : Form) (μ : Nat → D),
    Solved σ → (∀ p ∈ σ, f.linearIn p.1) →
    (Form.holds I μ ρ (substituteAll σ f) ↔ Form.holds I (instμ I ρ μ σ) ρ f) := by
  induction σ with
  | nil => intro f μ _ _; exact Iff.rfl
  | cons p σ ih =>
    intro f μ hs hl
    obtain ⟨m, u⟩ := p
    have hs' : Solved σ := ⟨(List.nodup_cons.1 hs.nodup).2, fun p hp => hs.vars p (by simp [hp]),
      fun p hp q hq => hs.solved p (by simp [hp]) q (by simp [hq])⟩
    have hne : ∀ p ∈ σ, p.1 ≠ m := fun p hp e => (List.nodup_cons.1 hs.nodup).1 (List.mem_map.2 ⟨p, hp, e⟩)
    show Form.holds I μ ρ (substituteAll σ (Form.replaceMetaByTerm m u f)) ↔ _
    rw [ih _ μ hs' fun p hp => linearIn_replace (hne p hp) (hs.solved (m, u) (by simp) p (by simp [hp]))
      (hl p (by simp [hp])),
      replaceMetaByTerm_linear (hl (m, u) (by simp)) (hs.vars (m, u) (by simp))]
    have e1 : Term.eval I ρ (instμ I ρ μ σ) u = Term.eval I ρ μ u :=
      Term.eval_congr (fun _ _ => rfl) (fun i hi => instμ_not_key fun p hp e =>
        hs.solved (m, u) (by simp) p (by simp [hp]) (e ▸ hi)) (fun _ _ => rfl)
    rw [e1]
    have e2 : upd (instμ I ρ μ σ) m (Term.eval I ρ μ u) = instμ I ρ μ ((m, u) :: σ) := by
      funext i
      by_cases e : i = m
      · subst e; simp [upd, instμ]
      · have : ¬ m = i := fun h => e h.symm
        simp [upd, instμ, e, this]
    rw [e2]

/-! ### C42 -/

/-- Full statement of C42. For every well-formed axiom: every model of the axiom can be extended on new
Skolem symbols so that every instance of the literal of a rule implies the formula that the rule puts in its place;
and, without the polarised mode (so that only equivalences are turned into rules), a consumed axiom is implied by its
rules. -/
def C42_statement : Prop :=
  ∀ (o : Opts) (m sk sk' c : Nat) (F : Form) (k : Bool) (rules : List Rule), WF F c → c ≤ sk →
    (∀ i ∈ F.metas, i < m) → register o m sk F = some (k, rules, sk') →
    (∀ (D : Type) (I : Interp D) (ρ : Nat → D), (∀ μ, Form.holds I μ ρ F) → ∃ J : Interp D, J.pr = I.pr ∧
      (∀ p, p < sk → J.fn p = I.fn p) ∧ ∀ r ∈ rules, ∀ σ, Solved σ → ∀ μ : Nat → D,
        Form.holds J (instμ J ρ μ σ) ρ r.lit → Form.holds J μ ρ (substituteAll σ r.cons)) ∧
    (o.polarized = false → k = true → ∀ (D : Type) (I : Interp D) (ρ : Nat → D), (∀ r ∈ rules, r.Valid I ρ) →
      ∀ μ, Form.holds I μ ρ F)

/-- **C42, registration.** Every model of a well-formed axiom can be extended on new Skolem symbols (not at
all without preskolemisation) so that in it, for all values of the metavariables, the literal of each rule implies its
result. -/
theorem C42_rules_follow {o : Opts} {m sk sk' c : Nat} {F : Form} {k : Bool} {rules : List Rule} (w : WF F c)
    (hc : c ≤ sk) (hm : ∀ i ∈ F.metas, i < m) (h : register o m sk F = some (k, rules, sk'))
    (D : Type u) (I : Interp D) (ρ : Nat → D) (hI : ∀ μ, Form.holds I μ ρ F) :
    ∃ J : Interp D, J.pr = I.pr ∧ (∀ p, p < sk → J.fn p = I.fn p) ∧ (o.presko = false → J = I) ∧
      ∀ r ∈ rules, ∀ μ : Nat → D, Form.holds J μ ρ r.lit → Form.holds J μ ρ r.cons :=
  (register_spec.{u} w hc hm h).1 D I ρ hI

/-- **C42, consumed axioms.** Without the polarised mode a consumed axiom is implied by its rules (with
or without preskolemisation). -/
theorem C42_consumed_implied {o : Opts} {m sk sk' c : Nat} {F : Form} {k : Bool} {rules : List Rule} (w : WF F c)
    (hc : c ≤ sk) (hm : ∀ i ∈ F.metas, i < m) (h : register o m sk F = some (k, rules, sk'))
    (hp : o.polarized = false) (hk : k = true) (D : Type u) (I : Interp D) (ρ : Nat → D)
    (hv : ∀ r ∈ rules, ∀ μ : Nat → D, Form.holds I μ ρ r.lit → Form.holds I μ ρ r.cons) (μ : Nat → D) :
    Form.holds I μ ρ F := by
  obtain ⟨-, h2, h3⟩ := register_spec.{u} w hc hm h
  refine h2 (h3 hk ?_) D I ρ hv μ
  obtain ⟨g, hg, -⟩ := instForalls_spec.{u} _ F c m rfl w hm
  simp only [register, hg, Option.bind_some, Option.bind_eq_some_iff, Option.map_eq_some_iff] at h
  obtain ⟨⟨k', rs⟩, hr, _, _, h⟩ := h
  simp only [Prod.mk.injEq] at h
  obtain ⟨rfl, -⟩ := h
  subst hk
  unfold fromMatrix at hr
  split at hr
  · exact ⟨_, _, _, hg, Or.inl rfl⟩
  · rw [hp] at hr; cases hr
  · cases hr

/-- **C42 (partial).** The full claim holds for rules whose result contains no metavariable of the substitution
twice in one argument of an atom. Missing: the other rules, for which it is false. -/
theorem C42_instances_partial {o : Opts} {m sk sk' c : Nat} {F : Form} {k : Bool} {rules : List Rule} (w : WF F c)
    (hc : c ≤ sk) (hm : ∀ i ∈ F.metas, i < m) (h : register o m sk F = some (k, rules, sk'))
    (D : Type u) (I : Interp D) (ρ : Nat → D) (hI : ∀ μ, Form.holds I μ ρ F) :
    ∃ J : Interp D, J.pr = I.pr ∧ (∀ p, p < sk → J.fn p = I.fn p) ∧ (o.presko = false → J = I) ∧
      ∀ r ∈ rules, ∀ σ, Solved σ → (∀ p ∈ σ, r.cons.linearIn p.1) → ∀ μ : Nat → D,
        Form.holds J (instμ J ρ μ σ) ρ r.lit → Form.holds J μ ρ (substituteAll σ r.cons) := by
  obtain ⟨J, j1, j2, j3, j4⟩ := C42_rules_follow w hc hm h D I ρ hI
  exact ⟨J, j1, j2, j3, fun r hr σ hs hl μ hh => (substituteAll_holds σ _ μ hs hl).2 (j4 r hr _ hh)⟩

/-- ∀X (p(X) ⇔ (q(f(X, X)) ∧ r(X))). -/
def sampleAx : Form := .all [⟨"X", 5, .constr "$i" []⟩]
  (.equ (.pred 1 [] [.var 5]) (.and [.pred 2 [] [.fn 7 [] [.var 5, .var 5]], .pred 3 [] [.var 5]]))

theorem sampleAx_wf : WF sampleAx 10 := by
  refine ⟨?_, by decide, by decide, by decide, ?_⟩
  · simp [sampleAx, FO, FOL, isTType]
  · intro i
    simp [sampleAx, Form.fvs, Form.fvsL, Term.varsL, Term.vars]

/-- The rule for `p(X)`. -/
theorem sampleAx_rule : (register ⟨false, false, 0⟩ 0 10 sampleAx).map (fun r => (r.1, r.2.1.head?.map fun r => (r.pos, r.atom, r.cons)))
    = some (true, some (true, .pred 1 [] [.mv 0], .and [.pred 2 [] [.fn 7 [] [.mv 0, .mv 0]], .pred 3 [] [.mv 0]])) := by
  decide +kernel

/-- **C42 is false of the code**: `p(a)` is rewritten into `q(f(a, X)) ∧ r(a)`, with `X` left open, although the
axiom and `p(a)` only say `q(f(a, a)) ∧ r(a)`. -/
theorem C42_violated_instance :
    substituteAll [(0, .fn 8 [] [])] (.and [.pred 2 [] [.fn 7 [] [.mv 0, .mv 0]], .pred 3 [] [.mv 0]])
      = .and [.pred 2 [] [.fn 7 [] [.fn 8 [] [], .mv 0]], .pred 3 [] [.fn 8 [] []]] ∧
    ∃ (I : Interp (Nat × Nat)), (∀ ρ μ, Form.holds I μ ρ sampleAx) ∧
      (∀ ρ μ, Form.holds I μ ρ (.pred 1 [] [.fn 8 [] []])) ∧
      ∀ J : Interp (Nat × Nat), J.pr = I.pr → (∀ p, p < 10 → J.fn p = I.fn p) → ∀ ρ, ∃ μ,
        ¬ Form.holds J μ ρ (.and [.pred 2 [] [.fn 7 [] [.fn 8 [] [], .mv 0]], .pred 3 [] [.fn 8 [] []]]) := by
  refine ⟨by decide, ⟨fun p _ ds => if p = 7 then
    match ds with
    | [x, y] => (x.1, y.1)
    | _ => (0, 0)
    else (0, 0), fun p _ ds => if p = 2 then
    match ds with
    | [x] => x.1 = x.2
    | _ => False
    else True⟩, ?_, ?_, ?_⟩
  · intro ρ μ
    simp [sampleAx, Form.holds_all, forallVars, Term.eval, Term.evalL]
  · intro ρ μ; simp [Term.eval]
  · intro J hP hF ρ
    refine ⟨fun _ => (1, 1), ?_⟩
    simp [Term.eval, Term.evalL, hP, hF 7, hF 8]

theorem C42_statement_false : ¬ C42_statement := by
  intro h
  obtain ⟨e, I, h1, h2, h3⟩ := C42_violated_instance
  have hr := sampleAx_rule
  simp only [Option.map_eq_some_iff, Prod.mk.injEq] at hr
  obtain ⟨⟨k, rules, sk'⟩, hr, -, r, hh, hp⟩ := hr
  dsimp only at hh
  obtain ⟨J, j1, j2, j3⟩ := (h ⟨false, false, 0⟩ 0 10 sk' 10 sampleAx k rules sampleAx_wf (Nat.le_refl _)
    (by decide) hr).1 _ I (fun _ => (0, 0)) (h1 _)
  obtain ⟨μ, hn⟩ := h3 J j1 j2 (fun _ => (0, 0))
  have hmem : r ∈ rules := List.mem_of_head? hh
  obtain ⟨p1, p2, p3⟩ := hp
  apply hn
  rw [← e, ← p3]
  refine j3 r hmem _ ⟨by simp, by simp [Term.vars, Term.varsL], by simp [Term.metas, Term.metasL]⟩ μ ?_
  unfold Rule.lit
  rw [p1, p2]
  have : Form.holds J μ (fun _ => (0, 0)) (.pred 1 [] [.fn 8 [] []]) := by
    have := h2 (fun _ => (0, 0)) μ
    simp only [Form.holds_pred] at this ⊢
    rw [j1]
    simpa [Term.eval, Term.evalL, j2 8] using this
  simpa [instμ, Term.eval, Term.evalL] using this

/-! ### C61 -/

/-- Full statement of C61: registering a well-formed axiom does not crash, and a consumed axiom is implied by the
rules made from it. -/
def C61_statement : Prop :=
  ∀ (o : Opts) (m sk c : Nat) (F : Form), WF F c → c ≤ sk → (∀ i ∈ F.metas, i < m) →
    ∃ k rules sk', register o m sk F = some (k, rules, sk') ∧
      (k = true → ∀ (D : Type) (I : Interp D) (ρ : Nat → D), (∀ r ∈ rules, r.Valid I ρ) → ∀ μ, Form.holds I μ ρ F)

/-- (p ∧ q) ⇒ a = b. -/
def lostAx : Form := .imp (.and [.pred 1 [] [], .pred 2 [] []]) (.pred 0 [] [.fn 7 [] [], .fn 8 [] []])

/-- **C61 is false of the code** (polarised mode): the axiom `(p ∧ q) ⇒ a = b` is consumed and no rule
is made from it. -/
theorem C61_violated_lost : (register ⟨true, false, 0⟩ 0 10 lostAx).map (fun r => (r.1, r.2.1.length)) = some (true, 0) ∧
    ∃ I : Interp Nat, ∀ ρ μ, ¬ Form.holds I μ ρ lostAx := by
  refine ⟨by decide +kernel, ⟨fun p _ _ => p, fun p _ ds => if p = 0 then ds[0]? = ds[1]? else True⟩, ?_⟩
  intro ρ μ
  simp [lostAx, Term.eval, Term.evalL]

/-- **C61 is false of the code** (polarised mode): `¬(p ∧ q) ⇒ r`, `⊤ ⇒ r` and `p ⇒ ⊥` crash. -/
theorem C61_violated_crash (o : Opts) (h : o.polarized = true) (m sk : Nat) :
    register o m sk (.imp (.neg (.and [.pred 1 [] [], .pred 2 [] []])) (.pred 3 [] [])) = none ∧
    register o m sk (.imp .top (.pred 3 [] [])) = none ∧
    (1 ≠ o.eq → register o m sk (.imp (.pred 1 [] []) .bot) = none) := by
  refine ⟨?_, ?_, fun he => ?_⟩
  · simp [register, instForalls, fromMatrix, fromImp, h, isAtomic, showKind, isEqualityPred]
  · simp [register, instForalls, fromMatrix, fromImp, h, isAtomic, showKind, isEqualityPred, impLeft, predFromNegatedAtom]
  · simp [register, instForalls, fromMatrix, fromImp, h, isAtomic, showKind, isEqualityPred, impLeft, impRight,
      predFromNegatedAtom, he]

/-- **C61 is false of the code** (any mode): `¬⊤ ⇔ (p ∧ q)` crashes. -/
theorem C61_violated_crash_equivalence (o : Opts) (m sk : Nat) :
    register o m sk (.equ (.neg .top) (.and [.pred 1 [] [], .pred 2 [] []])) = none := by
  simp [register, instForalls, fromMatrix, fromEqu, isAtomic, showKind, isEqualityPred]

theorem C61_statement_false : ¬ C61_statement := by
  intro h
  obtain ⟨k, rules, sk', e, -⟩ := h ⟨true, false, 0⟩ 0 10 10 (.equ (.neg .top) (.and [.pred 1 [] [], .pred 2 [] []]))
    (by
      refine ⟨by simp [FO, FOL], by decide, by decide, by decide, ?_⟩
      intro i; simp [Form.fvs, Form.fvsL, Term.varsL]) (Nat.le_refl _) (by decide)
  rw [C61_violated_crash_equivalence] at e
  cases e

/-- The sides of an equivalence or implication for which the claim holds: no negated truth constant, no truth
constant in an implication, no negated compound formula on the left of an implication (with a literal on the
right), no equality on the right. -/
def Plain (o : Opts) : Form → Prop
  | .equ a b => (∀ f, f = a ∨ f = b → f ≠ .neg .top ∧ f ≠ .neg .bot)
  | .imp a b => (∀ f, f = a ∨ f = b → f ≠ .top ∧ f ≠ .bot ∧ f ≠ .neg .top ∧ f ≠ .neg .bot) ∧
      (∀ g, a = .neg g → ∃ p tys args, g = .pred p tys args) ∧ isEqualityPred o b ≠ some true
  | _ => True

theorem isEqualityPred_atomic {o : Opts} {f : Form} (h : isAtomic f = true) (h1 : f ≠ .neg .top) (h2 : f ≠ .neg .bot) :
    ∃ e, isEqualityPred o f = some e := by
  have := (C18_kind_exact f).1.1 (by simpa [isAtomic] using h)
  rcases this with (⟨p, tys, args, rfl⟩ | rfl | rfl) | ⟨g, (⟨p, tys, args, rfl⟩ | rfl | rfl), rfl⟩ <;>
    first | exact absurd rfl h1 | exact absurd rfl h2 | exact ⟨_, rfl⟩

theorem atomic_cases {f : Form} (h : isAtomic f = true) (h1 : f ≠ .top) (h2 : f ≠ .bot) (h3 : f ≠ .neg .top)
    (h4 : f ≠ .neg .bot) : ∃ p tys args, f = .pred p tys args ∨ f = .neg (.pred p tys args) := by
  have := (C18_kind_exact f).1.1 (by simpa [isAtomic] using h)
  rcases this with (⟨p, tys, args, rfl⟩ | rfl | rfl) | ⟨g, (⟨p, tys, args, rfl⟩ | rfl | rfl), rfl⟩ <;>
    first | exact absurd rfl h1 | exact absurd rfl h2 | exact absurd rfl h3 | exact absurd rfl h4 |
      exact ⟨p, tys, args, by simp⟩

theorem fromMatrix_plain {o : Opts} {g : Form} (hg : Plain o g) : ∃ r, fromMatrix o g = some r := by
  unfold fromMatrix
  split
  · rename_i a b
    unfold fromEqu
    split
    · exact ⟨_, rfl⟩
    · rename_i hn
      cases ha : isAtomic a with
      | true =>
        obtain ⟨e, he⟩ := isEqualityPred_atomic (o := o) ha (hg a (Or.inl rfl)).1 (hg a (Or.inl rfl)).2
        simp [he]
      | false =>
        have hb : isAtomic b = true := by
          cases hb : isAtomic b with
          | true => rfl
          | false => simp [ha, hb] at hn
        obtain ⟨e, he⟩ := isEqualityPred_atomic (o := o) hb (hg b (Or.inr rfl)).1 (hg b (Or.inr rfl)).2
        simp [he]
  · rename_i a b
    split
    · obtain ⟨h1, h2, h3⟩ := hg
      unfold fromImp
      split
      · exact ⟨_, rfl⟩
      · have hea : ∃ e, isEqualityPred o a = some e := by
          cases a with
          | neg g => obtain ⟨p, tys, args, rfl⟩ := h2 g rfl; exact ⟨_, rfl⟩
          | _ => exact ⟨_, rfl⟩
        obtain ⟨e, he⟩ := hea
        rw [he]
        cases e with
        | true => exact ⟨_, rfl⟩
        | false =>
          have hl : ∃ l, impLeft a b = some l := by
            unfold impLeft
            split
            · rename_i ha
              obtain ⟨q1, q2, q3, q4⟩ := h1 a (Or.inl rfl)
              obtain ⟨p, tys, args, rfl | rfl⟩ := atomic_cases ha q1 q2 q3 q4 <;> exact ⟨_, rfl⟩
            · exact ⟨_, rfl⟩
          have hr : ∃ r, impRight o a b = some r := by
            unfold impRight
            split
            · rename_i hb
              obtain ⟨q1, q2, q3, q4⟩ := h1 b (Or.inr rfl)
              obtain ⟨p, tys, args, rfl | rfl⟩ := atomic_cases hb q1 q2 q3 q4
              · simp only [isEqualityPred, Option.bind_some]; split <;> exact ⟨_, rfl⟩
              · simp only [isEqualityPred, Option.bind_some]; split <;> exact ⟨_, rfl⟩
            · exact ⟨_, rfl⟩
          obtain ⟨l, hl⟩ := hl
          obtain ⟨r, hr⟩ := hr
          exact ⟨(true, l ++ r), by simp [hl, hr]⟩
    · exact ⟨_, rfl⟩
  · exact ⟨_, rfl⟩

/-- **C61 (partial).** For axioms whose sides are plain (after instantiation) registration does not crash and a
consumed axiom is implied by its rules. Missing: the other axioms, for some of which the claim is false. -/
theorem C61_consumed_partial (o : Opts) (m sk c : Nat) (F : Form) (w : WF F c) (hc : c ≤ sk) (hm : ∀ i ∈ F.metas, i < m)
    (hpl : ∀ g, instForalls (leadAll F) m F = some g → Plain o g) :
    ∃ k rules sk', register o m sk F = some (k, rules, sk') ∧
      (k = true → ∀ (D : Type u) (I : Interp D) (ρ : Nat → D), (∀ r ∈ rules, r.Valid I ρ) → ∀ μ, Form.holds I μ ρ F) := by
  obtain ⟨g, hg, wg, -⟩ := instForalls_spec.{u} _ F c m rfl w hm
  obtain ⟨⟨k, rs⟩, hr⟩ := fromMatrix_plain (hpl g hg)
  obtain ⟨f1, -⟩ := fromMatrix_spec.{u} wg hr
  obtain ⟨rs', sk', a1, -⟩ := addRules_spec.{u} o rs sk fun r hr => ⟨(f1 r hr).1.mono hc, (f1 r hr).2.mono hc⟩
  have hreg : register o m sk F = some (k, rs', sk') := by simp [register, hg, hr, a1]
  refine ⟨k, rs', sk', hreg, fun hk => ?_⟩
  obtain ⟨-, h2, h3⟩ := register_spec.{u} w hc hm hreg
  refine h2 (h3 hk ?_)
  have hp := hpl g hg
  subst hk
  unfold fromMatrix at hr
  split at hr
  · exact ⟨_, _, _, hg, Or.inl rfl⟩
  · rename_i a b
    refine ⟨_, a, b, hg, Or.inr ⟨rfl, ?_⟩⟩
    cases ha : isAtomic a with
    | true => exact Or.inl rfl
    | false =>
      right
      split at hr
      · have hb : isAtomic b = true := by
          cases hb : isAtomic b with
          | true => rfl
          | false => simp [fromImp, ha, hb] at hr
        obtain ⟨q1, q2, q3, q4⟩ := hp.1 b (Or.inr rfl)
        obtain ⟨e, he⟩ := isEqualityPred_atomic (o := o) hb q3 q4
        cases e with
        | false => exact he
        | true => exact absurd he hp.2.2
      · cases hr
  · cases hr

/-- ∀X (p(X) ⇒ ∃Y q(X, Y)) in polarised mode with preskolemisation: the rule is `p(X) ⟶ q(X, sk(X))`. -/
example : (register ⟨true, true, 0⟩ 0 10 (.all [⟨"X", 5, .constr "$i" []⟩] (.imp (.pred 1 [] [.var 5])
      (.ex [⟨"Y", 6, .constr "$i" []⟩] (.pred 2 [] [.var 5, .var 6]))))).map
        (fun r => (r.1, r.2.1.map fun r => (r.pos, r.atom, r.cons)))
    = some (true, [(true, .pred 1 [] [.mv 0], .pred 2 [] [.mv 0, .fn 10 [] [.mv 0]])]) := by decide +kernel

end Verif.Mods.Dmt
