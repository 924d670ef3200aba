import Verif.Equality.SatBuildProps

/-!
# The substitutions read off an assignment can be computed and realised
-/

namespace Verif.Equality.Sat
open Verif.Unif Verif.Equality

/-- The number of classes below a class. -/
def rank (m : Var → Bool) (ecs : List Nat) (c : Nat) : Nat := ecs.countP fun k => m (.O k c)

theorem countP_lt {α : Type} {p q : α → Bool} {l : List α} (h : ∀ a ∈ l, p a = true → q a = true) {a : α} (ha : a ∈ l)
    (hp : p a = false) (hq : q a = true) : l.countP p < l.countP q := by
  induction l with
  | nil => cases ha
  | cons b l ih =>
    have hle : l.countP p ≤ l.countP q := List.countP_mono_left fun a ha => h a (by simp [ha])
    rw [List.countP_cons, List.countP_cons]
    rcases List.mem_cons.1 ha with rfl | ha
    · simp only [hp, hq, if_true, Bool.false_eq_true, if_false]; omega
    · have := ih (fun a ha => h a (by simp [ha])) ha
      have := h b (by simp)
      by_cases hb : p b = true
      · simp only [hb, this hb, if_true]; omega
      · simp only [hb, Bool.false_eq_true, if_false]; split <;> omega

section
variable {ar : Nat → Nat} {st : St} {ecs : List Nat} {m : Var → Bool}

theorem keyRep (hk : Kept st) (hn : Enum st ecs) {c : Nat} (hc : c ∈ ecs) : st.h.rep c = c := (hk.keyRep c ((hn.2 c).1 hc)).1

theorem rank_lt (hk : Kept st) (hn : Enum st ecs) (hm : Models m st ecs) {a c : Nat} (ha : a ∈ ecs) (hc : c ∈ ecs)
    (h : m (.O a c) = true) : rank m ecs a < rank m ecs c := by
  have vo : ∀ x ∈ ecs, ∀ y ∈ ecs, vO st x y = .O x y := fun x hx y hy => by rw [vO, keyRep hk hn hx, keyRep hk hn hy]
  have irr : ∀ x ∈ ecs, m (.O x x) = false := fun x hx => by rw [← vo x hx x hx]; exact hm.irrefl x hx
  have hne : a ≠ c := fun e => by rw [e, irr c hc] at h; cases h
  refine countP_lt (a := a) (fun k hk' hka => ?_) ha (irr a ha) h
  have hka' : a ≠ k := fun e => by rw [← e, irr a ha] at hka; cases hka
  have := hm.trans c hc a ha k hk' (by rw [keyRep hk hn hc, keyRep hk hn ha]; exact Ne.symm hne)
    (by rw [keyRep hk hn ha, keyRep hk hn hk']; exact hka')
  rw [vo a ha c hc, vo k hk' a ha, vo k hk' c hc] at this
  exact this h hka

/-- A class has a representation. -/
theorem corr_some (hw : WF ar st) (hk : Kept st) (hn : Enum st ecs) {cs : List Clause} (hb : build st ecs = some cs) (hs : Sat m cs)
    {corr : Nat → Option TR} (hc : IsCorr m cs corr) {c : Nat} (hcm : c ∈ ecs) :
    ∃ t ∈ termsIn st c, corr c = some t ∧ m (.R c t) = true := by
  have hm := models hb hs
  have hr := keyRep hk hn hcm
  have hne : termsIn st c ≠ [] := by
    rcases hk.keyTerm c ((hn.2 c).1 hcm) with ⟨r, h1, h2⟩ | ⟨e, h1, h2⟩
    · exact List.ne_nil_of_mem (mem_termsIn.2 (Or.inl ⟨r, h1, rfl, by rw [h2, hr]⟩))
    · exact List.ne_nil_of_mem (mem_termsIn.2 (Or.inr ⟨e, h1, rfl, by rw [h2, hr]⟩))
  obtain ⟨t, ht, h1⟩ := hm.repr c hcm hne
  have hv : vR st c t = .R c t := by rw [vR, hr]
  have hreg : Registered cs (.R c t) := by
    obtain ⟨es, he, hmem⟩ := mem_build hb
    refine ⟨(termsIn st c).map fun t => (vR st c t, true), (hmem _).2 ⟨mem_all.2 (Or.inr (Or.inr (Or.inr (Or.inr (Or.inr (Or.inl
      (List.mem_map.2 ⟨c, hcm, rfl⟩))))))), by simpa using hne⟩, true, ?_⟩
    exact List.mem_map.2 ⟨t, ht, by rw [hv]⟩
  cases hx : corr c with
  | none =>
    have := (hc c).2 hx t hreg
    rw [hv, this] at h1
    cases h1
  | some t' =>
    obtain ⟨h2, h3⟩ := (hc c).1 t' hx
    obtain ⟨i, e, h4⟩ := registered_R hb h2
    refine ⟨t', ?_, rfl, h3⟩
    rcases mem_termsIn.1 h4 with ⟨r, h5, h6, h7⟩ | ⟨r, h5, h6, h7⟩
    · exact mem_termsIn.2 (Or.inl ⟨r, h5, h6, by rw [h7, ← e, hr]⟩)
    · exact mem_termsIn.2 (Or.inr ⟨r, h5, h6, by rw [h7, ← e, hr]⟩)

theorem args_below (hk : Kept st) (hn : Enum st ecs) (hm : Models m st ecs) {c : Nat} (hc : c ∈ ecs) {r : Rec}
    (hr : TR.fn r ∈ termsIn st c) (h : m (.R c (.fn r)) = true) {a : Nat} (ha : a ∈ r.args) :
    st.h.rep a ∈ ecs ∧ rank m ecs (st.h.rep a) < rank m ecs c := by
  have hf : r ∈ st.p.funs ∧ st.h.rep r.cls = st.h.rep c := by
    rcases mem_termsIn.1 hr with ⟨r', h1, h2, h3⟩ | ⟨e, -, h2, -⟩
    · cases h2; exact ⟨h1, h3⟩
    · cases h2
  have hae : st.h.rep a ∈ ecs := (hn.2 _).2 (hk.args r hf.1 a ha)
  refine ⟨hae, rank_lt hk hn hm hae hc ?_⟩
  have := hm.below c hc r (mem_funsIn.2 hf) a ha (by rw [vR, keyRep hk hn hc]; exact h)
  rw [vO, keyRep hk hn hc] at this
  exact this

/-- The term of a class is computed. -/
theorem translate_some (hw : WF ar st) (hk : Kept st) (hn : Enum st ecs) {cs : List Clause} (hb : build st ecs = some cs)
    (hs : Sat m cs) {corr : Nat → Option TR} (hc : IsCorr m cs corr) (k : Nat) :
    ∀ c, st.h.rep c ∈ ecs → rank m ecs (st.h.rep c) < k → ∃ t, translate st corr k c = some t := by
  have hm := models hb hs
  induction k with
  | zero => intro c _ h; omega
  | succ k ih =>
    intro c hcm hlt
    obtain ⟨t, h1, h2, h3⟩ := corr_some hw hk hn hb hs hc hcm
    cases t with
    | mv x d => exact ⟨.mv x, by simp only [translate, h2]⟩
    | fn r =>
      obtain ⟨ts, e⟩ := mapM_some (l := r.args) (f := translate st corr k) (fun a ha => by
        have := args_below hk hn hm hcm h1 h3 ha
        exact ih a this.1 (by omega))
      exact ⟨.fn r.sym ts, by simp only [translate, h2, e, Option.map_some]⟩

/-- More recursion depth does not change a computed term. -/
theorem translate_mono {corr : Nat → Option TR} (j : Nat) : ∀ c t, translate st corr j c = some t →
    translate st corr (j + 1) c = some t := by
  induction j with
  | zero => intro c t h; cases h
  | succ j ih =>
    intro c t h
    rw [translate] at h ⊢
    split
    · rename_i hx; simp only [hx] at h; cases h
    · rename_i x d hx; simp only [hx] at h; exact h
    · rename_i r hx
      simp only [hx, Option.map_eq_some_iff] at h
      obtain ⟨ts, h1, rfl⟩ := h
      have : ∀ (l : List Nat) (ts : List UT), l.mapM (translate st corr j) = some ts → l.mapM (translate st corr (j + 1)) = some ts := by
        intro l
        induction l with
        | nil => intro ts h; exact h
        | cons a l ihl =>
          intro ts h
          simp only [List.mapM_cons] at h ⊢
          obtain ⟨b, h1, h2⟩ := Option.bind_eq_some_iff.1 h
          obtain ⟨ls', h3, h4⟩ := Option.bind_eq_some_iff.1 h2
          rw [ih a b h1, ihl ls' h3]
          exact h4
      rw [this _ _ h1]; rfl

theorem translateSub_some {corr : Nat → Option TR} {sub : Nat → Option Nat} {k : Nat} (l : List (Nat × Nat))
    (h : ∀ x c, sub x = some c → ∃ t, translate st corr k c = some t) : ∃ b, translateSub st corr sub k l = some b := by
  induction l with
  | nil => exact ⟨[], rfl⟩
  | cons x l ih =>
    obtain ⟨b, hb⟩ := ih
    simp only [translateSub]
    split
    · exact ⟨b, hb⟩
    · rename_i c hc
      obtain ⟨t, ht⟩ := h x.1 c hc
      exact ⟨_, by rw [ht, hb]; rfl⟩

/-! ### Realisation -/

variable (corr : Nat → Option TR) (sub : Nat → Option Nat)

/-- The class a class is bound to through the metavariable that represents it. -/
def step (c : Nat) : Option Nat :=
  match corr c with
  | some (.mv x _) => sub x
  | _ => none

inductive Reach : Nat → Nat → Prop where
  | refl (c : Nat) : Reach c c
  | step {c d e : Nat} : step corr sub c = some d → Reach d e → Reach c e

/-- The last class of the chain of bindings, if there is one. -/
noncomputable def endOf (c : Nat) : Option Nat :=
  open Classical in if h : ∃ d, Reach corr sub c d ∧ step corr sub d = none then some h.choose else none

theorem reach_unique {c d e : Nat} (h1 : Reach corr sub c d) (hd : step corr sub d = none) (h2 : Reach corr sub c e)
    (he : step corr sub e = none) : d = e := by
  induction h1 with
  | refl c =>
    cases h2 with
    | refl => rfl
    | step h _ => rw [hd] at h; cases h
  | @step c c' d' hs _ ih =>
    cases h2 with
    | refl => rw [he] at hs; cases hs
    | step h h2 =>
      rw [hs] at h; cases h
      exact ih hd h2

theorem endOf_eq {c d : Nat} (h : Reach corr sub c d) (hd : step corr sub d = none) : endOf corr sub c = some d := by
  have hex : ∃ d, Reach corr sub c d ∧ step corr sub d = none := ⟨d, h, hd⟩
  rw [endOf, dif_pos hex]
  exact congrArg some (reach_unique corr sub hex.choose_spec.1 hex.choose_spec.2 h hd)

theorem endOf_some {c d : Nat} (h : endOf corr sub c = some d) : Reach corr sub c d ∧ step corr sub d = none := by
  rw [endOf] at h
  split at h
  · rename_i hex
    cases h
    exact hex.choose_spec
  · cases h

theorem endOf_step {c d : Nat} (h : step corr sub c = some d) : endOf corr sub c = endOf corr sub d := by
  cases hd : endOf corr sub d with
  | some e =>
    obtain ⟨h1, h2⟩ := endOf_some corr sub hd
    exact endOf_eq corr sub (.step h h1) h2
  | none =>
    cases hc : endOf corr sub c with
    | none => rfl
    | some e =>
      obtain ⟨h1, h2⟩ := endOf_some corr sub hc
      cases h1 with
      | refl => rw [h2] at h; cases h
      | step h' h1 =>
        rw [h] at h'; cases h'
        rw [endOf_eq corr sub h1 h2] at hd; cases hd

/-- The term of a class when all bindings are followed. Classes whose chain of bindings goes in a circle get a constant. -/
noncomputable def full (st : St) : Nat → Nat → UT
  | 0, _ => .fn 0 []
  | n + 1, c =>
    match endOf corr sub c with
    | none => .fn 0 []
    | some d =>
      match corr d with
      | none => .fn 0 []
      | some (.mv x _) => .mv x
      | some (.fn r) => .fn r.sym (r.args.map fun a => full st n (st.h.rep a))

noncomputable def termOf (m : Var → Bool) (st : St) (ecs : List Nat) (c : Nat) : UT := full corr sub st (rank m ecs c + 1) c

variable {corr sub}

theorem step_rank (hk : Kept st) (hn : Enum st ecs) {cs : List Clause} (hb : build st ecs = some cs) (hs : Sat m cs)
    (hcorr : IsCorr m cs corr) (hsub : IsSub m cs sub) {c d : Nat} (h : step corr sub c = some d) :
    d ∈ ecs ∧ rank m ecs d ≤ rank m ecs c := by
  have hm := models hb hs
  simp only [step] at h
  split at h
  · rename_i x e hx
    obtain ⟨h1, h2⟩ := (hcorr c).1 _ hx
    obtain ⟨h3, h4⟩ := (hsub x).1 _ h
    have hd := (registered_S hk hn hb h3).1
    refine ⟨hd, ?_⟩
    obtain ⟨i, hi, h5⟩ := registered_R hb h1
    rcases mem_termsIn.1 h5 with ⟨r, -, h6, -⟩ | ⟨p, h6, h7, h8⟩
    · cases h6
    · cases h7
      have hce : st.h.rep p.2 = c := by rw [h8, ← hi]
      by_cases hcd : c = d
      · subst hcd; exact Nat.le_refl _
      · refine List.countP_mono_left fun k hk' hkd => ?_
        have := hm.subst p h6 d hd k hk' (by rw [hce, keyRep hk hn hd]; exact Ne.symm hcd)
          (by rw [vS, keyRep hk hn hd]; exact h4) (by rw [vR, hce]; exact h1 |> fun _ => ((hcorr c).1 _ hx).2)
        have h9 := this.1
        rw [vO, vO, hce, keyRep hk hn hk', keyRep hk hn hd] at h9
        exact h9 hkd
  · cases h

theorem reach_rank (hk : Kept st) (hn : Enum st ecs) {cs : List Clause} (hb : build st ecs = some cs) (hs : Sat m cs)
    (hcorr : IsCorr m cs corr) (hsub : IsSub m cs sub) {c d : Nat} (h : Reach corr sub c d) (hc : c ∈ ecs) :
    d ∈ ecs ∧ rank m ecs d ≤ rank m ecs c := by
  induction h with
  | refl c => exact ⟨hc, Nat.le_refl _⟩
  | step h1 _ ih =>
    have h2 := step_rank hk hn hb hs hcorr hsub h1
    have h3 := ih h2.1
    exact ⟨h3.1, Nat.le_trans h3.2 h2.2⟩

theorem full_stable (hw : WF ar st) (hk : Kept st) (hn : Enum st ecs) {cs : List Clause} (hb : build st ecs = some cs) (hs : Sat m cs)
    (hcorr : IsCorr m cs corr) (hsub : IsSub m cs sub) (n : Nat) :
    ∀ n' c, c ∈ ecs → rank m ecs c < n → rank m ecs c < n' → full corr sub st n c = full corr sub st n' c := by
  induction n with
  | zero => intro n' c _ h; omega
  | succ n ih =>
    intro n' c hc h1 h2
    cases n' with
    | zero => omega
    | succ n' =>
      simp only [full]
      cases he : endOf corr sub c with
      | none => rfl
      | some d =>
        obtain ⟨hr, -⟩ := endOf_some corr sub he
        obtain ⟨hd, hle⟩ := reach_rank hk hn hb hs hcorr hsub hr hc
        obtain ⟨t, ht, h3, h4⟩ := corr_some hw hk hn hb hs hcorr hd
        simp only [h3]
        cases t with
        | mv x e => rfl
        | fn r =>
          simp only [UT.fn.injEq, true_and]
          refine List.map_congr_left fun a ha => ?_
          obtain ⟨h5, h6⟩ := args_below hk hn (models hb hs) hd ht h4 ha
          exact ih n' _ h5 (by omega) (by omega)

/-- Terms for the metavariables. -/
noncomputable def realise (corr : Nat → Option TR) (sub : Nat → Option Nat) (m : Var → Bool) (st : St) (ecs : List Nat) (x : Nat) : UT :=
  match sub x with
  | none => .mv x
  | some c => termOf corr sub m st ecs c

theorem mapM_inst {θ : Nat → UT} {f : Nat → Option UT} {g : Nat → UT} (l : List Nat) (ts : List UT)
    (h : l.mapM f = some ts) (hf : ∀ a ∈ l, ∀ t, f a = some t → t.inst θ = g a) : ts.map (UT.inst θ) = l.map g :=
  mapM_eval (A := termAlg) l ts h hf

theorem inst_fn (θ : Nat → UT) (f : Nat) (ts : List UT) : (UT.fn f ts).inst θ = .fn f (ts.map (UT.inst θ)) := by
  simp only [UT.inst, UT.eval, UT.evalL_eq, termAlg]
  rfl

theorem translate_inst (hw : WF ar st) (hk : Kept st) (hn : Enum st ecs) {cs : List Clause} (hb : build st ecs = some cs) (hs : Sat m cs)
    (hcorr : IsCorr m cs corr) (hsub : IsSub m cs sub) (k : Nat) :
    ∀ c t, st.h.rep c ∈ ecs → translate st corr k c = some t →
      t.inst (realise corr sub m st ecs) = termOf corr sub m st ecs (st.h.rep c) := by
  induction k with
  | zero => intro c t _ h; cases h
  | succ k ih =>
    intro c t hc h
    obtain ⟨t', ht', h3, h4⟩ := corr_some hw hk hn hb hs hcorr hc
    simp only [translate, h3] at h
    cases t' with
    | mv x e =>
      simp only [Option.some.injEq] at h
      subst h
      show realise corr sub m st ecs x = _
      cases hx : sub x with
      | none =>
        have hst : step corr sub (st.h.rep c) = none := by simp only [step, h3, hx]
        simp only [realise, hx, termOf, full, endOf_eq corr sub (.refl _) hst, h3]
      | some d =>
        have hst : step corr sub (st.h.rep c) = some d := by simp only [step, h3, hx]
        obtain ⟨hd, hle⟩ := step_rank hk hn hb hs hcorr hsub hst
        simp only [realise, hx, termOf]
        rw [full_stable hw hk hn hb hs hcorr hsub (rank m ecs d + 1) (rank m ecs (st.h.rep c) + 1) d hd (by omega) (by omega)]
        simp only [full, endOf_step corr sub hst]
    | fn r =>
      simp only [Option.map_eq_some_iff] at h
      obtain ⟨ts, h5, rfl⟩ := h
      have hst : step corr sub (st.h.rep c) = none := by simp only [step, h3]
      rw [inst_fn]
      simp only [termOf, full, endOf_eq corr sub (.refl _) hst, h3, UT.fn.injEq, true_and]
      refine mapM_inst r.args ts h5 fun a ha t ht => ?_
      obtain ⟨h6, h7⟩ := args_below hk hn (models hb hs) hc ht' h4 ha
      rw [ih a t h6 ht, termOf]
      exact full_stable hw hk hn hb hs hcorr hsub _ _ _ h6 (by omega) (by omega)

end

/-- **C80.** Whatever assignment the solver answers with and in whatever order the maps are iterated over, the substitution is computed
without panic or endless recursion, and some terms satisfy all its bindings. -/
theorem C80_realised (ar : Nat → Nat) (E : List (UT × UT)) (gs : List (List (UT × UT))) (k : Nat) (st : St)
    (hE : ∀ e ∈ E, PairAr ar e) (hg : ∀ g ∈ gs, ∀ e ∈ g, PairAr ar e) (he : problem (k + 1) E gs = some st)
    {ecs : List Nat} {cs : List Clause} {m : Var → Bool} {sub : Nat → Option Nat} {corr : Nat → Option TR}
    (hn : Enum st ecs) (hb : build st ecs = some cs) (hs : Sat m cs) (hsub : IsSub m cs sub) (hcorr : IsCorr m cs corr) :
    ∃ n b, (∀ j ≥ n, translateSub st corr sub j st.p.metas = some b) ∧ Realised b := by
  have hr := ready_of ar hE hg he
  have hw := hr.holds.wf
  have hk := hr.kept
  have tr : ∀ j ≥ ecs.length + 1, ∀ x c, sub x = some c → ∃ t, translate st corr j c = some t := by
    intro j hj x c hx
    have hc := (registered_S hk hn hb ((hsub x).1 c hx).1).1
    refine translate_some hw hk hn hb hs hcorr j c (by rw [keyRep hk hn hc]; exact hc) ?_
    have : rank m ecs (st.h.rep c) ≤ ecs.length := List.countP_le_length
    omega
  obtain ⟨b, hb'⟩ := translateSub_some (st := st) (corr := corr) (sub := sub) st.p.metas (tr _ (Nat.le_refl _))
  refine ⟨ecs.length + 1, b, ?_, realise corr sub m st ecs, fun p hp => ?_⟩
  · have mono := @translate_mono st corr
    have monoS : ∀ (l : List (Nat × Nat)) j b, translateSub st corr sub j l = some b → translateSub st corr sub (j + 1) l = some b := by
      intro l
      induction l with
      | nil => intro j b h; exact h
      | cons x l ihl =>
        intro j b h
        simp only [translateSub] at h ⊢
        split
        · rename_i hx; simp only [hx] at h; exact ihl j b h
        · rename_i c hx
          simp only [hx] at h
          obtain ⟨t, e1, e2⟩ := Option.bind_eq_some_iff.1 h
          simp only [Option.map_eq_some_iff] at e2
          obtain ⟨r, e3, e4⟩ := e2
          rw [mono j c t e1, ihl j r e3]
          simp [e4]
    intro j hj
    obtain ⟨d, rfl⟩ := Nat.exists_eq_add_of_le hj
    clear hj
    induction d with
    | zero => exact hb'
    | succ d ih => exact monoS _ _ _ ih
  · obtain ⟨c, hx, ht⟩ := (mem_translateSub hb').1 p hp
    have hc := (registered_S hk hn hb ((hsub p.1).1 c hx).1).1
    rw [translate_inst hw hk hn hb hs hcorr hsub _ c p.2 (by rw [keyRep hk hn hc]; exact hc) ht, keyRep hk hn hc]
    simp only [realise, hx]

/-- A substitution whose bindings are realised by terms solves the goal for these terms. -/
theorem solved_inst {E : List (UT × UT)} {gs : List (List (UT × UT))} {b : List (Nat × UT)} (h : Solved E gs b) (θ : Nat → UT)
    (hθ : ∀ p ∈ b, θ p.1 = p.2.inst θ) :
    ∃ g ∈ gs, ∀ e ∈ g, Entails (E.map fun e => (e.1.inst θ, e.2.inst θ)) (e.1.inst θ) (e.2.inst θ) := by
  have ev : ∀ (D : Type) (A : Alg D) (σ : Nat → D) (t : UT), (t.inst θ).eval A σ = t.eval A (fun x => (θ x).eval A σ) := by
    intro D A σ t
    induction t using UT.ind with
    | mv i => rfl
    | fn f args ih =>
      rw [inst_fn]
      simp only [UT.eval, UT.evalL_eq, List.map_map]
      congr 1
      exact List.map_congr_left fun a ha => ih a ha
  obtain ⟨g, hg, he⟩ := h
  refine ⟨g, hg, fun e hm D A σ hsat => ?_⟩
  rw [ev, ev]
  refine he e hm D A _ fun e' he' => ?_
  simp only [List.mem_append, eqsOf, List.mem_map] at he'
  rcases he' with he' | ⟨p, hp, rfl⟩
  · have := hsat (e'.1.inst θ, e'.2.inst θ) (List.mem_map.2 ⟨e', he', rfl⟩)
    rwa [ev, ev] at this
  · simp only [UT.eval]
    rw [hθ p hp, ev]

/-- **C79, in part.** Under the condition of `C79_partial`, a reported substitution has instances, and for them a goal follows from the
equations. -/
theorem C79_unifier_partial (ar : Nat → Nat) (E : List (UT × UT)) (gs : List (List (UT × UT))) (k : Nat) (st : St)
    (hE : ∀ e ∈ E, PairAr ar e) (hg : ∀ g ∈ gs, ∀ e ∈ g, PairAr ar e) (he : problem (k + 1) E gs = some st) (hgs : gs ≠ [])
    (hsole : Sole st) (subs : List (List (Nat × UT))) (h : Solve st subs true) : ∀ b ∈ subs, ∃ θ : Nat → UT,
      (∀ p ∈ b, θ p.1 = p.2.inst θ) ∧
      ∃ g ∈ gs, ∀ e ∈ g, Entails (E.map fun e => (e.1.inst θ, e.2.inst θ)) (e.1.inst θ) (e.2.inst θ) := by
  intro b hb
  have hsol := C79_partial ar E gs k st subs hE hg he hgs hsole h b hb
  have : Realised b := by
    generalize hd : true = d at h
    cases h with
    | ground => cases hd
    | unsat => cases hd
    | trivial ht =>
      simp only [List.mem_singleton] at hb
      subst hb
      exact ⟨UT.mv, by simp⟩
    | sat h1 h2 hn hb' hs hsub hcorr ht =>
      simp only [List.mem_singleton] at hb
      subst hb
      obtain ⟨n, b', hall, hre⟩ := C80_realised ar E gs k st hE hg he hn hb' hs hsub hcorr
      refine ⟨hre.choose, fun p hp => hre.choose_spec p ?_⟩
      rename_i ecs cs m sub corr j
      obtain ⟨c, hx, ht1⟩ := (mem_translateSub ht).1 p hp
      obtain ⟨d, hd⟩ := (registered_S (ready_of ar hE hg he).kept hn hb' ((hsub p.1).1 c hx).1).2
      obtain ⟨t, h3, h4⟩ := (mem_translateSub (hall n (Nat.le_refl _))).2 (p.1, d) hd c hx
      have hA := hall (max n j) (Nat.le_max_left ..)
      obtain ⟨t2, h5, h6⟩ := (mem_translateSub hA).2 (p.1, d) hd c hx
      have mono := @translate_mono st corr
      have up : ∀ d i, translate st corr i c = some p.2 → translate st corr (i + d) c = some p.2 := by
        intro d
        induction d with
        | zero => intro i h; exact h
        | succ d ih => intro i h; exact mono _ _ _ (ih i h)
      have h7 : translate st corr (max n j) c = some p.2 := by
        obtain ⟨d', e⟩ := Nat.exists_eq_add_of_le (Nat.le_max_right n j)
        rw [e]; exact up d' j ht1
      rw [h7] at h6
      cases h6
      exact h5
  obtain ⟨θ, hθ⟩ := this
  exact ⟨θ, hθ, solved_inst hsol θ hθ⟩

end Verif.Equality.Sat
