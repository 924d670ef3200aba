import Verif.Mods.Lambdapi
/-!
# C83: the proof term in the Lambdapi format
-/

namespace Verif.Lambdapi
open Verif.AST
open Verif.Gs3 (Rule Tree)
open Verif.Rocq (processMain impChain problem root Follows)

universe u

/-! ### Accepted terms -/

theorem has_mem {env : List (Nat × Form)} {a : Option Nat} {f : Form} (h : has env a f = true) : ∃ e ∈ env, e.2 = f := by
  unfold has at h
  split at h
  · cases h
  · split at h
    · rename_i e he
      exact ⟨e, List.mem_of_find?_eq_some he, of_decide_eq_true h⟩
    · cases h

theorem sig_holds {rule : Rule} {gs : List Form} {f : Form} {pss : List (List Form)} (hs : sig rule gs = some (f, pss))
    {D : Type u} {I : Interp D} {μ ρ : Nat → D} (hf : Form.holds I μ ρ f) : ∃ ps ∈ pss, ∀ p ∈ ps, Form.holds I μ ρ p := by
  unfold sig at hs
  split at hs <;> first | cases hs | skip
  all_goals
    simp only [Form.holds, Form.holdsAll, Form.holdsAny, and_true, or_false] at hf
    simp only [List.mem_cons, List.not_mem_nil, or_false, exists_eq_left, forall_eq, exists_eq_or_imp, forall_eq_or_imp, Form.holds]
    grind

mutual
theorem check_sound : ∀ (tm : Tm) {env : List (Nat × Form)}, check env tm = true → ∀ {D : Type u} {I : Interp D} {μ ρ : Nat → D},
    (∀ e ∈ env, Form.holds I μ ρ e.2) → False
  | .ax p a b, env, h, D, I, μ, ρ, he => by
    simp only [check, Bool.and_eq_true] at h
    obtain ⟨e, hm, rfl⟩ := has_mem h.1
    obtain ⟨e', hm', heq⟩ := has_mem h.2
    have := he e' hm'
    rw [heq] at this
    exact this (he e hm)
  | .ntop a, env, h, D, I, μ, ρ, he => by
    obtain ⟨e, hm, heq⟩ := has_mem h
    have := he e hm
    rw [heq] at this
    exact this trivial
  | .bot a, env, h, D, I, μ, ρ, he => by
    obtain ⟨e, hm, heq⟩ := has_mem h
    have := he e hm
    rw [heq] at this
    exact this
  | .empty, env, h, D, I, μ, ρ, he => by cases h
  | .quant _ _ _ _ _ _ _ _, env, h, D, I, μ, ρ, he => by cases h
  | .node rule gs bs subs a, env, h, D, I, μ, ρ, he => by
    simp only [check] at h
    split at h
    · rename_i f pss hsig
      simp only [Bool.and_eq_true, decide_eq_true_eq] at h
      obtain ⟨⟨h1, h2⟩, h3⟩ := h
      obtain ⟨e, hm, heq⟩ := has_mem h1
      have hf := he e hm
      rw [heq] at hf
      obtain ⟨ps, hps, hall⟩ := sig_holds hsig hf
      rw [← h2] at hps
      obtain ⟨b, hb, rfl⟩ := List.mem_map.1 hps
      exact checkL_sound subs h3 he hb (fun e hm => hall _ (List.mem_map.2 ⟨e, hm, rfl⟩))
    · cases h
theorem checkL_sound : ∀ (tms : List Tm) {env : List (Nat × Form)} {bs : List (List (Nat × Form))},
    checkL env bs tms = true → ∀ {D : Type u} {I : Interp D} {μ ρ : Nat → D},
    (∀ e ∈ env, Form.holds I μ ρ e.2) → ∀ {b : List (Nat × Form)}, b ∈ bs → (∀ e ∈ b, Form.holds I μ ρ e.2) → False
  | [], env, [], h, D, I, μ, ρ, he, b, hb, hall => by cases hb
  | [], env, _ :: _, h, D, I, μ, ρ, he, b, hb, hall => by cases h
  | tm :: tms, env, [], h, D, I, μ, ρ, he, b, hb, hall => by cases h
  | tm :: tms, env, b' :: bs, h, D, I, μ, ρ, he, b, hb, hall => by
    simp only [checkL, Bool.and_eq_true] at h
    rcases List.mem_cons.1 hb with rfl | hb
    · exact check_sound tm h.1 (fun e hm => (List.mem_append.1 hm).elim (fun hm => hall e (List.mem_reverse.1 hm)) (he e))
    · exact checkL_sound tms h.2 he hb hall
end

theorem impChain_holds {D : Type u} {I : Interp D} {μ ρ : Nat → D} {c : Form} : ∀ {As : List Form},
    Form.holds I μ ρ (impChain As c) ↔ ((∀ a ∈ As, Form.holds I μ ρ a) → Form.holds I μ ρ c)
  | [] => by simp [impChain]
  | a :: As => by
    simp only [impChain, Form.holds, List.mem_cons, forall_eq_or_imp, impChain_holds (As := As)]
    grind

/-- **C83 (soundness of the format).** An accepted term proves the printed theorem, and so the conjecture holds in
every interpretation. -/
theorem C83_accepted_holds {s : Form} {b : Nat × Form} {tm : Tm} (h : accepts s b tm = true) {As : List Form} {c : Form}
    (hs : s = impChain As (.neg c)) (D : Type u) (I : Interp D) (μ ρ : Nat → D) : (∀ a ∈ As, Form.holds I μ ρ a) ∧ Form.holds I μ ρ c := by
  simp only [accepts, Bool.and_eq_true, decide_eq_true_eq] at h
  have hn : ¬ Form.holds I μ ρ s := fun hh => check_sound tm h.2 (D := D) (I := I) (μ := μ) (ρ := ρ) (by
    intro e he
    rw [List.mem_singleton.1 he, h.1]
    exact hh)
  rw [hs, impChain_holds] at hn
  simp only [Form.holds] at hn
  constructor
  · intro a ha
    refine Classical.byContradiction fun hna => hn fun hall => absurd (hall a ha) hna
  · exact Classical.byContradiction fun hc => hn fun _ => hc

/-! ### Printed terms are accepted -/

/-- The branch is closed by two complementary atoms, `⊥` or `¬⊤`. -/
def closesAtom (Γ : List Form) : Form → Bool
  | .pred _ _ _ => true
  | .neg (.pred p tys args) => decide (Form.pred p tys args ∈ Γ)
  | .bot => true
  | .neg .top => true
  | _ => false

/-- A step with a binary connective and its parts in the order of the rule of the encoding. -/
def simpleStep : Rule → Form → List (List Form) → Bool
  | .nnot, .neg (.neg p), fs => decide (fs = [[p]])
  | .and, .and [p, q], fs => decide (fs = [[p, q]])
  | .or, .or [p, q], fs => decide (fs = [[p], [q]])
  | .imp, .imp p q, fs => decide (fs = [[.neg p], [q]])
  | .equ, .equ p q, fs => decide (fs = [[.neg p, .neg q], [p, q]])
  | .nand, .neg (.and [p, q]), fs => decide (fs = [[.neg p], [.neg q]])
  | .nor, .neg (.or [p, q]), fs => decide (fs = [[.neg p, .neg q]])
  | .nimp, .neg (.imp p q), fs => decide (fs = [[p, .neg q]])
  | .nequ, .neg (.equ p q), fs => decide (fs = [[.neg p, q], [p, .neg q]])
  | _, _, _ => false

/-- Such a step is an instance of the rule of the encoding. -/
theorem simpleStep_sig {rule : Rule} {f : Form} {fs : List (List Form)} (h : simpleStep rule f fs = true) :
    ∃ gs g, composing rule f = some gs ∧ sig rule gs = some (g, fs) := by
  unfold simpleStep at h
  split at h <;> first | (cases h; done) | (simp only [decide_eq_true_eq] at h; subst h; exact ⟨_, _, rfl, rfl⟩)

mutual
/-- The refutations without quantifiers and weakening, with binary connectives, whose branches are closed by
atoms, `⊥` or `¬⊤`, and whose conjunctive steps give all parts in order. -/
def simple (Γ : List Form) : Tree → Bool
  | .hole _ => false
  | .node rule f _ forms cs =>
    match rule with
    | .ax => closesAtom Γ f
    | .w | .r | .all | .ex | .nall | .nex => false
    | rule =>
      simpleStep rule f forms && simpleL Γ forms cs
def simpleL (Γ : List Form) : List (List Form) → List Tree → Bool
  | fs :: fss, c :: cs => simple (Γ ++ fs) c && simpleL Γ fss cs
  | _, _ => true
end

/-- The names of the hypotheses: each is the position of its formula in the map, and the hypotheses are all named. -/
structure Ok (Γ : List Form) (env : List (Nat × Form)) (ctx : Ctx) : Prop where
  nodup : ctx.Nodup
  names : ∀ e ∈ env, ctx[e.1]? = some (.form e.2)
  all : ∀ f ∈ Γ, ∃ n, (n, f) ∈ env

theorem getCtx_some {k : Key} {ctx : Ctx} {n : Nat} (h : getCtx k ctx = some n) : ctx[n]? = some k := by
  obtain ⟨hlt, h1, _⟩ := List.findIdx?_eq_some_iff_getElem.1 h
  rw [List.getElem?_eq_getElem hlt]
  simpa using h1

theorem getCtx_none {k : Key} {ctx : Ctx} (h : getCtx k ctx = none) : k ∉ ctx := by
  simp only [getCtx, List.findIdx?_eq_none_iff, decide_eq_false_iff_not] at h
  exact fun hk => h k hk rfl

theorem getCtx_eq {k : Key} {ctx : Ctx} {n : Nat} (hd : ctx.Nodup) (h : ctx[n]? = some k) : getCtx k ctx = some n := by
  cases hg : getCtx k ctx with
  | none => exact absurd (List.mem_of_getElem? h) (getCtx_none hg)
  | some m =>
    obtain ⟨h1, e1⟩ := List.getElem?_eq_some_iff.1 h
    obtain ⟨h2, e2⟩ := List.getElem?_eq_some_iff.1 (getCtx_some hg)
    rw [(List.getElem_inj hd).1 (e2.trans e1.symm)]

theorem Ok.has {Γ : List Form} {env : List (Nat × Form)} {ctx : Ctx} (h : Ok Γ env ctx) {f : Form} (hf : f ∈ Γ) :
    has env (getCtx (.form f) ctx) f = true := by
  obtain ⟨n, hn⟩ := h.all f hf
  rw [getCtx_eq h.nodup (h.names _ hn)]
  simp only [Lambdapi.has]
  cases hfind : env.find? (fun e => e.1 == n) with
  | none => exact absurd (List.find?_eq_none.1 hfind _ hn) (by simp)
  | some e =>
    have h1 := List.find?_some hfind
    simp only [beq_iff_eq] at h1
    have h2 := h.names _ (List.mem_of_find?_eq_some hfind)
    rw [h1, h.names _ hn] at h2
    simp only [Option.some.injEq, Key.form.injEq] at h2
    simp [h2]

theorem addCtx_spec {k : Key} {ctx : Ctx} (hd : ctx.Nodup) : (addCtx k ctx).2.Nodup ∧ ctx <+: (addCtx k ctx).2 ∧
    (addCtx k ctx).2[(addCtx k ctx).1]? = some k := by
  unfold addCtx
  split
  · rename_i n hn
    exact ⟨hd, List.prefix_rfl, getCtx_some hn⟩
  · rename_i hn
    refine ⟨?_, List.prefix_append _ _, by simp⟩
    rw [List.nodup_append]
    exact ⟨hd, by simp, fun a ha b hb => by
      rw [List.mem_singleton.1 hb]
      rintro rfl
      exact getCtx_none hn ha⟩

theorem getElem?_prefix {ctx ctx' : Ctx} (h : ctx <+: ctx') {n : Nat} {k : Key} (hn : ctx[n]? = some k) : ctx'[n]? = some k := by
  obtain ⟨l, rfl⟩ := h
  obtain ⟨hlt, he⟩ := List.getElem?_eq_some_iff.1 hn
  rw [List.getElem?_append_left hlt, hn]

theorem bindAll_spec : ∀ {fs : List Form} {ctx : Ctx}, ctx.Nodup → (bindAll fs ctx).2.Nodup ∧ ctx <+: (bindAll fs ctx).2 ∧
    (∀ e ∈ (bindAll fs ctx).1, (bindAll fs ctx).2[e.1]? = some (.form e.2)) ∧ (bindAll fs ctx).1.map Prod.snd = fs
  | [], ctx, hd => ⟨hd, List.prefix_rfl, by simp [bindAll], rfl⟩
  | f :: fs, ctx, hd => by
    obtain ⟨h1, h2, h3⟩ := addCtx_spec (k := .form f) hd
    obtain ⟨h4, h5, h6, h7⟩ := bindAll_spec (fs := fs) h1
    refine ⟨h4, h2.trans h5, ?_, by simp [bindAll, h7]⟩
    intro e he
    simp only [bindAll, List.mem_cons] at he
    rcases he with rfl | he
    · exact getElem?_prefix h5 h3
    · exact h6 e he

theorem Ok.mono {Γ : List Form} {env : List (Nat × Form)} {ctx ctx' : Ctx} (h : Ok Γ env ctx) (hp : ctx <+: ctx')
    (hd : ctx'.Nodup) : Ok Γ env ctx' :=
  ⟨hd, fun e he => getElem?_prefix hp (h.names e he), h.all⟩

theorem Ok.bind {Γ fs : List Form} {env : List (Nat × Form)} {ctx : Ctx} (h : Ok Γ env ctx) :
    Ok (Γ ++ fs) ((bindAll fs ctx).1.reverse ++ env) (bindAll fs ctx).2 := by
  obtain ⟨h1, h2, h3, h4⟩ := bindAll_spec (fs := fs) h.nodup
  refine ⟨h1, ?_, ?_⟩
  · intro e he
    rcases List.mem_append.1 he with he | he
    · exact h3 e (List.mem_reverse.1 he)
    · exact getElem?_prefix h2 (h.names e he)
  · intro f hf
    rcases List.mem_append.1 hf with hf | hf
    · obtain ⟨n, hn⟩ := h.all f hf
      exact ⟨n, List.mem_append.2 (.inr hn)⟩
    · rw [← h4] at hf
      obtain ⟨e, he, rfl⟩ := List.mem_map.1 hf
      exact ⟨e.1, List.mem_append.2 (.inl (List.mem_reverse.2 he))⟩

theorem closure_ok {Γ : List Form} {env : List (Nat × Form)} {ctx : Ctx} {f : Form} (h : Ok Γ env ctx)
    (hc : Gs3.closes Γ f = true) (ha : closesAtom Γ f = true) : check env (closure f ctx) = true := by
  simp only [Gs3.closes, Bool.and_eq_true, Bool.or_eq_true, decide_eq_true_eq] at hc
  obtain ⟨hf, hc⟩ := hc
  unfold closesAtom at ha
  split at ha
  · simp only [reduceCtorEq, Bool.false_eq_true, false_or, or_false] at hc
    simp only [closure, check, Bool.and_eq_true]
    exact ⟨h.has hf, h.has hc⟩
  · rename_i p tys args
    simp only [closure, check, Bool.and_eq_true]
    exact ⟨h.has (of_decide_eq_true ha), h.has hf⟩
  · simp only [closure, check]
    exact h.has hf
  · simp only [closure, check]
    exact h.has hf
  · cases ha

/-- The composing formulas and the signature give back the formula and its parts. -/
theorem alpha_sig {rule : Rule} {f g : Form} {gs ps : List Form} {pss : List (List Form)}
    (hx : Gs3.alphaParts rule f = some ps) (hc : composing rule f = some gs) (hs : sig rule gs = some (g, pss)) :
    g = f ∧ pss = [ps] := by
  unfold Gs3.alphaParts at hx
  split at hx <;> cases hx <;> simp only [composing, childForms, List.getElem?_cons_zero, Option.map_some, Option.some.injEq] at hc <;>
    subst hc <;> unfold sig at hs <;> split at hs <;> simp_all

theorem beta_sig {rule : Rule} {f g : Form} {gs : List Form} {ps pss : List (List Form)}
    (hx : Gs3.betaParts rule f = some ps) (hc : composing rule f = some gs) (hs : sig rule gs = some (g, pss)) :
    g = f ∧ pss = ps := by
  unfold Gs3.betaParts at hx
  split at hx <;> cases hx <;> simp only [composing, childForms, List.getElem?_cons_zero, Option.map_some, Option.some.injEq] at hc <;>
    subst hc <;> unfold sig at hs <;> split at hs <;> simp_all

theorem valid_alpha {rule : Rule} {Γ : List Form} {f : Form} {t : Option Term} {forms : List (List Form)} {cs : List Tree}
    (ha : rule.isAlpha = true) (hv : Gs3.valid Γ (.node rule f t forms cs) = true) :
    ∃ ps gs, Gs3.alphaParts rule f = some ps ∧ forms = [gs] ∧ cs.length = 1 ∧ Gs3.validL [Γ ++ gs] cs = true := by
  simp only [Gs3.valid, Bool.and_eq_true, decide_eq_true_eq] at hv
  have h2 := hv.2
  split at h2
  · cases ha
  · cases ha
  · cases ha
  · rw [if_pos ha] at h2
    split at h2
    · rename_i ps gs hps
      simp only [Bool.and_eq_true, beq_iff_eq] at h2
      exact ⟨ps, gs, hps, rfl, h2.1.2, h2.2⟩
    · cases h2

theorem simple_step {Γ : List Form} {rule : Rule} {f : Form} {t : Option Term} {forms : List (List Form)} {cs : List Tree}
    (hs : simple Γ (.node rule f t forms cs) = true) (hax : rule ≠ .ax) :
    (rule.isAlpha = true ∨ (rule.isAlpha = false ∧ rule.isBeta = true)) ∧ (rule.isGamma || rule.isDelta) = false ∧
    rule ≠ .w ∧ rule ≠ .r ∧
    (∃ gs g, composing rule f = some gs ∧ sig rule gs = some (g, forms)) ∧ simpleL Γ forms cs = true := by
  unfold simple at hs
  split at hs <;> first | exact absurd rfl hax | (cases hs; done) | skip
  rw [Bool.and_eq_true] at hs
  obtain ⟨h1, h2⟩ := hs
  refine ⟨by cases rule <;> simp_all [Rule.isAlpha, Rule.isBeta], by cases rule <;> simp_all [Rule.isGamma, Rule.isDelta], by simp_all,
    by simp_all, ?_, h2⟩
  exact simpleStep_sig h1

/-- A step of a simple refutation other than a closure. -/
theorem valid_step {Γ : List Form} {rule : Rule} {f : Form} {t : Option Term} {forms : List (List Form)} {cs : List Tree}
    (hv : Gs3.valid Γ (.node rule f t forms cs) = true) (hs : simple Γ (.node rule f t forms cs) = true) (hax : rule ≠ .ax) :
    f ∈ Γ ∧ ∃ gs, composing rule f = some gs ∧ sig rule gs = some (f, forms) ∧ cs.length = forms.length ∧
      Gs3.validL (forms.map (Γ ++ ·)) cs = true ∧ simpleL Γ forms cs = true ∧
      (rule.isGamma || rule.isDelta) = false ∧ rule ≠ .w ∧ rule ≠ .r := by
  obtain ⟨h1, h2, h3, h4, ⟨gs, g, hgs, hsig⟩, h6⟩ := simple_step hs hax
  have hf : f ∈ Γ := by
    simp only [Gs3.valid, Bool.and_eq_true, decide_eq_true_eq] at hv
    exact hv.1
  refine ⟨hf, gs, hgs, ?_⟩
  rcases h1 with ha | ⟨ha, hb⟩
  · obtain ⟨ps, gs', hps, rfl, hl, hvl⟩ := valid_alpha ha hv
    obtain ⟨rfl, -⟩ := alpha_sig hps hgs hsig
    exact ⟨hsig, hl, hvl, h6, h2, h3, h4⟩
  · obtain ⟨hps, hl, hvl⟩ := Rocq.valid_beta ha hb hv
    obtain ⟨rfl, -⟩ := beta_sig hps hgs hsig
    exact ⟨hsig, hl, hvl, h6, h2, h3, h4⟩

theorem print_step {rule : Rule} {f : Form} {t : Option Term} {forms : List (List Form)} {cs : List Tree} {gs : List Form}
    {ctx : Ctx} (hax : rule ≠ .ax) (hq : (rule.isGamma || rule.isDelta) = false) (hw : rule ≠ .w) (hr : rule ≠ .r)
    (hgs : composing rule f = some gs) (hl : cs.length = forms.length) : print (.node rule f t forms cs) ctx =
      match printL cs forms none ctx with
      | none => none
      | some (bs, subs, ctx') => some (.node rule gs bs subs (getCtx (.form f) ctx'), ctx') := by
  have hlt : ¬ forms.length < cs.length := by omega
  cases rule <;> simp only [print, hgs, hlt, if_false] <;> simp_all <;> rfl

mutual
theorem print_ok : ∀ (T : Tree) {Γ : List Form} {env : List (Nat × Form)} {ctx : Ctx}, Ok Γ env ctx →
    Gs3.valid Γ T = true → simple Γ T = true →
    ∃ tm ctx', print T ctx = some (tm, ctx') ∧ ctx <+: ctx' ∧ ctx'.Nodup ∧ check env tm = true
  | .hole _, _, _, _, _, _, hs => by simp [simple] at hs
  | .node rule f t forms cs, Γ, env, ctx, hok, hv, hs => by
    by_cases hax : rule = .ax
    · subst hax
      simp only [Gs3.valid, Bool.and_eq_true] at hv
      exact ⟨_, _, rfl, List.prefix_rfl, hok.nodup, closure_ok hok hv.2.1 hs⟩
    · obtain ⟨hf, gs, h1, h2, h3, h4, h5, h6, h7, h8⟩ := valid_step hv hs hax
      obtain ⟨bs, tms, ctx', e, hp, hd, hb, hc⟩ := printL_ok cs hok h3 h4 h5
      refine ⟨.node rule gs bs tms (getCtx (.form f) ctx'), ctx', ?_, hp, hd, ?_⟩
      · rw [print_step hax h6 h7 h8 h1 h3, e]
      · simp only [check, h2, Bool.and_eq_true, decide_eq_true_eq]
        exact ⟨⟨(hok.mono hp hd).has hf, hb⟩, hc⟩
theorem printL_ok : ∀ (cs : List Tree) {Γ : List Form} {env : List (Nat × Form)} {ctx : Ctx} {fss : List (List Form)},
    Ok Γ env ctx → cs.length = fss.length → Gs3.validL (fss.map (Γ ++ ·)) cs = true → simpleL Γ fss cs = true →
    ∃ bs tms ctx', printL cs fss none ctx = some (bs, tms, ctx') ∧ ctx <+: ctx' ∧ ctx'.Nodup ∧
      bs.map (·.map Prod.snd) = fss ∧ checkL env bs tms = true
  | [], Γ, env, ctx, [], hok, hl, hv, hs => ⟨[], [], ctx, rfl, List.prefix_rfl, hok.nodup, rfl, rfl⟩
  | [], Γ, env, ctx, _ :: _, hok, hl, hv, hs => by simp at hl
  | _ :: _, Γ, env, ctx, [], hok, hl, hv, hs => by simp at hl
  | c :: cs, Γ, env, ctx, fs :: fss, hok, hl, hv, hs => by
    simp only [List.map_cons, Gs3.validL, simpleL, Bool.and_eq_true] at hv hs
    have hb := hok.bind (fs := fs)
    obtain ⟨_, h2, _, h4⟩ := bindAll_spec (fs := fs) hok.nodup
    obtain ⟨tm, ctx1, e1, hp1, hd1, hc1⟩ := print_ok c hb hv.1 hs.1
    obtain ⟨bs, tms, ctx2, e2, hp2, hd2, hb2, hc2⟩ := printL_ok cs (hok.mono (h2.trans hp1) hd1) (by simpa using hl) hv.2 hs.2
    refine ⟨(bindAll fs ctx).1 :: bs, tm :: tms, ctx2, ?_, (h2.trans hp1).trans hp2, hd2, by simp [h4, hb2], ?_⟩
    · simp only [printL, bindNew, e1, e2]
    · simp only [checkL, Bool.and_eq_true]
      exact ⟨hc1, hc2⟩
end

/-- **C83 (the full claim).** For a problem with a conjecture, the proof term that is printed for each refutation is
a proof of the printed theorem. -/
def C83_statement : Prop :=
  ∀ (As : List Form) (c : Form) (T body : Tree), Follows As c T body →
    ∃ s b tm, makeOutput T = some (s, b, tm) ∧ accepts s b tm = true

/-- **C83 (partial).** It is for a problem without axioms and a refutation without quantifiers and weakening, with
binary connectives, whose branches are closed by atoms, `⊥` or `¬⊤`. Missing: the cases of the violations. -/
theorem C83_partial {c : Form} {T : Tree} (hT : Follows [] c T T) (hs : simple [.neg c] T = true) :
    ∃ tm, makeOutput T = some (.neg c, (0, .neg c), tm) ∧ accepts (.neg c) (0, .neg c) tm = true := by
  obtain ⟨hroot, hv, _⟩ := hT
  cases T with
  | hole cs => cases hroot
  | node rule f t forms cs =>
    simp only [root, problem, Option.some.injEq] at hroot
    subst hroot
    have hok : Ok [.neg c] [(0, .neg c)] [.form (.neg c)] :=
      ⟨by simp, by simp, by simp⟩
    obtain ⟨tm, ctx', e, _, _, hc⟩ := print_ok _ hok hv hs
    refine ⟨tm, ?_, ?_⟩
    · simp only [makeOutput, processMain]
      have : addCtx (.form (.neg c)) [] = (0, [.form (.neg c)]) := rfl
      simp only [this, e, impChain]
    · simp [accepts, hc]

/-- **C83, violated.** For a problem with axioms the abstraction is over the conjunction and the theorem is about an
implication: the term is never a proof. -/
theorem C83_violated_axioms {As : List Form} {c : Form} {T body : Tree} (hAs : As ≠ []) (hT : Follows As c T body)
    {s : Form} {b : Nat × Form} {tm : Tm} (h : makeOutput T = some (s, b, tm)) : accepts s b tm = false := by
  obtain ⟨hroot, _, _⟩ := hT
  cases T with
  | hole cs => cases hroot
  | node rule f t forms cs =>
    simp only [root, Option.some.injEq] at hroot
    subst hroot
    cases As with
    | nil => exact absurd rfl hAs
    | cons a As =>
      simp only [makeOutput, problem] at h
      split at h
      · cases h
      · rename_i axioms c' hp
        simp only [processMain, List.getLast?_append, List.getLast?_singleton, Option.some_or, List.dropLast_concat,
          Option.some.injEq, Prod.mk.injEq] at hp
        obtain ⟨rfl, rfl⟩ := hp
        split at h
        · cases h
        · simp only [Option.some.injEq, Prod.mk.injEq] at h
          obtain ⟨rfl, rfl, rfl⟩ := h
          simp [accepts, impChain]

/-- **C83, violated.** Moreover the printed theorem `ϵ s → ϵ ⊥` is wrong in each interpretation in which an axiom
does not hold. -/
theorem C83_violated_theorem {As : List Form} {c : Form} {T body : Tree} (hT : Follows As c T body)
    {s : Form} {b : Nat × Form} {tm : Tm} (h : makeOutput T = some (s, b, tm))
    {D : Type u} {I : Interp D} {μ ρ : Nat → D} {a : Form} (ha : a ∈ As) (hn : ¬ Form.holds I μ ρ a) : Form.holds I μ ρ s := by
  obtain ⟨hroot, _, _⟩ := hT
  have hs : s = impChain As (.neg c) := by
    cases T with
    | hole cs => cases hroot
    | node rule f t forms cs =>
      simp only [root, Option.some.injEq] at hroot
      subst hroot
      simp only [makeOutput] at h
      split at h
      · cases h
      · rename_i axioms c' hp
        have : processMain (problem As c) = some (As, c) := by
          cases As with
          | nil => rfl
          | cons a As =>
            simp only [problem, processMain, List.getLast?_append, List.getLast?_singleton, Option.some_or, List.dropLast_concat]
        rw [this] at hp
        simp only [Option.some.injEq, Prod.mk.injEq] at hp
        obtain ⟨rfl, rfl⟩ := hp
        split at h
        · cases h
        · simp only [Option.some.injEq, Prod.mk.injEq] at h
          exact h.1.symm
  rw [hs, impChain_holds]
  exact fun hall => absurd (hall a ha) hn

/-- **C83, violated.** A quantifier step is never accepted: its type argument is printed as `()`. -/
theorem C83_violated_quantifier {rule : Rule} {f : Form} {t : Option Term} {forms : List (List Form)} {cs : List Tree}
    {ctx ctx' : Ctx} {tm : Tm} (hq : rule.isGamma = true ∨ rule.isDelta = true)
    (h : print (.node rule f t forms cs) ctx = some (tm, ctx')) (env : List (Nat × Form)) : check env tm = false := by
  have hq' : (rule.isGamma || rule.isDelta) = true := by simpa using hq
  have : ∃ vs g t n bs subs a, tm = .quant rule vs g t n bs subs a := by
    cases rule <;> first | (simp [Rule.isGamma, Rule.isDelta] at hq; done) | skip
    all_goals
      simp only [print] at h
      split at h
      · cases h
      · split at h
        · cases h
        · split at h
          · split at h
            · cases h
            · simp only [Option.some.injEq, Prod.mk.injEq] at h
              exact ⟨_, _, _, _, _, _, _, h.1.symm⟩
          · cases h
  obtain ⟨vs, g, t, n, bs, subs, a, rfl⟩ := this
  rfl

/-- **C83, violated.** A weakening is a fatal error. -/
theorem C83_violated_weaken {f : Form} {t : Option Term} {forms : List (List Form)} {cs : List Tree} {ctx : Ctx} :
    print (.node .w f t forms cs) ctx = none := rfl

namespace Ex
open Rocq.Ex (p0 q0 p v)

/-- The conjecture `(p ∧ q) ⇒ (p ∨ r)`. -/
def r0 : Form := .pred 7 [] []
def conj : Form := .imp (.and [p0, q0]) (.or [p0, r0])
def tree : Tree :=
  .node .nimp (.neg conj) none [[.and [p0, q0], .neg (.or [p0, r0])]]
    [.node .and (.and [p0, q0]) none [[p0, q0]]
      [.node .nor (.neg (.or [p0, r0])) none [[.neg p0, .neg r0]] [.node .ax p0 none [] []]]]

/-- A conjunction with three parts: `¬(p ∧ q ∧ ¬p)`. -/
def three : Form := .and [p0, q0, .neg p0]
def threeTree : Tree :=
  .node .nnot (.neg (.neg three)) none [[three]] [.node .and three none [[p0, q0, .neg p0]] [.node .ax p0 none [] []]]

/-- A branch closed by `p ∧ q` and its negation: `(p ∧ q) ⇒ (p ∧ q)`. -/
def comp : Form := .imp (.and [p0, q0]) (.and [p0, q0])
def compTree : Tree :=
  .node .nimp (.neg comp) none [[.and [p0, q0], .neg (.and [p0, q0])]] [.node .ax (.and [p0, q0]) none [] []]
end Ex

/-- The hypotheses of `C83_partial` are met. -/
example : Follows [] Ex.conj Ex.tree Ex.tree ∧ simple [.neg Ex.conj] Ex.tree = true :=
  ⟨⟨rfl, by decide +kernel, rfl⟩, by decide +kernel⟩

/-- The printed term. -/
example : makeOutput Ex.tree = some (.neg Ex.conj, (0, .neg Ex.conj),
    .node .nimp [.and [Rocq.Ex.p0, Rocq.Ex.q0], .or [Rocq.Ex.p0, Ex.r0]]
      [[(1, .and [Rocq.Ex.p0, Rocq.Ex.q0]), (2, .neg (.or [Rocq.Ex.p0, Ex.r0]))]]
      [.node .and [Rocq.Ex.p0, Rocq.Ex.q0] [[(3, Rocq.Ex.p0), (4, Rocq.Ex.q0)]]
        [.node .nor [Rocq.Ex.p0, Ex.r0] [[(5, .neg Rocq.Ex.p0), (6, .neg Ex.r0)]]
          [.ax Rocq.Ex.p0 (some 3) (some 5)] (some 2)] (some 1)] (some 0)) := by rfl

/-- **C83, violated.** Conjunctions with three parts are given to a rule for two. -/
theorem C83_violated_nary : Follows [] (.neg Ex.three) Ex.threeTree Ex.threeTree ∧
    ∃ s b tm, makeOutput Ex.threeTree = some (s, b, tm) ∧ accepts s b tm = false :=
  ⟨⟨rfl, by decide +kernel, rfl⟩, _, _, _, rfl, by decide +kernel⟩

/-- **C83, violated.** Nothing is printed for a branch closed by a compound formula. -/
theorem C83_violated_compound : Follows [] Ex.comp Ex.compTree Ex.compTree ∧
    ∃ s b tm, makeOutput Ex.compTree = some (s, b, tm) ∧ accepts s b tm = false :=
  ⟨⟨rfl, by decide +kernel, rfl⟩, _, _, _, rfl, by decide +kernel⟩

theorem C83_statement_false : ¬ C83_statement := by
  intro h
  obtain ⟨hF, s, b, tm, hm, hr⟩ := C83_violated_nary
  obtain ⟨s', b', tm', hm', ha⟩ := h _ _ _ _ hF
  rw [hm] at hm'
  cases hm'
  rw [hr] at ha
  cases ha

end Verif.Lambdapi
