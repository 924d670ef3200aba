import Verif.Mods.TptpSwap
/-!
# The TPTP output: the refutations that it handles, and the replacement of a Skolem term in them
-/

namespace Verif.Tptp
open Verif.AST
open Verif.Gs3 (Rule Tree allVars allVarsL mem_allVarsL alphaParts betaParts quantParts)

/-- Refutations of `Γ` that the output handles. `S` are the Skolem symbols, `N` the symbols `sko_0`, `sko_1`, …
that are not yet used, and the list of terms are the Skolem terms of the branch. There are no weakenings; a
branch is closed by a formula and its negation; an equivalence that is split has no negation as a side; a
Skolem symbol is new in the branch, and each Skolem term occurs at most once in the term of an instance. -/
inductive Good (S N : Nat → Prop) : List Term → List Form → Tree → Prop
  | axPos {anc : List Term} {Γ : List Form} {f : Form} {t : Option Term} {forms : List (List Form)} :
      f ∈ Γ → Form.neg f ∈ Γ → (∀ g, f ≠ .neg g) → Good S N anc Γ (.node .ax f t forms [])
  | axNeg {anc : List Term} {Γ : List Form} {g : Form} {t : Option Term} {forms : List (List Form)} :
      Form.neg g ∈ Γ → g ∈ Γ → Good S N anc Γ (.node .ax (.neg g) t forms [])
  | alpha {anc : List Term} {Γ : List Form} {rule : Rule} {f : Form} {t : Option Term} {ps : List Form} {c : Tree} :
      f ∈ Γ → alphaParts rule f = some ps → Good S N anc (Γ ++ ps) c → Good S N anc Γ (.node rule f t [ps] [c])
  | beta {anc : List Term} {Γ : List Form} {rule : Rule} {f : Form} {t : Option Term} {pss : List (List Form)}
      {cs : List Tree} :
      f ∈ Γ → betaParts rule f = some pss → (∀ A B, f = .equ A B → (∀ g, A ≠ .neg g) ∧ ∀ g, B ≠ .neg g) →
      cs.length = pss.length →
      (∀ (i : Nat) (ps : List Form) (c : Tree), pss[i]? = some ps → cs[i]? = some c → Good S N anc (Γ ++ ps) c) →
      Good S N anc Γ (.node rule f t pss cs)
  | delta {anc : List Term} {Γ : List Form} {rule : Rule} {f b : Form} {x q : Nat} {tys tys0 : List Ty}
      {args args0 : List Term} {c : Tree} :
      f ∈ Γ → rule.isDelta = true → quantParts rule f = some (x, b) → x ∉ b.funs → x ∉ b.binders → ¬ S x → ¬ N x →
      S q → q ∉ Form.funsL Γ → (∀ a ∈ anc, q ∉ a.funs) → Term.varsL args0 = [] →
      Good S N (.fn q tys args :: anc) (Γ ++ [repl (.var x) (.fn q tys0 args0) b]) c →
      Good S N anc Γ (.node rule f (some (.fn q tys args)) [[repl (.var x) (.fn q tys0 args0) b]] [c])
  | gamma {anc : List Term} {Γ : List Form} {rule : Rule} {f b : Form} {x : Nat} {t : Term} {c : Tree} :
      f ∈ Γ → rule.isGamma = true → quantParts rule f = some (x, b) → x ∉ b.funs → x ∉ b.binders → ¬ S x → ¬ N x →
      t.vars = [] → (∀ q ∈ t.funs, ¬ N q ∧ (S q → ∃ a ∈ anc, a.index = q)) → (∀ a ∈ anc, Once a t) →
      Good S N anc (Γ ++ [repl (.var x) t b]) c →
      Good S N anc Γ (.node rule f (some t) [[repl (.var x) t b]] [c])
  | gammaNone {anc : List Term} {Γ : List Form} {rule : Rule} {f b : Form} {x : Nat} {c : Tree} :
      f ∈ Γ → rule.isGamma = true → quantParts rule f = some (x, b) → x ∉ b.funs → x ∉ b.binders → x ∉ allVars b →
      ¬ N x → Good S N anc (Γ ++ [b]) c → Good S N anc Γ (.node rule f none [[b]] [c])

theorem Good.mono {S N : Nat → Prop} {anc : List Term} {Γ : List Form} {T : Tree} (h : Good S N anc Γ T) :
    ∀ {Γ' : List Form}, (∀ f ∈ Γ, f ∈ Γ') → (∀ q ∈ Form.funsL Γ', S q → q ∈ Form.funsL Γ) → Good S N anc Γ' T := by
  have app : ∀ {Γ Γ' : List Form} (ps : List Form), (∀ f ∈ Γ, f ∈ Γ') → (∀ q ∈ Form.funsL Γ', S q → q ∈ Form.funsL Γ) →
      (∀ f ∈ Γ ++ ps, f ∈ Γ' ++ ps) ∧ (∀ q ∈ Form.funsL (Γ' ++ ps), S q → q ∈ Form.funsL (Γ ++ ps)) := by
    intro Γ Γ' ps h1 h2
    refine ⟨fun f hf => ?_, fun q hq hS => ?_⟩
    · rcases List.mem_append.1 hf with hf | hf
      · exact List.mem_append.2 (.inl (h1 f hf))
      · exact List.mem_append.2 (.inr hf)
    · obtain ⟨f, hf, hq'⟩ := Form.mem_funsL.1 hq
      rcases List.mem_append.1 hf with hf | hf
      · obtain ⟨g, hg, hq''⟩ := Form.mem_funsL.1 (h2 q (Form.mem_funsL.2 ⟨f, hf, hq'⟩) hS)
        exact Form.mem_funsL.2 ⟨g, List.mem_append.2 (.inl hg), hq''⟩
      · exact Form.mem_funsL.2 ⟨f, List.mem_append.2 (.inr hf), hq'⟩
  induction h with
  | axPos h1 h2 h3 => intro Γ' hs _; exact .axPos (hs _ h1) (hs _ h2) h3
  | axNeg h1 h2 => intro Γ' hs _; exact .axNeg (hs _ h1) (hs _ h2)
  | alpha h1 h2 _ ih => intro Γ' hs hf; exact .alpha (hs _ h1) h2 (ih (app _ hs hf).1 (app _ hs hf).2)
  | beta h1 h2 h3 h4 _ ih =>
    intro Γ' hs hf
    exact .beta (hs _ h1) h2 h3 h4 (fun i ps c hi hc => ih i ps c hi hc (app _ hs hf).1 (app _ hs hf).2)
  | delta h1 h2 h3 h4 h5 h6 h7 h8 h9 h10 h11 _ ih =>
    intro Γ' hs hf
    exact .delta (hs _ h1) h2 h3 h4 h5 h6 h7 h8 (fun h => h9 (hf _ h h8)) h10 h11 (ih (app _ hs hf).1 (app _ hs hf).2)
  | gamma h1 h2 h3 h4 h5 h6 h7 h8 h9 h10 _ ih =>
    intro Γ' hs hf
    exact .gamma (hs _ h1) h2 h3 h4 h5 h6 h7 h8 h9 h10 (ih (app _ hs hf).1 (app _ hs hf).2)
  | gammaNone h1 h2 h3 h4 h5 h6 h7 _ ih =>
    intro Γ' hs hf
    exact .gammaNone (hs _ h1) h2 h3 h4 h5 h6 h7 (ih (app _ hs hf).1 (app _ hs hf).2)

theorem Good.anti {S N N' : Nat → Prop} {anc : List Term} {Γ : List Form} {T : Tree} (h : Good S N anc Γ T)
    (hN : ∀ q, N' q → N q) : Good S N' anc Γ T := by
  induction h with
  | axPos h1 h2 h3 => exact .axPos h1 h2 h3
  | axNeg h1 h2 => exact .axNeg h1 h2
  | alpha h1 h2 _ ih => exact .alpha h1 h2 ih
  | beta h1 h2 h3 h4 _ ih => exact .beta h1 h2 h3 h4 ih
  | delta h1 h2 h3 h4 h5 h6 h7 h8 h9 h10 h11 _ ih =>
    exact .delta h1 h2 h3 h4 h5 h6 (fun h => h7 (hN _ h)) h8 h9 h10 h11 ih
  | gamma h1 h2 h3 h4 h5 h6 h7 h8 h9 h10 _ ih =>
    exact .gamma h1 h2 h3 h4 h5 h6 (fun h => h7 (hN _ h)) h8 (fun q hq => ⟨fun h => (h9 q hq).1 (hN _ h), (h9 q hq).2⟩)
      h10 ih
  | gammaNone h1 h2 h3 h4 h5 h6 h7 _ ih => exact .gammaNone h1 h2 h3 h4 h5 h6 (fun h => h7 (hN _ h)) ih

/-! ## Parts of replaced formulas -/

theorem alphaParts_swap {p c : Nat} {rule : Rule} {f : Form} {ps : List Form} (h : alphaParts rule f = some ps) :
    alphaParts rule (swapF p c f) = some (ps.map (swapF p c)) := by
  unfold alphaParts at h
  split at h <;> cases h <;> simp [swapF, alphaParts, swapFL_eq, List.map_map, Function.comp_def]

theorem betaParts_swap {p c : Nat} {rule : Rule} {f : Form} {pss : List (List Form)} (h : betaParts rule f = some pss) :
    betaParts rule (swapF p c f) = some (pss.map (·.map (swapF p c))) := by
  unfold betaParts at h
  split at h <;> cases h <;> simp [swapF, betaParts, swapFL_eq, List.map_map, Function.comp_def]

theorem quantParts_swap {p c : Nat} {rule : Rule} {f b : Form} {x : Nat} (h : quantParts rule f = some (x, b)) :
    quantParts rule (swapF p c f) = some (x, swapF p c b) := by
  unfold quantParts at h
  split at h <;> cases h <;> simp only [swapF, quantParts] <;> split <;> simp [swapF]

theorem alphaParts_vars {rule : Rule} {f : Form} {ps : List Form} (h : alphaParts rule f = some ps) {g : Form}
    (hg : g ∈ ps) {i : Nat} (hi : i ∈ allVars g) : i ∈ allVars f := by
  unfold alphaParts at h
  split at h <;> cases h <;> simp only [allVars, List.mem_append]
  · rw [List.mem_singleton] at hg; subst hg; exact hi
  · obtain ⟨k, hk, rfl⟩ := List.mem_map.1 hg
    exact mem_allVarsL.2 ⟨k, hk, hi⟩
  · simp only [List.mem_cons, List.not_mem_nil, or_false] at hg
    rcases hg with rfl | rfl
    · exact .inl hi
    · exact .inr hi
  · exact mem_allVarsL.2 ⟨g, hg, hi⟩

theorem betaParts_vars {rule : Rule} {f : Form} {pss : List (List Form)} (h : betaParts rule f = some pss)
    {ps : List Form} (hps : ps ∈ pss) {g : Form} (hg : g ∈ ps) {i : Nat} (hi : i ∈ allVars g) : i ∈ allVars f := by
  unfold betaParts at h
  split at h <;> cases h <;> simp only [allVars, List.mem_append]
  · obtain ⟨k, hk, rfl⟩ := List.mem_map.1 hps
    rw [List.mem_singleton] at hg; subst hg
    exact mem_allVarsL.2 ⟨k, hk, hi⟩
  · simp only [List.mem_cons, List.not_mem_nil, or_false] at hps
    rcases hps with rfl | rfl <;> simp only [List.mem_cons, List.not_mem_nil, or_false] at hg <;>
      rcases hg with rfl | rfl <;> first | exact .inl hi | exact .inr hi
  · obtain ⟨k, hk, rfl⟩ := List.mem_map.1 hps
    rw [List.mem_singleton] at hg; subst hg
    exact mem_allVarsL.2 ⟨_, hk, hi⟩
  · simp only [List.mem_cons, List.not_mem_nil, or_false] at hps
    rcases hps with rfl | rfl <;> simp only [List.mem_cons, List.not_mem_nil, or_false] at hg <;>
      rcases hg with rfl | rfl <;> first | exact .inl hi | exact .inr hi
  · simp only [List.mem_cons, List.not_mem_nil, or_false] at hps
    rcases hps with rfl | rfl <;> simp only [List.mem_cons, List.not_mem_nil, or_false] at hg <;>
      rcases hg with rfl | rfl <;> first | exact .inl hi | exact .inr hi

theorem quantParts_vars {rule : Rule} {f b : Form} {x : Nat} (h : quantParts rule f = some (x, b)) {i : Nat}
    (hi : i ∈ allVars b) : i ∈ allVars f := by
  unfold quantParts at h
  split at h <;> cases h <;> simp only [allVars] at hi ⊢ <;> split at hi <;> exact hi

/-- The variables of the formulas are no Skolem symbols. -/
def Clean (S : Nat → Prop) (Γ : List Form) : Prop := ∀ f ∈ Γ, ∀ i ∈ allVars f, ¬ S i

theorem Clean.append {S : Nat → Prop} {Γ ps : List Form} (h : Clean S Γ) (h' : Clean S ps) : Clean S (Γ ++ ps) := by
  intro f hf
  rcases List.mem_append.1 hf with hf | hf
  · exact h f hf
  · exact h' f hf

theorem Clean.alpha {S : Nat → Prop} {Γ : List Form} (h : Clean S Γ) {rule : Rule} {f : Form} (hf : f ∈ Γ)
    {ps : List Form} (hp : alphaParts rule f = some ps) : Clean S ps :=
  fun _ hg i hi => h f hf i (alphaParts_vars hp hg hi)

theorem Clean.beta {S : Nat → Prop} {Γ : List Form} (h : Clean S Γ) {rule : Rule} {f : Form} (hf : f ∈ Γ)
    {pss : List (List Form)} (hp : betaParts rule f = some pss) {ps : List Form} (hps : ps ∈ pss) : Clean S ps :=
  fun _ hg i hi => h f hf i (betaParts_vars hp hps hg hi)

theorem Clean.inst {S : Nat → Prop} {Γ : List Form} (h : Clean S Γ) {rule : Rule} {f b : Form} (hf : f ∈ Γ)
    {x : Nat} (hp : quantParts rule f = some (x, b)) {t : Term} (ht : t.vars = []) : Clean S [repl (.var x) t b] := by
  intro g hg i hi
  rw [List.mem_singleton] at hg
  subst hg
  rcases inst_allVars hi with hi | hi
  · exact h f hf i (quantParts_vars hp hi)
  · rw [ht] at hi; cases hi

theorem Clean.swap {S : Nat → Prop} {Γ : List Form} (h : Clean S Γ) {p c : Nat} : Clean S (Γ.map (swapF p c)) := by
  intro g hg i hi
  obtain ⟨f, hf, rfl⟩ := List.mem_map.1 hg
  exact h f hf i (swapF_allVars hi)

/-! ## The replacement in a refutation -/

mutual
/-- The height of a tree. -/
def height : Tree → Nat
  | .hole cs => heightL cs + 1
  | .node _ _ _ _ cs => heightL cs + 1
def heightL : List Tree → Nat
  | [] => 0
  | c :: cs => max (height c) (heightL cs)
end

theorem height_le {c : Tree} : ∀ {cs : List Tree}, c ∈ cs → height c ≤ heightL cs
  | d :: cs, h => by
    simp only [heightL]
    rcases List.mem_cons.1 h with rfl | h
    · omega
    · have := height_le h; omega

theorem updateL_all {old new : Term} : ∀ {cs : List Tree},
    (∀ c ∈ cs, ∃ c', update old new c = some c' ∧ height c' = height c) →
    ∃ cs', updateL old new cs = some cs' ∧ heightL cs' = heightL cs ∧ cs'.length = cs.length ∧
      ∀ (i : Nat) (c' : Tree), cs'[i]? = some c' → ∃ c, cs[i]? = some c ∧ update old new c = some c'
  | [], _ => ⟨[], rfl, rfl, rfl, by simp⟩
  | c :: cs, h => by
    obtain ⟨c', h1, h2⟩ := h c (by simp)
    obtain ⟨cs', h3, h4, h5, h6⟩ := updateL_all (old := old) (new := new) (cs := cs) (fun d hd => h d (List.mem_cons_of_mem _ hd))
    refine ⟨c' :: cs', ?_, ?_, ?_, ?_⟩
    · simp [updateL, h1, h3]
    · simp [heightL, h2, h4]
    · simp [h5]
    · intro i d hd
      cases i with
      | zero =>
        simp only [List.getElem?_cons_zero, Option.some.injEq] at hd ⊢
        subst hd
        exact ⟨c, rfl, h1⟩
      | succ i =>
        simp only [List.getElem?_cons_succ] at hd ⊢
        exact h6 i d hd

theorem replaceSub_fn {old new : Term} {q : Nat} {ty : List Ty} {as : List Term} (h : Term.fn q ty as ≠ old) :
    Term.replaceSubTermBy old new (.fn q ty as) = .fn q ty (Term.replaceFirst old new as) := by
  simp only [Term.replaceSubTermBy, if_neg h]

theorem replaceSub_funs {old : Term} {c q : Nat} {t : Term} (h : q ∈ (Term.replaceSubTermBy old (.fn c [] []) t).funs) :
    q = c ∨ q ∈ t.funs := by
  induction t using Term.ind with
  | var i =>
    simp only [Term.replaceSubTermBy] at h
    split at h
    · simp only [Term.funs, Term.funsL, List.mem_singleton] at h; exact .inl h
    · exact .inr h
  | mv i =>
    simp only [Term.replaceSubTermBy] at h
    split at h
    · simp only [Term.funs, Term.funsL, List.mem_singleton] at h; exact .inl h
    · exact .inr h
  | fn r ty as ih =>
    by_cases he : Term.fn r ty as = old
    · simp only [Term.replaceSubTermBy, if_pos he, Term.funs, Term.funsL, List.mem_singleton] at h
      exact .inl h
    · rw [replaceSub_fn he] at h
      simp only [Term.funs, List.mem_cons] at h ⊢
      rcases h with rfl | h
      · exact .inr (.inl rfl)
      · have key : ∀ l : List Term, (∀ a ∈ l, a ∈ as) → q ∈ Term.funsL (Term.replaceFirst old (.fn c [] []) l) →
            q = c ∨ q ∈ Term.funsL l := by
          intro l
          induction l with
          | nil => intro _ h; simp [Term.replaceFirst, Term.funsL] at h
          | cons a l ihl =>
            intro hl h
            simp only [Term.replaceFirst] at h
            simp only [Term.funsL, List.mem_append]
            split at h
            · simp only [Term.funsL, List.mem_append] at h
              rcases h with h | h
              · exact .inr (.inl h)
              · exact (ihl (fun b hb => hl b (by simp [hb])) h).imp id .inr
            · simp only [Term.funsL, List.mem_append] at h
              rcases h with h | h
              · exact (ih a (hl a (by simp)) h).imp id .inl
              · exact .inr (.inr h)
        exact (key as (fun a ha => ha) h).imp id .inr

theorem swapF_neg {p c : Nat} {f g : Form} (h : swapF p c f = .neg g) : ∃ k, f = .neg k := by
  cases f <;> simp [swapF] at h
  exact ⟨_, rfl⟩

theorem swapF_equ {p c : Nat} {f A B : Form} (h : swapF p c f = .equ A B) :
    ∃ A' B', f = .equ A' B' ∧ A = swapF p c A' ∧ B = swapF p c B' := by
  cases f <;> simp [swapF] at h
  exact ⟨_, _, rfl, h.1.symm, h.2.symm⟩

theorem update_node {old new : Term} {rule : Rule} {f : Form} {t : Option Term} {forms : List (List Form)} {cs cs' : List Tree}
    (hl : cs.length = forms.length) (h : updateL old new cs = some cs') :
    update old new (.node rule f t forms cs) =
      some (.node rule (repl old new f) (t.map (Term.replaceSubTermBy old new)) (forms.map (·.map (repl old new))) cs') := by
  simp only [update, h, hl, Nat.lt_irrefl, if_false, List.take_length]

theorem map_repl {S : Nat → Prop} {p c : Nat} {tys : List Ty} {args : List Term} (hp : S p) (hpc : p ≠ c) {l : List Form}
    (h : Clean S l) : l.map (repl (.fn p tys args) (.fn c [] [])) = l.map (swapF p c) :=
  List.map_congr_left (fun f hf => repl_swapF hpc (fun hi => h f hf p hi hp))

/-- The replacement of a Skolem term by a new constant gives a refutation of the replaced hypotheses. -/
theorem update_good {S N : Nat → Prop} {p c : Nat} {tys : List Ty} {args : List Term} (hp : S p) (hc : N c)
    (hSN : ∀ q, S q → ¬ N q) {anc0 : List Term} {Γ : List Form} {T : Tree} (h : Good S N anc0 Γ T) :
    ∀ anc, anc0 = anc ++ [.fn p tys args] →
      (∀ a ∈ anc, ∃ q ty as, a = .fn q ty as ∧ q ∉ (Term.fn p tys args).funs ∧ S q) → Clean S Γ →
      ∃ T', update (.fn p tys args) (.fn c [] []) T = some T' ∧ height T' = height T ∧
        Good S (fun q => N q ∧ q ≠ c) (anc.map (Term.replaceSubTermBy (.fn p tys args) (.fn c [] [])))
          (Γ.map (swapF p c)) T' := by
  have hpc : p ≠ c := fun e => hSN p hp (e ▸ hc)
  have rf : ∀ {f : Form} {Γ : List Form}, Clean S Γ → f ∈ Γ →
      repl (.fn p tys args) (.fn c [] []) f = swapF p c f :=
    fun hcl hf => repl_swapF hpc (fun hi => hcl _ hf p hi hp)
  have mem : ∀ {f : Form} {Γ : List Form}, f ∈ Γ → swapF p c f ∈ Γ.map (swapF p c) :=
    fun hf => List.mem_map.2 ⟨_, hf, rfl⟩
  induction h with
  | @axPos _ Γ f t forms h1 h2 h3 =>
    rintro anc rfl hanc hcl
    refine ⟨.node .ax (swapF p c f) (t.map (Term.replaceSubTermBy (.fn p tys args) (.fn c [] []))) [] [], ?_, rfl, ?_⟩
    · simp [update, updateL, rf hcl h1]
    · exact .axPos (mem h1) (mem h2) (fun g hg => by obtain ⟨k, rfl⟩ := swapF_neg hg; exact h3 k rfl)
  | @axNeg _ Γ g t forms h1 h2 =>
    rintro anc rfl hanc hcl
    refine ⟨.node .ax (.neg (swapF p c g)) (t.map (Term.replaceSubTermBy (.fn p tys args) (.fn c [] []))) [] [], ?_, rfl, ?_⟩
    · have := rf hcl h1
      simp only [swapF] at this
      simp [update, updateL, this]
    · exact .axNeg (mem h1) (mem h2)
  | @alpha _ Γ rule f t ps ch h1 h2 _ ih =>
    rintro anc rfl hanc hcl
    have hcp := hcl.alpha h1 h2
    obtain ⟨T', e1, e2, e3⟩ := ih anc rfl hanc (hcl.append hcp)
    refine ⟨.node rule (swapF p c f) (t.map (Term.replaceSubTermBy (.fn p tys args) (.fn c [] []))) [ps.map (swapF p c)] [T'], ?_, ?_, ?_⟩
    · rw [update_node (cs' := [T']) rfl (by simp [updateL, e1])]
      simp [rf hcl h1, map_repl hp hpc hcp]
    · simp [height, heightL, e2]
    · rw [List.map_append] at e3
      exact .alpha (mem h1) (alphaParts_swap h2) e3
  | @beta _ Γ rule f t pss cs h1 h2 h3 h4 _ ih =>
    rintro anc rfl hanc hcl
    have hat : ∀ c ∈ cs, ∃ (i : Nat) (ps : List Form), cs[i]? = some c ∧ pss[i]? = some ps := by
      intro d hd
      obtain ⟨i, hi, rfl⟩ := List.mem_iff_getElem.1 hd
      exact ⟨i, pss[i]'(by omega), List.getElem?_eq_getElem hi, List.getElem?_eq_getElem (by omega)⟩
    obtain ⟨cs', e1, e2, e3, e4⟩ := updateL_all (old := .fn p tys args) (new := .fn c [] []) (cs := cs) (by
      intro d hd
      obtain ⟨i, ps, hi, hps⟩ := hat d hd
      obtain ⟨T', a1, a2, _⟩ := ih i ps d hps hi anc rfl hanc
        (hcl.append (hcl.beta h1 h2 (List.mem_of_getElem? hps)))
      exact ⟨T', a1, a2⟩)
    refine ⟨.node rule (swapF p c f) (t.map (Term.replaceSubTermBy (.fn p tys args) (.fn c [] []))) (pss.map (·.map (swapF p c))) cs', ?_, ?_, ?_⟩
    · rw [update_node h4 e1, rf hcl h1]
      congr 2
      exact List.map_congr_left (fun ps hps => map_repl hp hpc (hcl.beta h1 h2 hps))
    · simp [height, e2]
    · refine .beta (mem h1) (betaParts_swap h2) ?_ (by simp [e3, h4]) ?_
      · intro A B hAB
        obtain ⟨A', B', rfl, rfl, rfl⟩ := swapF_equ hAB
        obtain ⟨k1, k2⟩ := h3 A' B' rfl
        exact ⟨fun g hg => by obtain ⟨k, rfl⟩ := swapF_neg hg; exact k1 k rfl,
          fun g hg => by obtain ⟨k, rfl⟩ := swapF_neg hg; exact k2 k rfl⟩
      · intro i ps' d' hps' hd'
        obtain ⟨d, hd, hu⟩ := e4 i d' hd'
        rw [List.getElem?_map] at hps'
        obtain ⟨ps, hps, rfl⟩ := Option.map_eq_some_iff.1 hps'
        obtain ⟨T', a1, _, a3⟩ := ih i ps d hps hd anc rfl hanc
          (hcl.append (hcl.beta h1 h2 (List.mem_of_getElem? hps)))
        rw [hu] at a1
        cases a1
        rw [List.map_append] at a3
        exact a3
  | @delta _ Γ rule f b x q tyq ty0 as as0 ch h1 h2 h3 h4 h5 h6 h7 h8 h9 h10 h11 _ ih =>
    rintro anc rfl hanc hcl
    have hqo : q ∉ (Term.fn p tys args).funs := h10 _ (by simp)
    have hqp : q ≠ p := fun e => hqo (by simp [Term.funs, e])
    have hqc : q ≠ c := fun e => hSN q h8 (e ▸ hc)
    have hxc : x ≠ c := fun e => h7 (e ▸ hc)
    have hcp := hcl.inst h1 h3 (t := .fn q ty0 as0) h11
    have hne : Term.fn q tyq as ≠ .fn p tys args := by intro e; cases e; exact hqp rfl
    obtain ⟨T', e1, e2, e3⟩ := ih (.fn q tyq as :: anc) rfl (by
      intro a ha
      rcases List.mem_cons.1 ha with rfl | ha
      · exact ⟨q, tyq, as, rfl, hqo, h8⟩
      · exact hanc a ha) (hcl.append hcp)
    have hinst : swapF p c (repl (.var x) (.fn q ty0 as0) b) =
        repl (.var x) (.fn q ty0 (swapTL p c as0)) (swapF p c b) := by
      rw [swapF_inst (u := .fn q ty0 as0) h4 hxc h11]
      simp only [swapT, if_neg hqp]
    refine ⟨.node rule (swapF p c f) (some (.fn q tyq (Term.replaceFirst (.fn p tys args) (.fn c [] []) as)))
      [[repl (.var x) (.fn q ty0 (swapTL p c as0)) (swapF p c b)]] [T'], ?_, ?_, ?_⟩
    · rw [update_node (cs' := [T']) rfl (by simp [updateL, e1])]
      have := map_repl (tys := tys) (args := args) hp hpc hcp
      simp only [List.map_cons, List.map_nil, Option.map_some, replaceSub_fn hne, rf hcl h1, hinst] at this ⊢
      rw [this]
    · simp [height, heightL, e2]
    · refine .delta (mem h1) h2 (quantParts_swap h3) ?_ ?_ h6 (fun h => h7 h.1) h8 ?_ ?_ ?_ ?_
      · intro h
        rcases swapF_funs h with h | h
        · exact hxc h
        · exact h4 h.1
      · rw [swapF_binders]; exact h5
      · intro h
        rcases swapFL_funs h with h | h
        · exact hqc h
        · exact h9 h.1
      · intro a ha
        obtain ⟨a0, ha0, rfl⟩ := List.mem_map.1 ha
        intro h
        rcases replaceSub_funs h with h | h
        · exact hqc h
        · exact h10 a0 (List.mem_append.2 (.inl ha0)) h
      · refine List.eq_nil_iff_forall_not_mem.2 (fun i hi => ?_)
        obtain ⟨a, ha, hi⟩ := Term.mem_varsL.1 hi
        rw [swapTL_eq] at ha
        obtain ⟨a0, ha0, rfl⟩ := List.mem_map.1 ha
        have : i ∈ Term.varsL as0 := Term.mem_varsL.2 ⟨a0, ha0, swapT_vars hi⟩
        rw [h11] at this
        cases this
      · rw [List.map_append, List.map_cons, List.map_cons, List.map_nil, replaceSub_fn hne, hinst] at e3
        exact e3
  | @gamma _ Γ rule f b x t ch h1 h2 h3 h4 h5 h6 h7 h8 h9 h10 _ ih =>
    rintro anc rfl hanc hcl
    have hxc : x ≠ c := fun e => h7 (e ▸ hc)
    have hcp := hcl.inst h1 h3 h8
    obtain ⟨T', e1, e2, e3⟩ := ih anc rfl hanc (hcl.append hcp)
    have hon := h10 _ (List.mem_append.2 (.inr (List.mem_singleton.2 rfl)))
    refine ⟨.node rule (swapF p c f) (some (swapT p c t)) [[repl (.var x) (swapT p c t) (swapF p c b)]] [T'], ?_, ?_, ?_⟩
    · rw [update_node (cs' := [T']) rfl (by simp [updateL, e1])]
      have := map_repl (tys := tys) (args := args) hp hpc hcp
      simp only [List.map_cons, List.map_nil, Option.map_some, replaceSub_once hpc hon, rf hcl h1,
        swapF_inst h4 hxc h8] at this ⊢
      rw [this]
    · simp [height, heightL, e2]
    · refine .gamma (mem h1) h2 (quantParts_swap h3) ?_ ?_ h6 (fun h => h7 h.1) ?_ ?_ ?_ ?_
      · intro h
        rcases swapF_funs h with h | h
        · exact hxc h
        · exact h4 h.1
      · rw [swapF_binders]; exact h5
      · refine List.eq_nil_iff_forall_not_mem.2 (fun i hi => ?_)
        have := swapT_vars hi
        rw [h8] at this
        cases this
      · intro r hr
        rcases swapT_funs hr with rfl | ⟨hr, hrp⟩
        · exact ⟨fun h => h.2 rfl, fun h => absurd hc (hSN _ h)⟩
        · refine ⟨fun h => (h9 r hr).1 h.1, fun hS => ?_⟩
          obtain ⟨a, ha, rfl⟩ := (h9 r hr).2 hS
          rcases List.mem_append.1 ha with ha | ha
          · refine ⟨_, List.mem_map.2 ⟨a, ha, rfl⟩, ?_⟩
            obtain ⟨q, ty, as, rfl, hq, _⟩ := hanc a ha
            rw [replaceSub_fn (by intro e; cases e; exact hq (by simp [Term.funs]))]
            rfl
          · rw [List.mem_singleton] at ha
            subst ha
            exact absurd rfl hrp
      · intro a ha
        obtain ⟨a0, ha0, rfl⟩ := List.mem_map.1 ha
        obtain ⟨q, ty, as, rfl, hq, hS⟩ := hanc a0 ha0
        exact once_swap hpc hon (h10 _ (List.mem_append.2 (.inl ha0))) (fun e => hSN q hS (e ▸ hc)) hq
      · rw [List.map_append, List.map_cons, List.map_nil, swapF_inst h4 hxc h8] at e3
        exact e3
  | @gammaNone _ Γ rule f b x ch h1 h2 h3 h4 h5 h6 h7 _ ih =>
    rintro anc rfl hanc hcl
    have hxc : x ≠ c := fun e => h7 (e ▸ hc)
    have hcp : Clean S [b] := by
      intro g hg i hi
      rw [List.mem_singleton] at hg
      subst hg
      exact hcl f h1 i (quantParts_vars h3 hi)
    obtain ⟨T', e1, e2, e3⟩ := ih anc rfl hanc (hcl.append hcp)
    refine ⟨.node rule (swapF p c f) none [[swapF p c b]] [T'], ?_, ?_, ?_⟩
    · rw [update_node (cs' := [T']) rfl (by simp [updateL, e1])]
      have := map_repl (tys := tys) (args := args) hp hpc hcp
      simp only [List.map_cons, List.map_nil, Option.map_none, rf hcl h1] at this ⊢
      rw [this]
    · simp [height, heightL, e2]
    · refine .gammaNone (mem h1) h2 (quantParts_swap h3) ?_ ?_ (fun h => h6 (swapF_allVars h)) (fun h => h7 h.1) ?_
      · intro h
        rcases swapF_funs h with h | h
        · exact hxc h
        · exact h4 h.1
      · rw [swapF_binders]; exact h5
      · rw [List.map_append, List.map_cons, List.map_nil] at e3
        exact e3

end Verif.Tptp
