import Verif.Mods.Rocq
import Verif.Mods.Gs3Props
/-!
# C78: the Rocq script

`run_sound`: a script accepted by the model of Rocq proves its statement. `C78_accepted_partial`: the script
written for a GS3 refutation is accepted.
-/

namespace Verif.Rocq
open Verif.AST
open Verif.Gs3 (Rule Tree valid validL alphaParts betaParts quantParts isInstance closes)

/-! ## Lists -/

theorem putTL_eq (x : Nat) (u : Term) (l : List Term) : putTL x u l = l.map (putT x u) := by
  induction l with
  | nil => rfl
  | cons a l ih => simp [putTL, ih]

theorem putL_eq (x : Nat) (u : Term) (l : List Form) : putL x u l = l.map (put x u) := by
  induction l with
  | nil => rfl
  | cons a l ih => simp [putL, ih]

theorem rocqTermL_eq (C : List Nat) (l : List Term) : rocqTermL C l = l.map (rocqTerm C) := by
  induction l with
  | nil => rfl
  | cons a l ih => simp [rocqTermL, ih]

theorem rocqFormL_eq (C : List Nat) (l : List Form) : rocqFormL C l = l.map (rocqForm C) := by
  induction l with
  | nil => rfl
  | cons a l ih => simp [rocqFormL, ih]

theorem inScopeL_iff {G C : List Nat} {l : List Term} : inScopeL G C l = true ↔ ∀ a ∈ l, inScope G C a = true := by
  induction l with
  | nil => simp [inScopeL]
  | cons a l ih => simp [inScopeL, ih]

theorem inScope_vars {G C : List Nat} {t : Term} (h : inScope G C t = true) : t.vars = [] := by
  induction t using Term.ind with
  | var i => simp [inScope] at h
  | mv i => rfl
  | fn p tys args ih =>
    simp only [inScope] at h
    rw [List.eq_nil_iff_forall_not_mem]
    intro i hi
    simp only [Term.vars, Term.mem_varsL] at hi
    obtain ⟨a, ha, hi⟩ := hi
    split at h
    · simp only [Bool.and_eq_true, List.isEmpty_iff] at h
      rw [h.2] at ha; cases ha
    · simp only [Bool.and_eq_true] at h
      rw [ih a ha (inScopeL_iff.1 h.2 a ha)] at hi; cases hi

/-! ## Soundness of the model of Rocq -/

universe u

/-- A goal is valid: its conclusion is true when its hypotheses are. -/
def Goal.Valid (g : Goal) : Prop :=
  ∀ (D : Type u) (I : Interp D) (μ ρ : Nat → D), (∀ e ∈ g.hyps, Form.holds I μ ρ e.2) → Form.holds I μ ρ g.concl

theorem eval_putT {D : Type u} {I : Interp D} {x : Nat} {u t : Term} {ρ μ : Nat → D} :
    Term.eval I ρ μ (putT x u t) = Term.eval I (upd ρ x (Term.eval I ρ μ u)) μ t := by
  induction t using Term.ind with
  | var i =>
    simp only [putT, Term.eval, upd]
    split
    · rfl
    · rfl
  | mv i => rfl
  | fn p tys args ih =>
    simp only [putT, Term.eval, Term.evalL_eq_map, putTL_eq, List.map_map]
    congr 1
    exact List.map_congr_left (fun a ha => ih a ha)

theorem holds_put {D : Type u} {I : Interp D} {x : Nat} {u : Term} {f : Form} {ρ μ : Nat → D} (hu : u.vars = []) :
    Form.holds I μ ρ (put x u f) ↔ Form.holds I μ (upd ρ x (Term.eval I ρ μ u)) f := by
  have hev : ∀ ρ ρ' : Nat → D, Term.eval I ρ μ u = Term.eval I ρ' μ u := fun ρ ρ' =>
    Term.eval_congr (by simp [hu]) (fun _ _ => rfl) (fun _ _ => rfl)
  induction f using Form.ind generalizing ρ with
  | pred p tys args =>
    simp only [put, Form.holds_pred, putTL_eq, List.map_map]
    have : List.map (Term.eval I ρ μ ∘ putT x u) args =
        List.map (Term.eval I (upd ρ x (Term.eval I ρ μ u)) μ) args :=
      List.map_congr_left (fun a _ => eval_putT)
    rw [this]
  | top => simp [put]
  | bot => simp [put]
  | neg f ih => simp only [put, Form.holds_neg]; exact not_congr ih
  | and fs ih =>
    simp only [put, Form.holds_and, putL_eq, List.forall_mem_map]
    exact forall_congr' fun f => forall_congr' fun hf => ih f hf
  | or fs ih =>
    simp only [put, Form.holds_or, putL_eq, exists_mem_map']
    exact exists_congr fun f => and_congr_right fun hf => ih f hf
  | imp f g ihf ihg => simp only [put, Form.holds_imp]; exact imp_congr ihf ihg
  | equ f g ihf ihg => simp only [put, Form.holds_equ]; exact iff_congr ihf ihg
  | all vs f ih =>
    simp only [put]
    split
    · rename_i hx
      refine Form.holds_congr (fun i hi => ?_) (fun _ _ => rfl) (fun _ _ => rfl) rfl
      refine (upd_other _ _ ?_).symm
      rintro rfl
      simp only [Form.fvs, List.mem_filter, Bool.not_eq_true', List.contains_eq_mem, decide_eq_false_iff_not] at hi
      exact hi.2 hx
    · rename_i hx
      simp only [Form.holds_all]
      rw [forallVars_congr (fun ρ => ih (ρ := ρ)),
        forallVars_upd (Q := fun ρ => Form.holds I μ ρ f) (U := fun ρ => Term.eval I ρ μ u) hx]
      exact fun ρ v _ d => hev _ _
  | ex vs f ih =>
    simp only [put]
    split
    · rename_i hx
      refine Form.holds_congr (fun i hi => ?_) (fun _ _ => rfl) (fun _ _ => rfl) rfl
      refine (upd_other _ _ ?_).symm
      rintro rfl
      simp only [Form.fvs, List.mem_filter, Bool.not_eq_true', List.contains_eq_mem, decide_eq_false_iff_not] at hi
      exact hi.2 hx
    · rename_i hx
      simp only [Form.holds_ex]
      rw [existsVars_congr (fun ρ => ih (ρ := ρ)),
        existsVars_upd (Q := fun ρ => Form.holds I μ ρ f) (U := fun ρ => Term.eval I ρ μ u) hx]
      exact fun ρ v _ d => hev _ _

theorem holds_all_rest {D : Type u} {I : Interp D} {μ ρ : Nat → D} {v : TVar} {vs : List TVar} {f : Form} :
    Form.holds I μ ρ (.all (v :: vs) f) ↔ ∀ d, Form.holds I μ (upd ρ v.index d) (allRest vs f) := by
  rw [Form.holds_all_cons]
  refine forall_congr' fun d => ?_
  cases vs <;> simp [allRest]

theorem holds_ex_rest {D : Type u} {I : Interp D} {μ ρ : Nat → D} {v : TVar} {vs : List TVar} {f : Form} :
    Form.holds I μ ρ (.ex (v :: vs) f) ↔ ∃ d, Form.holds I μ (upd ρ v.index d) (exRest vs f) := by
  rw [Form.holds_ex_cons]
  refine exists_congr fun d => ?_
  cases vs <;> simp [exRest]

theorem lookup_mem {g : Goal} {i : Nat} {f : Form} (h : lookup g i = some f) : (i, f) ∈ g.hyps := by
  simp only [lookup, Option.map_eq_some_iff] at h
  obtain ⟨⟨j, f'⟩, h1, rfl⟩ := h
  have := List.find?_some h1
  simp only [beq_iff_eq] at this
  subst this
  exact List.mem_of_find?_eq_some h1

theorem funs_allRest (vs : List TVar) (f : Form) : (allRest vs f).funs = f.funs := by
  cases vs <;> simp [allRest, Form.funs]

theorem intro1_sound {n : Name} {g g' : Goal} (h : intro1 n g = some g') (hv : Goal.Valid.{u} g') :
    Goal.Valid.{u} g := by
  intro D I μ ρ hh
  unfold intro1 at h
  split at h
  · rename_i i a b hc
    split at h
    · cases h
    · cases h
      rw [hc, Form.holds_imp]
      intro ha
      refine hv D I μ ρ ?_
      simp only [List.mem_append, List.mem_singleton]
      rintro e (he | rfl)
      · exact hh e he
      · exact ha
  · rename_i i a hc
    split at h
    · cases h
    · cases h
      rw [hc, Form.holds_neg]
      intro ha
      refine absurd (hv D I μ ρ ?_) (by simp)
      simp only [List.mem_append, List.mem_singleton]
      rintro e (he | rfl)
      · exact hh e he
      · exact ha
  · rename_i p v vs f hc
    split at h
    · cases h
    · rename_i hn
      simp only [not_or] at hn
      cases h
      rw [hc, holds_all_rest]
      intro d
      let J : Interp D := { I with fn := fun q tys ds => if q = p then d else I.fn q tys ds }
      have hJ : ∀ k, p ∉ Form.funs k → ∀ ρ, Form.holds J μ ρ k ↔ Form.holds I μ ρ k := fun k hk ρ =>
        Form.holds_congr (fun _ _ => rfl) (fun _ _ => rfl) (fun q hq => by
          funext tys ds; exact if_neg (fun e : q = p => hk (e ▸ hq))) rfl
      have h1 := hv D J μ ρ (fun e he => (hJ e.2 (fun hp => hn.2.1 (Form.mem_funsL.2
        ⟨e.2, List.mem_map.2 ⟨e, he, rfl⟩, hp⟩)) ρ).2 (hh e he))
      rw [holds_put (by simp [Term.vars, Term.varsL])] at h1
      have hd : Term.eval J ρ μ (.fn p [] []) = d := by simp [Term.eval, J]
      rw [hd] at h1
      refine (hJ _ ?_ _).1 h1
      rw [funs_allRest]
      have := hn.2.2
      rw [hc] at this
      exact this
  · cases h

theorem introsN_sound : ∀ {ns : List Name} {g g' : Goal}, introsN ns g = some g' → Goal.Valid.{u} g' → Goal.Valid.{u} g
  | [], g, g', h, hv => by cases h; exact hv
  | n :: ns, g, g', h, hv => by
    simp only [introsN] at h
    split at h
    · cases h
    · rename_i g1 h1
      exact intro1_sound h1 (introsN_sound h hv)

theorem lemGoals_sound {D : Type u} {I : Interp D} {μ ρ : Nat → D} {l : Lem} {f : Form} {fs : List Form}
    (h : lemGoals l f = some fs) (hf : Form.holds I μ ρ f) (hfs : ∀ c ∈ fs, Form.holds I μ ρ c) : False := by
  unfold lemGoals at h
  split at h
  all_goals first
    | (simp only [Option.some.injEq] at h
       subst h
       simp at hf hfs
       grind)
    | cases h

theorem introsBranches_sound : ∀ {fs : List Form} {nss : List (List Name)} {g : Goal} {gs : List Goal},
    introsBranches fs nss g = some gs → (∀ g' ∈ gs, Goal.Valid.{u} g') →
    ∀ c ∈ fs, Goal.Valid.{u} { g with concl := c }
  | [], [], g, gs, h, hv => by simp
  | [], _ :: _, g, gs, h, hv => by simp
  | f :: fs, [], g, gs, h, hv => by simp [introsBranches] at h
  | f :: fs, ns :: nss, g, gs, h, hv => by
    simp only [introsBranches] at h
    split at h
    · rename_i g1 gs1 h1 h2
      cases h
      intro c hc
      rcases List.mem_cons.1 hc with rfl | hc
      · exact introsN_sound h1 (hv g1 (by simp))
      · exact introsBranches_sound h2 (fun g' hg' => hv g' (by simp [hg'])) c hc
    · cases h

theorem contradictory_sound {D : Type u} {I : Interp D} {μ ρ : Nat → D} {fs : List Form}
    (h : contradictory fs = true) (hfs : ∀ f ∈ fs, Form.holds I μ ρ f) : False := by
  simp only [contradictory, List.any_eq_true, Bool.or_eq_true, decide_eq_true_eq] at h
  obtain ⟨f, hf, (rfl | rfl) | h⟩ := h
  · simpa using hfs _ hf
  · simpa using hfs _ hf
  · have := hfs _ h
    rw [Form.holds_neg] at this
    exact this (hfs f hf)

theorem tac_sound {G : List Nat} {g : Goal} {t : Tac} {new : List Goal} (h : tac G g t = some new)
    (hv : ∀ g' ∈ new, Goal.Valid.{u} g') : Goal.Valid.{u} g := by
  intro D I μ ρ hh
  unfold tac at h
  split at h
  · -- apply
    split at h
    · rename_i a hl hc
      cases h
      have h1 := hh _ (lookup_mem hl)
      rw [Form.holds_neg] at h1
      exact absurd (hv _ (List.mem_singleton.2 rfl) D I μ ρ hh) h1
    · cases h
  · -- lem
    split at h
    · rename_i f hl hc
      simp only [Option.map_eq_some_iff] at h
      obtain ⟨fs, h1, rfl⟩ := h
      exact (lemGoals_sound h1 (hh _ (lookup_mem hl)) (fun c hc' =>
        hv _ (List.mem_map.2 ⟨c, hc', rfl⟩) D I μ ρ hh)).elim
    · cases h
  · -- branch
    split at h
    · rename_i f hl hc
      split at h
      · rename_i fs h1
        split at h
        · cases h
        · exact (lemGoals_sound h1 (hh _ (lookup_mem hl)) (fun c hc' =>
            introsBranches_sound h hv c hc' D I μ ρ hh)).elim
      · cases h
    · cases h
  · -- intros
    split at h
    · cases h
    · simp only [Option.map_eq_some_iff] at h
      obtain ⟨g', h1, rfl⟩ := h
      exact introsN_sound h1 (hv g' (by simp)) D I μ ρ hh
  · -- nnpp
    cases h
    have := hv _ (List.mem_singleton.2 rfl) D I μ ρ hh
    simpa using this
  · -- elim
    split at h
    · rename_i v vs f hl hc
      cases h
      have h1 := hh _ (lookup_mem hl)
      rw [holds_ex_rest] at h1
      obtain ⟨d, hd⟩ := h1
      have h2 := hv _ (List.mem_singleton.2 rfl) D I μ ρ hh
      rw [holds_all_rest] at h2
      have h3 := h2 d
      simp only [allRest, List.isEmpty_nil, if_true, Form.holds_imp, Form.holds_bot] at h3
      exact (h3 hd).elim
    · cases h
  · -- generalize
    split at h
    · rename_i i t v vs f hl
      split at h
      · rename_i hs
        cases h
        have h1 := hh _ (lookup_mem hl)
        rw [holds_all_rest] at h1
        have h2 := hv _ (List.mem_singleton.2 rfl) D I μ ρ hh
        simp only [Form.holds_imp] at h2
        exact h2 ((holds_put (inScope_vars hs)).2 (h1 _))
      · cases h
    · cases h
  · -- exists
    split at h
    · rename_i t v vs f hc
      split at h
      · rename_i hs
        cases h
        have h2 := hv _ (List.mem_singleton.2 rfl) D I μ ρ hh
        rw [hc, holds_ex_rest]
        exact ⟨_, (holds_put (inScope_vars hs)).1 h2⟩
      · cases h
    · cases h
  · -- clear a hypothesis
    split at h
    · cases h
      exact hv _ (List.mem_singleton.2 rfl) D I μ ρ (fun e he => hh e ((fun h => (List.mem_filter.1 h).1) he))
    · cases h
  · -- clear a constant
    split at h
    · cases h
      exact hv _ (List.mem_singleton.2 rfl) D I μ ρ hh
    · cases h
  all_goals
    split at h
    · rename_i hc
      exact (contradictory_sound hc.2 (fun f hf => by
        obtain ⟨e, he, rfl⟩ := List.mem_map.1 hf
        exact hh e he)).elim
    · cases h

/-- A script accepted by the model of Rocq proves its goals. -/
theorem run_sound {G : List Nat} : ∀ {ts : List Tac} {gs : List Goal}, run G ts gs = some [] →
    ∀ g ∈ gs, Goal.Valid.{u} g
  | [], gs, h => by cases h; simp
  | t :: ts, [], h => by simp
  | t :: ts, g :: gs, h => by
    simp only [run] at h
    split at h
    · cases h
    · rename_i new h1
      have ih := run_sound h
      intro g' hg'
      rcases List.mem_cons.1 hg' with rfl | hg'
      · exact tac_sound h1 (fun g'' hg'' => ih g'' (by simp [hg'']))
      · exact ih g' (by simp [hg'])

/-! ## The script of a refutation -/

/-- The hypotheses that the Go code keeps, when those in `es` that are `none` have been cleared. -/
def hsOf (es : List (Option Form)) : List Form := es.map (·.getD .top)

/-- The hypotheses that have not been cleared. -/
def live (es : List (Option Form)) : List Form := es.filterMap id

/-- The hypotheses of the context of Rocq. -/
def hypsFrom (K : List Nat) : Nat → List (Option Form) → List (Nat × Form)
  | _, [] => []
  | k, none :: l => hypsFrom K (k + 1) l
  | k, some f :: l => (k, rocqForm K f) :: hypsFrom K (k + 1) l

def goalOf (K : List Nat) (es : List (Option Form)) : Goal := ⟨K, hypsFrom K 0 es, .bot⟩

theorem hypsFrom_append (K : List Nat) : ∀ (k : Nat) (l m : List (Option Form)),
    hypsFrom K k (l ++ m) = hypsFrom K k l ++ hypsFrom K (k + l.length) m
  | k, [], m => by simp [hypsFrom]
  | k, none :: l, m => by
    simp only [List.cons_append, hypsFrom, List.length_cons]
    rw [hypsFrom_append K (k + 1) l m, Nat.add_assoc, Nat.add_comm 1]
  | k, some f :: l, m => by
    simp only [List.cons_append, hypsFrom, List.length_cons]
    rw [hypsFrom_append K (k + 1) l m, Nat.add_assoc, Nat.add_comm 1]

theorem mem_hypsFrom {K : List Nat} {i : Nat} {g : Form} : ∀ {k : Nat} {l : List (Option Form)},
    (i, g) ∈ hypsFrom K k l ↔ ∃ f, rocqForm K f = g ∧ ∃ j, l[j]? = some (some f) ∧ i = k + j
  | k, [] => by simp [hypsFrom]
  | k, none :: l => by
    simp only [hypsFrom]
    rw [mem_hypsFrom]
    constructor
    · rintro ⟨f, h1, j, h2, rfl⟩; exact ⟨f, h1, j + 1, by simpa using h2, by omega⟩
    · rintro ⟨f, h1, j, h2, rfl⟩
      cases j with
      | zero => simp at h2
      | succ j => exact ⟨f, h1, j, by simpa using h2, by omega⟩
  | k, some f :: l => by
    simp only [hypsFrom, List.mem_cons, Prod.mk.injEq]
    rw [mem_hypsFrom]
    constructor
    · rintro (⟨rfl, rfl⟩ | ⟨f, h1, j, h2, rfl⟩)
      · exact ⟨f, rfl, 0, by simp, by omega⟩
      · exact ⟨f, h1, j + 1, by simpa using h2, by omega⟩
    · rintro ⟨f', h1, j, h2, rfl⟩
      cases j with
      | zero => simp only [List.getElem?_cons_zero, Option.some.injEq] at h2; subst h2; exact .inl ⟨rfl, h1.symm⟩
      | succ j => exact .inr ⟨f', h1, j, by simpa using h2, by omega⟩

theorem hypsFrom_lt {K : List Nat} {k : Nat} {l : List (Option Form)} {e : Nat × Form} (h : e ∈ hypsFrom K k l) :
    k ≤ e.1 ∧ e.1 < k + l.length := by
  obtain ⟨i, g⟩ := e
  obtain ⟨f, _, j, h2, rfl⟩ := mem_hypsFrom.1 h
  have := (List.getElem?_eq_some_iff.1 h2).1
  constructor <;> simp <;> omega

theorem find_hypsFrom {K : List Nat} {f : Form} : ∀ {k : Nat} {l : List (Option Form)} {j : Nat},
    l[j]? = some (some f) → (hypsFrom K k l).find? (fun e => e.1 == k + j) = some (k + j, rocqForm K f)
  | k, none :: l, 0, h => by simp at h
  | k, some g :: l, 0, h => by
    simp only [List.getElem?_cons_zero, Option.some.injEq] at h
    subst h
    simp [hypsFrom]
  | k, none :: l, j + 1, h => by
    simp only [List.getElem?_cons_succ] at h
    have := find_hypsFrom (K := K) (k := k + 1) h
    simp only [hypsFrom]
    rwa [show k + (j + 1) = k + 1 + j by omega]
  | k, some g :: l, j + 1, h => by
    simp only [List.getElem?_cons_succ] at h
    have := find_hypsFrom (K := K) (k := k + 1) h
    simp only [hypsFrom]
    rw [List.find?_cons_of_neg (by simp)]
    rwa [show k + (j + 1) = k + 1 + j by omega]

theorem lookup_goalOf {K : List Nat} {es : List (Option Form)} {i : Nat} {f : Form} (h : es[i]? = some (some f)) :
    lookup (goalOf K es) i = some (rocqForm K f) := by
  have := find_hypsFrom (K := K) (k := 0) h
  simp only [Nat.zero_add] at this
  simp [lookup, goalOf, this]

theorem indexOf_mem {f : Form} {es : List (Option Form)} (h : f ∈ live es) : ∃ i, indexOf f (hsOf es) = some i := by
  unfold indexOf
  cases hi : (hsOf es).findIdx? (fun g => decide (g = f)) with
  | some i => exact ⟨i, rfl⟩
  | none =>
    rw [List.findIdx?_eq_none_iff] at hi
    simp only [live, List.mem_filterMap, id] at h
    obtain ⟨o, ho, rfl⟩ := h
    exact absurd (hi f (List.mem_map.2 ⟨_, ho, rfl⟩)) (by simp)

theorem indexOf_live {f : Form} {es : List (Option Form)} {i : Nat} (hf : f ≠ .top)
    (h : indexOf f (hsOf es) = some i) : es[i]? = some (some f) ∧ ∀ j, j < i → es[j]? ≠ some (some f) := by
  unfold indexOf at h
  obtain ⟨hlt, h1, h2⟩ := List.findIdx?_eq_some_iff_getElem.1 h
  simp only [hsOf, List.length_map] at hlt
  simp only [hsOf, List.getElem_map, decide_eq_true_eq] at h1 h2
  refine ⟨?_, fun j hj he => ?_⟩
  · rw [List.getElem?_eq_getElem hlt]
    cases hc : es[i] with
    | none => rw [hc] at h1; exact absurd h1.symm hf
    | some g => rw [hc] at h1; simp only [Option.getD_some] at h1; rw [h1]
  · obtain ⟨hl, he⟩ := List.getElem?_eq_some_iff.1 he
    exact h2 j hj (by rw [he]; rfl)

/-! ### Reading of formulas -/

theorem put_andN (x : Nat) (u : Term) : ∀ l : List Form, put x u (andN l) = andN (l.map (put x u))
  | [] => by simp [andN, put, putL]
  | [a] => by simp [andN]
  | a :: b :: l => by simp only [andN, put, putL, List.map_cons]; rw [put_andN x u (b :: l)]; rfl

theorem put_orN (x : Nat) (u : Term) : ∀ l : List Form, put x u (orN l) = orN (l.map (put x u))
  | [] => by simp [orN, put, putL]
  | [a] => by simp [orN]
  | a :: b :: l => by simp only [orN, put, putL, List.map_cons]; rw [put_orN x u (b :: l)]; rfl

theorem rocqTerm_replT {K : List Nat} {x : Nat} {u t : Term} (hx : x ∉ t.funs) (hu : u ≠ .var x) :
    rocqTerm K (replT (.var x) u t).1 = putT x (rocqTerm K u) (rocqTerm K t) := by
  induction t using Term.ind with
  | var i =>
    rw [replT_var_fst]
    simp only [rocqTerm, putT]
    by_cases h : i = x
    · simp [h]
    · rw [if_neg h, if_neg (fun e => h e.symm)]; rfl
  | mv i =>
    simp only [replT]
    rw [if_neg (Ne.symm hu)]; rfl
  | fn p tys args ih =>
    simp only [Term.funs, List.mem_cons, not_or, Term.mem_funsL, not_exists, not_and] at hx
    rw [replT_fn_fst, if_neg hx.1]
    simp only [rocqTerm, rocqTermL_eq]
    split
    · simp [putT, putTL]
    · simp only [putT, putTL_eq, List.map_map]
      congr 1
      exact List.map_congr_left (fun a ha => ih a ha (hx.2 a ha))

theorem rocqForm_replace {K : List Nat} {x : Nat} {u : Term} {f : Form} (hx : x ∉ f.funs) (hb : x ∉ f.binders)
    (hu : u ≠ .var x) :
    rocqForm K (f.replaceTermByTerm (.var x) u).1 = put x (rocqTerm K u) (rocqForm K f) := by
  induction f using Form.ind with
  | pred p tys args =>
    simp only [Form.funs, Term.mem_funsL, not_exists, not_and] at hx
    simp only [Form.replaceTermByTerm, rocqForm, put, replTL_fst, rocqTermL_eq, putTL_eq, List.map_map]
    congr 1
    exact List.map_congr_left (fun a ha => rocqTerm_replT (hx a ha) hu)
  | top => rfl
  | bot => rfl
  | neg f ih => simp only [Form.replaceTermByTerm, rocqForm, put]; rw [ih hx hb]
  | and fs ih =>
    simp only [Form.funs, Form.binders, Form.mem_funsL, Form.mem_bindersL, not_exists, not_and] at hx hb
    simp only [Form.replaceTermByTerm, rocqForm, Form.replaceTermByTermL_fst, rocqFormL_eq, put_andN, List.map_map]
    congr 1
    exact List.map_congr_left (fun f hf => ih f hf (hx f hf) (hb f hf))
  | or fs ih =>
    simp only [Form.funs, Form.binders, Form.mem_funsL, Form.mem_bindersL, not_exists, not_and] at hx hb
    simp only [Form.replaceTermByTerm, rocqForm, Form.replaceTermByTermL_fst, rocqFormL_eq, put_orN, List.map_map]
    congr 1
    exact List.map_congr_left (fun f hf => ih f hf (hx f hf) (hb f hf))
  | imp f g ihf ihg =>
    simp only [Form.funs, Form.binders, List.mem_append, not_or] at hx hb
    simp only [Form.replaceTermByTerm, rocqForm, put]
    rw [ihf hx.1 hb.1, ihg hx.2 hb.2]
  | equ f g ihf ihg =>
    simp only [Form.funs, Form.binders, List.mem_append, not_or] at hx hb
    simp only [Form.replaceTermByTerm, rocqForm, put]
    rw [ihf hx.1 hb.1, ihg hx.2 hb.2]
  | all vs f ih =>
    simp only [Form.funs, Form.binders, List.mem_append, not_or] at hx hb
    simp only [Form.replaceTermByTerm, rocqForm, put]
    rw [if_neg hb.1, ih hx hb.2]
  | ex vs f ih =>
    simp only [Form.funs, Form.binders, List.mem_append, not_or] at hx hb
    simp only [Form.replaceTermByTerm, rocqForm, put]
    rw [if_neg hb.1, ih hx hb.2]

theorem rocqTerm_vars {K : List Nat} {t : Term} {i : Nat} (h : i ∈ (rocqTerm K t).vars) : i ∈ t.vars := by
  induction t using Term.ind with
  | var j => exact h
  | mv j => exact h
  | fn p tys args ih =>
    simp only [rocqTerm] at h
    split at h
    · simp [Term.vars, Term.varsL] at h
    · simp only [Term.vars, Term.mem_varsL, rocqTermL_eq, List.mem_map] at h ⊢
      obtain ⟨_, ⟨a, ha, rfl⟩, h⟩ := h
      exact ⟨a, ha, ih a ha h⟩

theorem putT_absent {x : Nat} {u t : Term} (h : x ∉ t.vars) : putT x u t = t := by
  induction t using Term.ind with
  | var i => simp only [Term.vars, List.mem_singleton] at h; simp [putT, Ne.symm h]
  | mv i => rfl
  | fn p tys args ih =>
    simp only [Term.vars, Term.mem_varsL, not_exists, not_and] at h
    simp only [putT, putTL_eq]
    congr 1
    calc _ = args.map id := List.map_congr_left (fun a ha => ih a ha (h a ha))
      _ = args := by simp

theorem put_absent {K : List Nat} {x : Nat} {u : Term} {f : Form} (h : x ∉ Gs3.allVars f) :
    put x u (rocqForm K f) = rocqForm K f := by
  induction f using Form.ind with
  | pred p tys args =>
    simp only [Gs3.allVars, Term.mem_varsL, not_exists, not_and] at h
    simp only [rocqForm, put, putTL_eq, rocqTermL_eq, List.map_map]
    congr 1
    exact List.map_congr_left (fun a ha => putT_absent (fun hx => h a ha (rocqTerm_vars hx)))
  | top => rfl
  | bot => rfl
  | neg f ih => simp only [rocqForm, put]; rw [ih h]
  | and fs ih =>
    simp only [Gs3.allVars, Gs3.mem_allVarsL, not_exists, not_and] at h
    simp only [rocqForm, put_andN, rocqFormL_eq, List.map_map]
    congr 1
    exact List.map_congr_left (fun a ha => ih a ha (h a ha))
  | or fs ih =>
    simp only [Gs3.allVars, Gs3.mem_allVarsL, not_exists, not_and] at h
    simp only [rocqForm, put_orN, rocqFormL_eq, List.map_map]
    congr 1
    exact List.map_congr_left (fun a ha => ih a ha (h a ha))
  | imp f g ihf ihg =>
    simp only [Gs3.allVars, List.mem_append, not_or] at h
    simp only [rocqForm, put]; rw [ihf h.1, ihg h.2]
  | equ f g ihf ihg =>
    simp only [Gs3.allVars, List.mem_append, not_or] at h
    simp only [rocqForm, put]; rw [ihf h.1, ihg h.2]
  | all vs f ih => simp only [rocqForm, put]; rw [ih h]; simp
  | ex vs f ih => simp only [rocqForm, put]; rw [ih h]; simp

theorem rocqTerm_congr {K K' : List Nat} {t : Term} (h : ∀ p ∈ t.funs, p ∈ K ↔ p ∈ K') :
    rocqTerm K t = rocqTerm K' t := by
  induction t using Term.ind with
  | var i => rfl
  | mv i => rfl
  | fn p tys args ih =>
    simp only [Term.funs, List.mem_cons, Term.mem_funsL] at h
    have hp := h p (.inl rfl)
    simp only [rocqTerm, rocqTermL_eq]
    by_cases hk : p ∈ K
    · rw [if_pos hk, if_pos (hp.1 hk)]
    · rw [if_neg hk, if_neg (fun e => hk (hp.2 e))]
      congr 1
      exact List.map_congr_left (fun a ha => ih a ha (fun q hq => h q (.inr ⟨a, ha, hq⟩)))

theorem rocqForm_congr {K K' : List Nat} {f : Form} (h : ∀ p ∈ f.funs, p ∈ K ↔ p ∈ K') :
    rocqForm K f = rocqForm K' f := by
  induction f using Form.ind with
  | pred p tys args =>
    simp only [Form.funs, Term.mem_funsL] at h
    simp only [rocqForm, rocqTermL_eq]
    congr 1
    exact List.map_congr_left (fun a ha => rocqTerm_congr (fun q hq => h q ⟨a, ha, hq⟩))
  | top => rfl
  | bot => rfl
  | neg f ih => simp only [rocqForm]; rw [ih h]
  | and fs ih =>
    simp only [Form.funs, Form.mem_funsL] at h
    simp only [rocqForm, rocqFormL_eq]
    congr 1
    exact List.map_congr_left (fun a ha => ih a ha (fun q hq => h q ⟨a, ha, hq⟩))
  | or fs ih =>
    simp only [Form.funs, Form.mem_funsL] at h
    simp only [rocqForm, rocqFormL_eq]
    congr 1
    exact List.map_congr_left (fun a ha => ih a ha (fun q hq => h q ⟨a, ha, hq⟩))
  | imp f g ihf ihg =>
    simp only [Form.funs, List.mem_append] at h
    simp only [rocqForm]; rw [ihf (fun q hq => h q (.inl hq)), ihg (fun q hq => h q (.inr hq))]
  | equ f g ihf ihg =>
    simp only [Form.funs, List.mem_append] at h
    simp only [rocqForm]; rw [ihf (fun q hq => h q (.inl hq)), ihg (fun q hq => h q (.inr hq))]
  | all vs f ih => simp only [rocqForm]; rw [ih h]
  | ex vs f ih => simp only [rocqForm]; rw [ih h]

theorem hypsFrom_congr {K K' : List Nat} : ∀ {k : Nat} {es : List (Option Form)},
    (∀ p ∈ Form.funsL (live es), p ∈ K ↔ p ∈ K') → hypsFrom K k es = hypsFrom K' k es
  | k, [], _ => rfl
  | k, none :: es, h => by
    simp only [hypsFrom]
    exact hypsFrom_congr (by simpa [live] using h)
  | k, some f :: es, h => by
    simp only [hypsFrom]
    simp only [live, List.filterMap_cons, id, Form.funsL, List.mem_append] at h
    rw [rocqForm_congr (K' := K') (fun p hp => h p (.inl hp)), hypsFrom_congr (K' := K') (fun p hp => h p (.inr hp))]

theorem andN_funs {l : List Form} {p : Nat} : p ∈ (andN l).funs ↔ p ∈ Form.funsL l := by
  match l with
  | [] => simp [andN, Form.funs, Form.funsL]
  | [a] => simp [andN, Form.funsL]
  | a :: b :: l =>
    have := andN_funs (l := b :: l) (p := p)
    simp only [andN, Form.funs, Form.funsL, List.mem_append, List.append_nil] at this ⊢
    rw [this]

theorem orN_funs {l : List Form} {p : Nat} : p ∈ (orN l).funs ↔ p ∈ Form.funsL l := by
  match l with
  | [] => simp [orN, Form.funs, Form.funsL]
  | [a] => simp [orN, Form.funsL]
  | a :: b :: l =>
    have := orN_funs (l := b :: l) (p := p)
    simp only [orN, Form.funs, Form.funsL, List.mem_append, List.append_nil] at this ⊢
    rw [this]

theorem rocqTerm_funs {K : List Nat} {t : Term} {p : Nat} (h : p ∈ (rocqTerm K t).funs) : p ∈ t.funs := by
  induction t using Term.ind with
  | var i => exact h
  | mv i => exact h
  | fn q tys args ih =>
    simp only [rocqTerm] at h
    split at h
    · simp only [Term.funs, Term.funsL, List.mem_cons, List.not_mem_nil, or_false] at h ⊢; exact .inl h
    · simp only [Term.funs, List.mem_cons, Term.mem_funsL, rocqTermL_eq, List.mem_map] at h ⊢
      rcases h with h | ⟨_, ⟨a, ha, rfl⟩, h⟩
      · exact .inl h
      · exact .inr ⟨a, ha, ih a ha h⟩

theorem rocqForm_funs {K : List Nat} {f : Form} {p : Nat} (h : p ∈ (rocqForm K f).funs) : p ∈ f.funs := by
  induction f using Form.ind with
  | pred q tys args =>
    simp only [rocqForm, Form.funs, Term.mem_funsL, rocqTermL_eq, List.mem_map] at h ⊢
    obtain ⟨_, ⟨a, ha, rfl⟩, h⟩ := h
    exact ⟨a, ha, rocqTerm_funs h⟩
  | top => exact h
  | bot => exact h
  | neg f ih => exact ih h
  | and fs ih =>
    simp only [rocqForm, andN_funs, Form.mem_funsL, rocqFormL_eq, List.mem_map] at h
    obtain ⟨_, ⟨a, ha, rfl⟩, h⟩ := h
    simp only [Form.funs, Form.mem_funsL]
    exact ⟨a, ha, ih a ha h⟩
  | or fs ih =>
    simp only [rocqForm, orN_funs, Form.mem_funsL, rocqFormL_eq, List.mem_map] at h
    obtain ⟨_, ⟨a, ha, rfl⟩, h⟩ := h
    simp only [Form.funs, Form.mem_funsL]
    exact ⟨a, ha, ih a ha h⟩
  | imp f g ihf ihg =>
    simp only [rocqForm, Form.funs, List.mem_append] at h ⊢
    exact h.imp ihf ihg
  | equ f g ihf ihg =>
    simp only [rocqForm, Form.funs, List.mem_append] at h ⊢
    exact h.imp ihf ihg
  | all vs f ih => exact ih h
  | ex vs f ih => exact ih h

theorem hypsFrom_funs {K : List Nat} {k p : Nat} {es : List (Option Form)}
    (h : p ∈ Form.funsL ((hypsFrom K k es).map (·.2))) : p ∈ Form.funsL (live es) := by
  obtain ⟨g, hg, hp⟩ := Form.mem_funsL.1 h
  obtain ⟨⟨i, g'⟩, he, rfl⟩ := List.mem_map.1 hg
  obtain ⟨f, rfl, j, hj, _⟩ := mem_hypsFrom.1 he
  exact Form.mem_funsL.2 ⟨f, List.mem_filterMap.2 ⟨some f, List.mem_of_getElem? hj, rfl⟩, rocqForm_funs hp⟩

/-! ### Steps -/

theorem introsN_chain {K : List Nat} : ∀ {gs : List Form} {k : Nat} {H : List (Nat × Form)}, (∀ e ∈ H, e.1 < k) →
    introsN ((List.range gs.length).map fun j => .hyp (k + j)) ⟨K, H, impChain (gs.map (rocqForm K)) .bot⟩ =
      some ⟨K, H ++ hypsFrom K k (gs.map some), .bot⟩
  | [], k, H, _ => by simp [introsN, impChain, hypsFrom]
  | g :: gs, k, H, h => by
    have hk : k ∉ H.map (·.1) := by
      intro hm
      obtain ⟨e, he, rfl⟩ := List.mem_map.1 hm
      exact Nat.lt_irrefl _ (h e he)
    have ih := introsN_chain (K := K) (gs := gs) (k := k + 1) (H := H ++ [(k, rocqForm K g)]) (by
      intro e he
      rcases List.mem_append.1 he with he | he
      · exact Nat.lt_succ_of_lt (h e he)
      · rw [List.mem_singleton.1 he]; exact Nat.lt_succ_self k)
    simp only [List.length_cons, List.range_succ_eq_map, List.map_cons, List.map_map, Nat.add_zero, introsN, intro1,
      impChain, if_neg hk, hypsFrom]
    have he : (fun j => Name.hyp (k + j)) ∘ Nat.succ = fun j => Name.hyp (k + 1 + j) := by
      funext j; simp only [Function.comp]; congr 1; omega
    rw [he, ih]
    simp

theorem hsOf_length (es : List (Option Form)) : (hsOf es).length = es.length := by simp [hsOf]

theorem goalOf_append {K : List Nat} {es : List (Option Form)} {gs : List Form} :
    goalOf K (es ++ gs.map some) = ⟨K, hypsFrom K 0 es ++ hypsFrom K es.length (gs.map some), .bot⟩ := by
  simp [goalOf, hypsFrom_append]

theorem intros_goalOf {K : List Nat} {es : List (Option Form)} {gs : List Form} :
    introsN (newNames (hsOf es) gs) ⟨K, hypsFrom K 0 es, impChain (gs.map (rocqForm K)) .bot⟩ =
      some (goalOf K (es ++ gs.map some)) := by
  rw [goalOf_append, newNames, hsOf_length]
  exact introsN_chain (fun e he => by have := (hypsFrom_lt he).2; omega)

theorem introNeg_goalOf {K : List Nat} {es : List (Option Form)} {g : Form} :
    introsN (newNames (hsOf es) [g]) ⟨K, hypsFrom K 0 es, .neg (rocqForm K g)⟩ =
      some (goalOf K (es ++ [some g])) := by
  have := intros_goalOf (K := K) (es := es) (gs := [g])
  simp only [newNames, List.length_singleton, List.range_succ_eq_map, List.range_zero, List.map_nil, List.map_cons,
    Nat.add_zero, introsN, intro1, impChain] at this ⊢
  exact this

theorem hsOf_append (es : List (Option Form)) (gs : List Form) : hsOf es ++ gs = hsOf (es ++ gs.map some) := by
  simp [hsOf, Function.comp_def]

theorem live_append (es : List (Option Form)) (gs : List Form) : live (es ++ gs.map some) = live es ++ gs := by
  simp [live, List.filterMap_map, Function.comp_def]

theorem live_set : ∀ {es : List (Option Form)} {i : Nat} {f : Form}, es[i]? = some (some f) →
    (∀ j, j < i → es[j]? ≠ some (some f)) → live (es.set i none) = (live es).erase f
  | some g :: es, 0, f, h, _ => by
    simp only [List.getElem?_cons_zero, Option.some.injEq] at h
    subst h
    simp [live]
  | none :: es, 0, f, h, _ => by simp at h
  | none :: es, i + 1, f, h, hj => by
    have := live_set (es := es) (i := i) (by simpa using h) (fun j hji => by simpa using hj (j + 1) (by omega))
    simpa [live] using this
  | some g :: es, i + 1, f, h, hj => by
    have := live_set (es := es) (i := i) (by simpa using h) (fun j hji => by simpa using hj (j + 1) (by omega))
    have hg : g ≠ f := by simpa using hj 0 (by omega)
    simp only [live] at this
    simp only [live, List.set_cons_succ, List.filterMap_cons, id]
    rw [this, List.erase_cons_tail (by simpa using hg)]

theorem hsOf_set {es : List (Option Form)} {i : Nat} : (hsOf es).set i .top = hsOf (es.set i none) := by
  simp [hsOf, List.map_set]

theorem hypsFrom_set {K : List Nat} : ∀ {k i : Nat} {es : List (Option Form)},
    hypsFrom K k (es.set i none) = (hypsFrom K k es).filter fun e => e.1 != k + i
  | k, i, [] => by simp [hypsFrom]
  | k, 0, none :: es => by
    simp only [List.set_cons_zero, hypsFrom]
    rw [List.filter_eq_self.2]
    intro e he
    have := (hypsFrom_lt he).1
    simp; omega
  | k, 0, some f :: es => by
    simp only [List.set_cons_zero, hypsFrom]
    rw [List.filter_cons_of_neg (by simp), List.filter_eq_self.2]
    intro e he
    have := (hypsFrom_lt he).1
    simp; omega
  | k, i + 1, none :: es => by
    simp only [List.set_cons_succ, hypsFrom]
    rw [hypsFrom_set, show k + 1 + i = k + (i + 1) by omega]
  | k, i + 1, some f :: es => by
    simp only [List.set_cons_succ, hypsFrom]
    rw [hypsFrom_set, List.filter_cons_of_pos (by simp), show k + 1 + i = k + (i + 1) by omega]

/-! ### When the script works -/

mutual
/-- The term can be written in the context: a term whose symbol is named like a Skolem symbol has been
introduced and not been cleared; the others have declared symbols and no type arguments. -/
def okTerm (cfg : Cfg) (G C : List Nat) (created : List Term) : Term → Bool
  | .var _ => false
  | .mv _ => true
  | .fn p tys args =>
    if cfg.sko p then decide (p ∈ C) && decide (Term.fn p tys args ∈ created)
    else decide (p ∈ G) && tys.isEmpty && okTermL cfg G C created args
def okTermL (cfg : Cfg) (G C : List Nat) (created : List Term) : List Term → Bool
  | [] => true
  | a :: l => okTerm cfg G C created a && okTermL cfg G C created l
end

theorem okTermL_iff {cfg : Cfg} {G C : List Nat} {created : List Term} {l : List Term} :
    okTermL cfg G C created l = true ↔ ∀ a ∈ l, okTerm cfg G C created a = true := by
  induction l with
  | nil => simp [okTermL]
  | cons a l ih => simp [okTermL, ih]

/-- The term of a delta step, if there is one, is a new constant named like a Skolem symbol. -/
def deltaOk (cfg : Cfg) (G C : List Nat) : Option Term → Bool
  | none => true
  | some (.fn p _ args) =>
    cfg.sko p && decide (p ∉ C) && (Term.funsL args).all (fun q => decide (q ∈ G) || cfg.sko q)
  | some _ => false

def newConst : Option Term → List Nat
  | some (.fn p _ _) => [p]
  | _ => []

def newTerm : Option Term → List Term
  | some t => [t]
  | none => []

mutual
/-- What a refutation must fulfil beside its validity for its script to be accepted: conjunctions and
disjunctions are binary, all components are added, terms of gamma steps are introduced before, the terms of
delta steps are new constants that are named like Skolem symbols, `⊤` is not weakened, and only constants in
the context are cleared. `C` are the constants of the context, `created` the terms they stand for. -/
def ready (cfg : Cfg) (G : List Nat) : List Nat → List Term → Tree → Bool
  | C, cr, .hole cs => readyL cfg G C cr cs
  | C, cr, .node rule f t forms cs =>
    match rule with
    | .ax => true
    | .r => false
    | .w =>
      match t with
      | none => decide (f ≠ .top) && readyL cfg G C cr cs
      | some (.fn p _ _) => decide (p ∈ C) && readyL cfg G (C.filter (· != p)) cr cs
      | some _ => false
    | .nnot => decide (forms = (Gs3.alphaParts .nnot f).toList) && readyL cfg G C cr cs
    | .nimp => decide (forms = (Gs3.alphaParts .nimp f).toList) && readyL cfg G C cr cs
    | .and => decide (forms = (Gs3.alphaParts .and f).toList) && forms.all (·.length == 2) && readyL cfg G C cr cs
    | .nor => decide (forms = (Gs3.alphaParts .nor f).toList) && forms.all (·.length == 2) && readyL cfg G C cr cs
    | .nand => forms.length == 2 && readyL cfg G C cr cs
    | .or => forms.length == 2 && readyL cfg G C cr cs
    | .nequ => readyL cfg G C cr cs
    | .imp => readyL cfg G C cr cs
    | .equ => readyL cfg G C cr cs
    | .all => t.all (okTerm cfg G C cr) && readyL cfg G C cr cs
    | .nex => t.all (okTerm cfg G C cr) && readyL cfg G C cr cs
    | .nall => deltaOk cfg G C t && readyL cfg G (C ++ newConst t) (cr ++ newTerm t) cs
    | .ex => deltaOk cfg G C t && readyL cfg G (C ++ newConst t) (cr ++ newTerm t) cs
def readyL (cfg : Cfg) (G : List Nat) : List Nat → List Term → List Tree → Bool
  | _, _, [] => true
  | C, cr, c :: cs => ready cfg G C cr c && readyL cfg G C cr cs
end

/-- The declared symbols `G` and the names that the code chooses do not clash. -/
structure Env (cfg : Cfg) (G : List Nat) : Prop where
  ind : cfg.ind ∈ G
  indSko : cfg.sko cfg.ind = false
  dummyG : ∀ k, cfg.dummy k ∉ G
  dummySko : ∀ k, cfg.sko (cfg.dummy k) = false
  dummyInj : ∀ j k, cfg.dummy j = cfg.dummy k → j = k

/-- What holds between the context of Rocq (`K`, `es`) and the state of the code. -/
structure Inv (cfg : Cfg) (G : List Nat) (d : Nat) (K C : List Nat) (cr : List Term) (es : List (Option Form)) : Prop where
  sub : ∀ p ∈ C, p ∈ K
  sup : ∀ p ∈ K, p ∈ C ∨ ∃ k, k < d ∧ p = cfg.dummy k
  sko : ∀ p ∈ C, cfg.sko p = true
  syms : ∀ p ∈ Form.funsL (live es), p ∈ G ∨ cfg.sko p = true
  created : ∀ t ∈ cr, ∀ q ∈ t.funs, q ∈ G ∨ cfg.sko q = true

theorem Inv.mono {cfg : Cfg} {G : List Nat} {d d' : Nat} {K C : List Nat} {cr : List Term} {es : List (Option Form)}
    (h : Inv cfg G d K C cr es) (hd : d ≤ d') : Inv cfg G d' K C cr es :=
  { h with sup := fun p hp => (h.sup p hp).imp id (fun ⟨k, hk, e⟩ => ⟨k, Nat.lt_of_lt_of_le hk hd, e⟩) }

theorem Inv.not_K {cfg : Cfg} {G : List Nat} {d : Nat} {K C : List Nat} {cr : List Term} {es : List (Option Form)}
    (hE : Env cfg G) (h : Inv cfg G d K C cr es) {p : Nat} (hp : p ∈ G) (hs : cfg.sko p = false) : p ∉ K := by
  intro hk
  rcases h.sup p hk with hc | ⟨k, _, rfl⟩
  · rw [h.sko p hc] at hs; cases hs
  · exact hE.dummyG k hp

theorem Inv.append {cfg : Cfg} {G : List Nat} {d : Nat} {K C : List Nat} {cr : List Term} {es : List (Option Form)}
    (h : Inv cfg G d K C cr es) {gs : List Form} (hg : ∀ g ∈ gs, ∀ p ∈ g.funs, p ∈ G ∨ cfg.sko p = true) :
    Inv cfg G d K C cr (es ++ gs.map some) :=
  { h with
    syms := fun p hp => by
      rw [live_append] at hp
      obtain ⟨g, hgm, hpg⟩ := Form.mem_funsL.1 hp
      rcases List.mem_append.1 hgm with hgm | hgm
      · exact h.syms p (Form.mem_funsL.2 ⟨g, hgm, hpg⟩)
      · exact hg g hgm p hpg }

theorem okTerm_real {cfg : Cfg} {G : List Nat} {d : Nat} {K C : List Nat} {cr : List Term} {es : List (Option Form)}
    (hE : Env cfg G) (h : Inv cfg G d K C cr es) {t : Term} (ht : okTerm cfg G C cr t = true) :
    realTerm cfg cr t = rocqTerm K t ∧ inScope G K (rocqTerm K t) = true ∧ ∀ q ∈ t.funs, q ∈ G ∨ cfg.sko q = true := by
  induction t using Term.ind with
  | var i => simp [okTerm] at ht
  | mv i => simp [realTerm, findInConstants, ground, Term.funs, rocqTerm, inScope]
  | fn p tys args ih =>
    simp only [okTerm] at ht
    by_cases hp : cfg.sko p = true
    · rw [if_pos hp] at ht
      simp only [Bool.and_eq_true, decide_eq_true_eq] at ht
      obtain ⟨hC, hcr⟩ := ht
      have hK := h.sub p hC
      refine ⟨?_, ?_, h.created _ hcr⟩
      · simp only [realTerm, if_pos hp, findInConstants, if_pos hcr, rocqTerm, if_pos hK]
      · simp only [rocqTerm, if_pos hK, inScope]; rfl
    · rw [if_neg hp] at ht
      simp only [Bool.and_eq_true, decide_eq_true_eq, okTermL_iff, List.isEmpty_iff] at ht
      obtain ⟨⟨hG, rfl⟩, hargs⟩ := ht
      have hK := h.not_K hE hG (by simpa using hp)
      have hr : ∀ l : List Term, (∀ a ∈ l, a ∈ args) → realTermL cfg cr l = l.map (rocqTerm K) := by
        intro l
        induction l with
        | nil => intro _; rfl
        | cons a l ih' =>
          intro hl
          have ha := hl a (by simp)
          simp only [realTermL, List.map_cons, (ih a ha (hargs a ha)).1]
          rw [ih' (fun b hb => hl b (by simp [hb]))]
      refine ⟨?_, ?_, ?_⟩
      · simp only [realTerm, if_neg hp, rocqTerm, if_neg hK, rocqTermL_eq, hr args (fun a ha => ha)]
      · simp only [rocqTerm, if_neg hK, inScope, rocqTermL_eq, Bool.and_eq_true, decide_eq_true_eq]
        refine ⟨hG, inScopeL_iff.2 (fun a ha => ?_)⟩
        obtain ⟨b, hb, rfl⟩ := List.mem_map.1 ha
        exact (ih b hb (hargs b hb)).2.1
      · intro q hq
        simp only [Term.funs, List.mem_cons, Term.mem_funsL] at hq
        rcases hq with rfl | ⟨a, ha, hq⟩
        · exact .inl hG
        · exact (ih a ha (hargs a ha)).2.2 q hq

/-! ### Each step of the script -/

theorem newNames_ne {hs gs : List Form} (h : gs ≠ []) : (newNames hs gs).isEmpty = false := by
  cases gs with
  | nil => exact absurd rfl h
  | cons g gs => simp [newNames, List.range_succ_eq_map]

/-- A tactic that leaves one goal, and `intros` for the new hypotheses. -/
theorem run_intros {G : List Nat} {es : List (Option Form)} {gs : List Form} {c : Form} {ts : List Tac} {g : Goal}
    {K' : List Nat} (hne : gs ≠ [])
    (ht : ∀ rest gs', run G (ts ++ rest) (g :: gs') = run G rest (⟨K', hypsFrom K' 0 es, c⟩ :: gs'))
    (hi : introsN (newNames (hsOf es) gs) ⟨K', hypsFrom K' 0 es, c⟩ = some (goalOf K' (es ++ gs.map some))) (rest : List Tac)
    (gs' : List Goal) :
    run G (ts ++ [.intros (newNames (hsOf es) gs)] ++ rest) (g :: gs') =
      run G rest (goalOf K' (es ++ gs.map some) :: gs') := by
  rw [List.append_assoc, ht]
  simp [run, tac, newNames_ne hne, hi]

/-- The step of the script, and what the children need. -/
def StepOk (cfg : Cfg) (G : List Nat) (rule : Rule) (f : Form) (t : Option Term) (forms : List (List Form))
    (cs : List Tree) (K : List Nat) (cr : List Term) (d : Nat) (es : List (Option Form)) : Prop :=
  ∃ (tacs : List Tac) (ess : List (List (Option Form))) (cr' : List Term) (d' : Nat) (K' C' : List Nat),
    makeStep cfg rule f t forms cs.length (hsOf es) cr d = some (tacs, ess.map hsOf, cr', d') ∧ d ≤ d' ∧
    (∀ rest gs, run G (tacs ++ rest) (goalOf K es :: gs) = run G rest (ess.map (goalOf K') ++ gs)) ∧
    ess.length = cs.length ∧ Gs3.validL (ess.map live) cs = true ∧ readyL cfg G C' cr' cs = true ∧
    ∀ e ∈ ess, Inv cfg G d' K' C' cr' e

section
variable {cfg : Cfg} {G K C : List Nat} {cr : List Term} {d : Nat} {es : List (Option Form)}

/-- The position of a formula of the context in the lists of both sides. -/
theorem find_live {f : Form} (hf : f ∈ live es) (ht : f ≠ .top) :
    ∃ i, indexOf f (hsOf es) = some i ∧ es[i]? = some (some f) ∧ lookup (goalOf K es) i = some (rocqForm K f) := by
  obtain ⟨i, hi⟩ := indexOf_mem hf
  have := (indexOf_live ht hi).1
  exact ⟨i, hi, this, lookup_goalOf this⟩

theorem alpha_funs {rule : Rule} {f : Form} {ps : List Form} (h : Gs3.alphaParts rule f = some ps) {g : Form} (hg : g ∈ ps)
    {p : Nat} (hp : p ∈ g.funs) : p ∈ f.funs := by
  unfold Gs3.alphaParts at h
  split at h <;> cases h
  · simp only [List.mem_singleton] at hg; subst hg; exact hp
  · obtain ⟨k, hk, rfl⟩ := List.mem_map.1 hg
    simp only [Form.funs, Form.mem_funsL] at hp ⊢; exact ⟨k, hk, hp⟩
  · simp only [List.mem_cons, List.not_mem_nil, or_false] at hg
    simp only [Form.funs, List.mem_append]
    rcases hg with rfl | rfl
    · exact .inl hp
    · exact .inr hp
  · simp only [Form.funs, Form.mem_funsL]; exact ⟨g, hg, hp⟩

theorem beta_funs {rule : Rule} {f : Form} {ps : List (List Form)} (h : Gs3.betaParts rule f = some ps) {gs : List Form}
    (hgs : gs ∈ ps) {g : Form} (hg : g ∈ gs) {p : Nat} (hp : p ∈ g.funs) : p ∈ f.funs := by
  unfold Gs3.betaParts at h
  split at h <;> cases h
  · obtain ⟨k, hk, rfl⟩ := List.mem_map.1 hgs
    simp only [List.mem_singleton] at hg; subst hg
    simp only [Form.funs, Form.mem_funsL] at hp ⊢; exact ⟨k, hk, hp⟩
  · simp only [List.mem_cons, List.not_mem_nil, or_false] at hgs
    simp only [Form.funs, List.mem_append]
    rcases hgs with rfl | rfl <;> simp only [List.mem_cons, List.not_mem_nil, or_false] at hg <;>
      rcases hg with rfl | rfl <;> (try simp only [Form.funs] at hp) <;> simp [hp]
  · obtain ⟨k, hk, rfl⟩ := List.mem_map.1 hgs
    simp only [List.mem_singleton] at hg; subst hg
    simp only [Form.funs, Form.mem_funsL]; exact ⟨_, hk, hp⟩
  · simp only [List.mem_cons, List.not_mem_nil, or_false] at hgs
    simp only [Form.funs, List.mem_append]
    rcases hgs with rfl | rfl <;> simp only [List.mem_cons, List.not_mem_nil, or_false] at hg <;>
      subst hg <;> (try simp only [Form.funs] at hp) <;> simp [hp]
  · simp only [List.mem_cons, List.not_mem_nil, or_false] at hgs
    simp only [Form.funs, List.mem_append]
    rcases hgs with rfl | rfl <;> simp only [List.mem_cons, List.not_mem_nil, or_false] at hg <;>
      rcases hg with rfl | rfl <;> (try simp only [Form.funs] at hp) <;> simp [hp]

theorem Inv.parts (h : Inv cfg G d K C cr es) {f : Form} (hf : f ∈ live es) {p : Nat} (hp : p ∈ f.funs) :
    p ∈ G ∨ cfg.sko p = true :=
  h.syms p (Form.mem_funsL.2 ⟨f, hf, hp⟩)

/-- An alpha step, given the effect of its tactic. -/
theorem alphaStep_ok (hI : Inv cfg G d K C cr es) {f : Form} {rule : Rule} {ps : List Form} {cs : List Tree} {tc : Tac}
    {c : Form} {t : Option Term}
    (hps : Gs3.alphaParts rule f = some ps) (hf : f ∈ live es) (hne : ps ≠ [])
    (hm : makeStep cfg rule f t [ps] cs.length (hsOf es) cr d = alphaStep [ps] (hsOf es) cr d tc)
    (htac : tac G (goalOf K es) tc = some [⟨K, hypsFrom K 0 es, c⟩])
    (hi : introsN (newNames (hsOf es) ps) ⟨K, hypsFrom K 0 es, c⟩ = some (goalOf K (es ++ ps.map some)))
    (hl : cs.length = 1) (hv : Gs3.validL [live es ++ ps] cs = true) (hr : readyL cfg G C cr cs = true) :
    StepOk cfg G rule f t [ps] cs K cr d es := by
  refine ⟨[tc, .intros (newNames (hsOf es) ps)], [es ++ ps.map some], cr, d, K, C, ?_, Nat.le_refl _, ?_, by simp [hl], ?_, hr, ?_⟩
  · rw [hm]; simp [alphaStep, hsOf_append]
  · intro rest gs
    exact run_intros (ts := [tc]) hne (fun rest gs' => by simp [run, htac]) hi rest gs
  · simpa [live_append] using hv
  · intro e he
    rw [List.mem_singleton.1 he]
    exact hI.append (fun g hg p hp => hI.parts hf (alpha_funs hps hg hp))

theorem lem_tac {l : Lem} {i : Nat} {f c : Form} (hk : lookup (goalOf K es) i = some (rocqForm K f))
    (h : lemGoals l (rocqForm K f) = some [c]) :
    tac G (goalOf K es) (.lem l i) = some [⟨K, hypsFrom K 0 es, c⟩] := by
  simp only [tac, hk]
  simp [goalOf, h]

/-- The loop over the two children of a beta step. -/
theorem betaLoop_two {hs a b : List Form} :
    betaLoop [a, b] hs (List.range 2) = some ([newNames hs a, newNames hs b], [hs ++ a, hs ++ b]) := by
  simp [betaLoop, List.range_succ_eq_map]

/-- A beta step, given the premises of its lemma. -/
theorem betaStep_ok (hI : Inv cfg G d K C cr es) {f : Form} {rule : Rule} {a b : List Form} {cs : List Tree} {l : Lem} {i : Nat}
    {t : Option Term}
    (hps : Gs3.betaParts rule f = some [a, b]) (hf : f ∈ live es) (ha : a ≠ []) (hb : b ≠ [])
    (hk : lookup (goalOf K es) i = some (rocqForm K f))
    (hm : makeStep cfg rule f t [a, b] cs.length (hsOf es) cr d = betaStep [a, b] cs.length (hsOf es) cr d i l)
    (hg : lemGoals l (rocqForm K f) =
      some [impChain (a.map (rocqForm K)) .bot, impChain (b.map (rocqForm K)) .bot])
    (hl : cs.length = 2) (hv : Gs3.validL ([a, b].map (live es ++ ·)) cs = true) (hr : readyL cfg G C cr cs = true) :
    StepOk cfg G rule f t [a, b] cs K cr d es := by
  refine ⟨[.branch l i [newNames (hsOf es) a, newNames (hsOf es) b]], [es ++ a.map some, es ++ b.map some], cr, d, K, C, ?_,
    Nat.le_refl _, ?_, by simp [hl], ?_, hr, ?_⟩
  · rw [hm, hl, betaStep, betaLoop_two]; simp [hsOf_append]
  · intro rest gs
    simp only [List.cons_append, List.nil_append, run, tac, hk]
    simp only [goalOf, hg, List.any_cons, List.any_nil, newNames_ne ha, newNames_ne hb, Bool.or_self, introsBranches,
      Bool.false_eq_true, if_false]
    rw [intros_goalOf, intros_goalOf]
    simp [goalOf]
  · simpa [live_append] using hv
  · intro e he
    simp only [List.mem_cons, List.not_mem_nil, or_false] at he
    rcases he with rfl | rfl
    · exact hI.append (fun g hg p hp => hI.parts hf (beta_funs hps (by simp) hg hp))
    · exact hI.append (fun g hg p hp => hI.parts hf (beta_funs hps (by simp) hg hp))

/-- The instance as Rocq builds it. -/
theorem rocq_instance {x : Nat} {b g : Form} {u : Term} (hi : Gs3.isInstance x b (some u) g = true) :
    rocqForm K g = put x (rocqTerm K u) (rocqForm K b) := by
  simp only [Gs3.isInstance, Bool.and_eq_true, decide_eq_true_eq, List.isEmpty_iff] at hi
  obtain ⟨⟨hx, hb⟩, hu, rfl⟩ := hi
  exact rocqForm_replace hx hb (fun e => by rw [e] at hu; simp [Term.vars] at hu)

theorem rocq_instance_none {x : Nat} {b g : Form} {u : Term} (hi : Gs3.isInstance x b none g = true) :
    rocqForm K g = put x u (rocqForm K b) := by
  simp only [Gs3.isInstance, Bool.and_eq_true, decide_eq_true_eq] at hi
  obtain ⟨_, hx, rfl⟩ := hi
  rw [put_absent hx]

theorem repl_funsT {x : Nat} {u t : Term} {p : Nat} (h : p ∈ (replT (.var x) u t).1.funs) : p ∈ t.funs ∨ p ∈ u.funs := by
  induction t using Term.ind with
  | var i =>
    rw [replT_var_fst] at h
    split at h
    · exact .inr h
    · exact .inl h
  | mv i =>
    simp only [replT] at h
    split at h
    · exact .inr h
    · exact .inl h
  | fn q tys args ih =>
    rw [replT_fn_fst] at h
    split at h
    · exact .inr h
    · simp only [Term.funs, List.mem_cons, Term.mem_funsL, List.mem_map] at h ⊢
      rcases h with h | ⟨_, ⟨a, ha, rfl⟩, h⟩
      · exact .inl (.inl h)
      · exact (ih a ha h).imp (fun h => .inr ⟨a, ha, h⟩) id

theorem repl_funs {x : Nat} {u : Term} {f : Form} {p : Nat} (h : p ∈ (f.replaceTermByTerm (.var x) u).1.funs) :
    p ∈ f.funs ∨ p ∈ u.funs := by
  induction f using Form.ind with
  | pred q tys args =>
    simp only [Form.replaceTermByTerm, Form.funs, replTL_fst, Term.mem_funsL, List.mem_map] at h ⊢
    obtain ⟨_, ⟨a, ha, rfl⟩, h⟩ := h
    exact (repl_funsT h).imp (fun h => ⟨a, ha, h⟩) id
  | top => exact .inl h
  | bot => exact .inl h
  | neg f ih => exact ih h
  | and fs ih =>
    simp only [Form.replaceTermByTerm, Form.funs, Form.replaceTermByTermL_fst, Form.mem_funsL, List.mem_map] at h ⊢
    obtain ⟨_, ⟨a, ha, rfl⟩, h⟩ := h
    exact (ih a ha h).imp (fun h => ⟨a, ha, h⟩) id
  | or fs ih =>
    simp only [Form.replaceTermByTerm, Form.funs, Form.replaceTermByTermL_fst, Form.mem_funsL, List.mem_map] at h ⊢
    obtain ⟨_, ⟨a, ha, rfl⟩, h⟩ := h
    exact (ih a ha h).imp (fun h => ⟨a, ha, h⟩) id
  | imp f g ihf ihg =>
    simp only [Form.replaceTermByTerm, Form.funs, List.mem_append] at h ⊢
    rcases h with h | h
    · exact (ihf h).imp .inl id
    · exact (ihg h).imp .inr id
  | equ f g ihf ihg =>
    simp only [Form.replaceTermByTerm, Form.funs, List.mem_append] at h ⊢
    rcases h with h | h
    · exact (ihf h).imp .inl id
    · exact (ihg h).imp .inr id
  | all vs f ih => exact ih h
  | ex vs f ih => exact ih h

theorem instance_funs {x : Nat} {b g : Form} {t : Option Term} (hi : Gs3.isInstance x b t g = true) {p : Nat}
    (hp : p ∈ g.funs) : p ∈ b.funs ∨ ∃ u, t = some u ∧ p ∈ u.funs := by
  simp only [Gs3.isInstance, Bool.and_eq_true, decide_eq_true_eq] at hi
  cases t with
  | none =>
    simp only [Bool.and_eq_true, decide_eq_true_eq] at hi
    rw [hi.2.2] at hp
    exact .inl hp
  | some u =>
    simp only [Bool.and_eq_true, decide_eq_true_eq] at hi
    rw [hi.2.2] at hp
    exact (repl_funs hp).imp id (fun h => ⟨u, rfl, h⟩)

theorem rocq_all_rest {vs : List TVar} {f : Form} :
    rocqForm K (if vs.isEmpty then f else .all vs f) = allRest vs (rocqForm K f) := by
  unfold allRest; split <;> rfl

theorem rocq_ex_rest {vs : List TVar} {f : Form} :
    rocqForm K (if vs.isEmpty then f else .ex vs f) = exRest vs (rocqForm K f) := by
  unfold exRest; split <;> rfl

/-- The term of a gamma step and the instance that Rocq builds with it. -/
theorem gamma_term (hE : Env cfg G) (hI : Inv cfg G d K C cr es) {t : Option Term} {x : Nat} {b g : Form}
    (ht : t.all (okTerm cfg G C cr) = true) (hi : Gs3.isInstance x b t g = true) :
    inScope G K (realName cfg cr t) = true ∧ rocqForm K g = put x (realName cfg cr t) (rocqForm K b) ∧
      ∀ u, t = some u → ∀ q ∈ u.funs, q ∈ G ∨ cfg.sko q = true := by
  cases t with
  | none =>
    refine ⟨?_, rocq_instance_none hi, by simp⟩
    simp only [realName, inScope, if_neg (hI.not_K hE hE.ind hE.indSko)]
    simp [hE.ind, inScopeL]
  | some u =>
    simp only [Option.all_some] at ht
    obtain ⟨h1, h2, h3⟩ := okTerm_real hE hI ht
    refine ⟨?_, ?_, ?_⟩
    · simp only [realName]; rw [h1]; exact h2
    · simp only [realName]; rw [h1]; exact rocq_instance hi
    · intro v hv; cases hv; exact h3

/-- A gamma step, given the effect of its tactics. -/
theorem gammaStep_ok (hE : Env cfg G) (hI : Inv cfg G d K C cr es) {f b g : Form} {x : Nat} {rule : Rule} {cs : List Tree}
    {tcs : Term → List Tac} {c : Form} {t : Option Term}
    (hq : Gs3.quantParts rule f = some (x, b)) (hf : f ∈ live es) (hi : Gs3.isInstance x b t g = true)
    (hok : t.all (okTerm cfg G C cr) = true)
    (hm : makeStep cfg rule f t [[g]] cs.length (hsOf es) cr d = gammaStep cfg [[g]] t (hsOf es) cr d tcs)
    (htac : ∀ rest gs', run G (tcs (realName cfg cr t) ++ rest) (goalOf K es :: gs') =
      run G rest (⟨K, hypsFrom K 0 es, c⟩ :: gs'))
    (hin : introsN (newNames (hsOf es) [g]) ⟨K, hypsFrom K 0 es, c⟩ = some (goalOf K (es ++ [g].map some)))
    (hl : cs.length = 1) (hv : Gs3.validL [live es ++ [g]] cs = true) (hr : readyL cfg G C cr cs = true) :
    StepOk cfg G rule f t [[g]] cs K cr d es := by
  obtain ⟨_, _, hs⟩ := gamma_term hE hI hok hi
  refine ⟨tcs (realName cfg cr t) ++ [.intros (newNames (hsOf es) [g])], [es ++ [g].map some], cr, d, K, C, ?_, Nat.le_refl _, ?_,
    by simp [hl], ?_, hr, ?_⟩
  · rw [hm]; simp only [gammaStep, List.getElem?_cons_zero, List.map_cons, List.map_nil, hsOf_append]
  · intro rest gs
    exact run_intros (ts := tcs (realName cfg cr t)) (by simp) htac hin rest gs
  · rw [List.map_cons, List.map_nil, live_append]; exact hv
  · intro e he
    rw [List.mem_singleton.1 he]
    refine hI.append (fun k hk p hp => ?_)
    rw [List.mem_singleton.1 hk] at hp
    rcases instance_funs hi hp with h | ⟨u, hu, h⟩
    · rw [Gs3.quantParts_funs hq] at h; exact hI.parts hf h
    · exact hs u hu p h

/-- The constant of a delta step: its name, the state after it, and the instance that Rocq builds with it. -/
theorem delta_term (hE : Env cfg G) (hI : Inv cfg G d K C cr es) {t : Option Term} {x : Nat} {b f g : Form} {cs : List Tree}
    (hf : f ∈ live es) (hbf : b.funs = f.funs) (hr : deltaOk cfg G C t = true ∧ readyL cfg G (C ++ newConst t) (cr ++ newTerm t) cs = true) (hi : Gs3.isInstance x b t g = true)
    (hfr : ∀ p tys args, t = some (.fn p tys args) → p ∉ Form.funsL (live es)) :
    ∃ p cr' d' C', addTerm cfg cr d t = some (p, cr', d') ∧ d ≤ d' ∧ p ∉ K ∧ p ∉ Form.funsL (live es) ∧
      rocqForm (K ++ [p]) g = put x (.fn p [] []) (rocqForm (K ++ [p]) b) ∧ readyL cfg G C' cr' cs = true ∧
      Inv cfg G d' (K ++ [p]) C' cr' (es ++ [some g]) := by
  cases t with
  | none =>
    have hr := hr.2
    simp only [newConst, newTerm, List.append_nil] at hr
    have hpK : cfg.dummy d ∉ K := by
      intro hk
      rcases hI.sup _ hk with hc | ⟨k, hkd, he⟩
      · have := hI.sko _ hc; rw [hE.dummySko] at this; cases this
      · have := hE.dummyInj _ _ he; omega
    have hpL : cfg.dummy d ∉ Form.funsL (live es) := by
      intro hp
      rcases hI.syms _ hp with h | h
      · exact hE.dummyG d h
      · rw [hE.dummySko] at h; cases h
    refine ⟨cfg.dummy d, cr, d + 1, C, rfl, Nat.le_succ d, hpK, hpL, rocq_instance_none hi, hr, ?_⟩
    have hI' : Inv cfg G (d + 1) (K ++ [cfg.dummy d]) C cr es :=
      { hI with
        sub := fun p hp => List.mem_append.2 (.inl (hI.sub p hp))
        sup := fun p hp => by
          rcases List.mem_append.1 hp with hp | hp
          · exact (hI.sup p hp).imp id (fun ⟨k, hk, e⟩ => ⟨k, Nat.lt_succ_of_lt hk, e⟩)
          · exact .inr ⟨d, Nat.lt_succ_self d, List.mem_singleton.1 hp⟩ }
    refine hI'.append (gs := [g]) (fun k hk p hp => ?_)
    rw [List.mem_singleton.1 hk] at hp
    rcases instance_funs hi hp with h | ⟨u, hu, _⟩
    · rw [hbf] at h; exact hI.parts hf h
    · cases hu
  | some u =>
    cases u with
    | var i => simp [deltaOk] at hr
    | mv i => simp [deltaOk] at hr
    | fn p tys args =>
      simp only [deltaOk, newConst, newTerm, Bool.and_eq_true, decide_eq_true_eq, List.all_eq_true, Bool.or_eq_true] at hr
      obtain ⟨⟨⟨hsk, hpC⟩, hargs⟩, hr⟩ := hr
      have hpL := hfr p tys args rfl
      have hpK : p ∉ K := by
        intro hk
        rcases hI.sup _ hk with hc | ⟨k, _, rfl⟩
        · exact hpC hc
        · rw [hE.dummySko] at hsk; cases hsk
      have hu : ∀ q ∈ (Term.fn p tys args).funs, q ∈ G ∨ cfg.sko q = true := by
        intro q hq
        simp only [Term.funs, List.mem_cons] at hq
        rcases hq with rfl | hq
        · exact .inr hsk
        · exact hargs q hq
      refine ⟨p, cr ++ [.fn p tys args], d, C ++ [p], rfl, Nat.le_refl d, hpK, hpL, ?_, hr, ?_⟩
      · have := rocq_instance (K := K ++ [p]) hi
        rw [this]
        simp [rocqTerm]
      · have hI' : Inv cfg G d (K ++ [p]) (C ++ [p]) (cr ++ [.fn p tys args]) es :=
          { hI with
            sub := fun q hq => by
              rcases List.mem_append.1 hq with hq | hq
              · exact List.mem_append.2 (.inl (hI.sub q hq))
              · exact List.mem_append.2 (.inr hq)
            sup := fun q hq => by
              rcases List.mem_append.1 hq with hq | hq
              · exact (hI.sup q hq).imp (fun h => List.mem_append.2 (.inl h)) id
              · exact .inl (List.mem_append.2 (.inr hq))
            sko := fun q hq => by
              rcases List.mem_append.1 hq with hq | hq
              · exact hI.sko q hq
              · rw [List.mem_singleton.1 hq]; exact hsk
            created := fun t ht => by
              rcases List.mem_append.1 ht with ht | ht
              · exact hI.created t ht
              · rw [List.mem_singleton.1 ht]; exact hu }
        refine hI'.append (gs := [g]) (fun k hk q hq => ?_)
        rw [List.mem_singleton.1 hk] at hq
        rcases instance_funs hi hq with h | ⟨v, hv, h⟩
        · rw [hbf] at h; exact hI.parts hf h
        · cases hv; exact hu q h

/-- A delta step, given the effect of its tactics. -/
theorem deltaStep_ok (hE : Env cfg G) (hI : Inv cfg G d K C cr es) {f b g : Form} {x : Nat} {rule : Rule} {cs : List Tree}
    {before after : List Tac} {t : Option Term}
    (hq : Gs3.quantParts rule f = some (x, b)) (hf : f ∈ live es) (hi : Gs3.isInstance x b t g = true)
    (hfr : ∀ p tys args, t = some (.fn p tys args) → p ∉ Form.funsL (live es))
    (hm : makeStep cfg rule f t [[g]] cs.length (hsOf es) cr d = deltaStep cfg [[g]] t (hsOf es) cr d before after)
    (htac : ∀ p, p ∉ K → p ∉ Form.funsL (live es) →
      rocqForm (K ++ [p]) g = put x (.fn p [] []) (rocqForm (K ++ [p]) b) → ∃ c,
      (∀ rest gs', run G (before ++ [.intros [.const p]] ++ after ++ rest) (goalOf K es :: gs') =
        run G rest (⟨K ++ [p], hypsFrom (K ++ [p]) 0 es, c⟩ :: gs')) ∧
      introsN (newNames (hsOf es) [g]) ⟨K ++ [p], hypsFrom (K ++ [p]) 0 es, c⟩ = some (goalOf (K ++ [p]) (es ++ [g].map some)))
    (hl : cs.length = 1) (hv : Gs3.validL [live es ++ [g]] cs = true) (hr : deltaOk cfg G C t = true ∧ readyL cfg G (C ++ newConst t) (cr ++ newTerm t) cs = true) :
    StepOk cfg G rule f t [[g]] cs K cr d es := by
  obtain ⟨p, cr', d', C', hadd, hd, hpK, hpL, hput, hr', hI'⟩ :=
    delta_term hE hI hf (Gs3.quantParts_funs hq) hr hi hfr
  obtain ⟨c, h1, h2⟩ := htac p hpK hpL hput
  refine ⟨before ++ [.intros [.const p]] ++ after ++ [.intros (newNames (hsOf es) [g])], [es ++ [g].map some], cr', d', K ++ [p], C',
    ?_, hd, ?_, by simp [hl], ?_, hr', ?_⟩
  · rw [hm]; simp only [deltaStep, List.getElem?_cons_zero, List.map_cons, List.map_nil, hsOf_append, hadd]
  · intro rest gs
    exact run_intros (by simp) h1 h2 rest gs
  · rw [List.map_cons, List.map_nil, live_append]; exact hv
  · intro e he
    rw [List.mem_singleton.1 he]
    exact hI'


theorem nnot_inv {f : Form} {ps : List Form} (h : Gs3.alphaParts .nnot f = some ps) :
    ∃ k, f = .neg (.neg k) ∧ ps = [k] := by
  unfold Gs3.alphaParts at h; split at h <;> simp_all

theorem nimp_inv {f : Form} {ps : List Form} (h : Gs3.alphaParts .nimp f = some ps) :
    ∃ k l, f = .neg (.imp k l) ∧ ps = [k, .neg l] := by
  unfold Gs3.alphaParts at h; split at h <;> simp_all <;> grind

theorem and_inv {f : Form} {ps : List Form} (h : Gs3.alphaParts .and f = some ps) : f = .and ps := by
  unfold Gs3.alphaParts at h; split at h <;> simp_all

theorem nor_inv {f : Form} {ps : List Form} (h : Gs3.alphaParts .nor f = some ps) :
    ∃ fs, f = .neg (.or fs) ∧ ps = fs.map .neg := by
  unfold Gs3.alphaParts at h; split at h <;> simp_all

theorem nand_inv {f : Form} {ps : List (List Form)} (h : Gs3.betaParts .nand f = some ps) :
    ∃ fs, f = .neg (.and fs) ∧ ps = fs.map fun k => [.neg k] := by
  unfold Gs3.betaParts at h; split at h <;> simp_all

theorem or_inv {f : Form} {ps : List (List Form)} (h : Gs3.betaParts .or f = some ps) :
    ∃ fs, f = .or fs ∧ ps = fs.map fun k => [k] := by
  unfold Gs3.betaParts at h; split at h <;> simp_all

theorem nequ_inv {f : Form} {ps : List (List Form)} (h : Gs3.betaParts .nequ f = some ps) :
    ∃ k l, f = .neg (.equ k l) ∧ ps = [[.neg k, l], [k, .neg l]] := by
  unfold Gs3.betaParts at h; split at h <;> simp_all <;> grind

theorem imp_inv {f : Form} {ps : List (List Form)} (h : Gs3.betaParts .imp f = some ps) :
    ∃ k l, f = .imp k l ∧ ps = [[.neg k], [l]] := by
  unfold Gs3.betaParts at h; split at h <;> simp_all <;> grind

theorem equ_inv {f : Form} {ps : List (List Form)} (h : Gs3.betaParts .equ f = some ps) :
    ∃ k l, f = .equ k l ∧ ps = [[.neg k, .neg l], [k, l]] := by
  unfold Gs3.betaParts at h; split at h <;> simp_all <;> grind

theorem all_inv {f b : Form} {x : Nat} (h : Gs3.quantParts .all f = some (x, b)) :
    ∃ v vs k, f = .all (v :: vs) k ∧ x = v.index ∧ b = if vs.isEmpty then k else .all vs k := by
  unfold Gs3.quantParts at h; split at h <;> simp_all <;> grind

theorem nex_inv {f b : Form} {x : Nat} (h : Gs3.quantParts .nex f = some (x, b)) :
    ∃ v vs k, f = .neg (.ex (v :: vs) k) ∧ x = v.index ∧ b = .neg (if vs.isEmpty then k else .ex vs k) := by
  unfold Gs3.quantParts at h; split at h <;> simp_all <;> grind

theorem ex_inv {f b : Form} {x : Nat} (h : Gs3.quantParts .ex f = some (x, b)) :
    ∃ v vs k, f = .ex (v :: vs) k ∧ x = v.index ∧ b = if vs.isEmpty then k else .ex vs k := by
  unfold Gs3.quantParts at h; split at h <;> simp_all <;> grind

theorem nall_inv {f b : Form} {x : Nat} (h : Gs3.quantParts .nall f = some (x, b)) :
    ∃ v vs k, f = .neg (.all (v :: vs) k) ∧ x = v.index ∧ b = .neg (if vs.isEmpty then k else .all vs k) := by
  unfold Gs3.quantParts at h; split at h <;> simp_all <;> grind

theorem valid_alpha {rule : Rule} {Γ : List Form} {f : Form} {t : Option Term} {forms : List (List Form)} {cs : List Tree}
    (ha : rule.isAlpha = true) (hv : Gs3.valid Γ (.node rule f t forms cs) = true)
    (hforms : forms = (Gs3.alphaParts rule f).toList) :
    ∃ ps, Gs3.alphaParts rule f = some ps ∧ forms = [ps] ∧ cs.length = 1 ∧ Gs3.validL [Γ ++ ps] cs = true := by
  simp only [Gs3.valid, Bool.and_eq_true, decide_eq_true_eq] at hv
  have h2 := hv.2
  split at h2
  · cases ha
  · cases ha
  · cases ha
  · rw [if_pos ha] at h2
    split at h2
    · rename_i ps gs hps
      simp only [hps, Option.toList, List.cons.injEq, and_true] at hforms
      subst hforms
      simp only [Bool.and_eq_true, beq_iff_eq] at h2
      exact ⟨_, hps, rfl, h2.1.2, h2.2⟩
    · cases h2

theorem valid_beta {rule : Rule} {Γ : List Form} {f : Form} {t : Option Term} {forms : List (List Form)} {cs : List Tree}
    (ha : rule.isAlpha = false) (hb : rule.isBeta = true) (hv : Gs3.valid Γ (.node rule f t forms cs) = true) :
    Gs3.betaParts rule f = some forms ∧ cs.length = forms.length ∧ Gs3.validL (forms.map (Γ ++ ·)) cs = true := by
  simp only [Gs3.valid, Bool.and_eq_true, decide_eq_true_eq] at hv
  have h2 := hv.2
  split at h2
  · cases hb
  · cases hb
  · cases hb
  · rw [if_neg (by simp [ha]), if_pos hb] at h2
    split at h2
    · rename_i ps hps
      simp only [Bool.and_eq_true, beq_iff_eq, decide_eq_true_eq] at h2
      obtain ⟨⟨rfl, h3⟩, h4⟩ := h2
      exact ⟨hps, h3, h4⟩
    · cases h2

theorem valid_quant {rule : Rule} {Γ : List Form} {f : Form} {t : Option Term} {forms : List (List Form)} {cs : List Tree}
    (hq : rule.isGamma = true ∨ rule.isDelta = true) (hv : Gs3.valid Γ (.node rule f t forms cs) = true) :
    ∃ x b g, Gs3.quantParts rule f = some (x, b) ∧ forms = [[g]] ∧ Gs3.isInstance x b t g = true ∧
      (rule.isDelta = true → ∀ p tys args, t = some (.fn p tys args) → p ∉ Form.funsL Γ) ∧
      cs.length = 1 ∧ Gs3.validL [Γ ++ [g]] cs = true := by
  simp only [Gs3.valid, Bool.and_eq_true, decide_eq_true_eq] at hv
  have h2 := hv.2
  split at h2
  · simp [Rule.isGamma, Rule.isDelta] at hq
  · simp [Rule.isGamma, Rule.isDelta] at hq
  · simp [Rule.isGamma, Rule.isDelta] at hq
  · rw [if_neg (by cases rule <;> simp_all [Rule.isGamma, Rule.isDelta, Rule.isAlpha]),
      if_neg (by cases rule <;> simp_all [Rule.isGamma, Rule.isDelta, Rule.isBeta])] at h2
    split at h2
    · rename_i x b g hp
      simp only [Bool.and_eq_true, beq_iff_eq] at h2
      obtain ⟨⟨⟨h3, h4⟩, h5⟩, h6⟩ := h2
      refine ⟨x, b, g, hp, rfl, h3, ?_, h5, h6⟩
      rintro hd p tys args rfl
      simpa [hd] using h4
    · cases h2

theorem tac_apply {i : Nat} {a : Form} (hk : lookup (goalOf K es) i = some (.neg a)) :
    tac G (goalOf K es) (.apply i) = some [⟨K, hypsFrom K 0 es, a⟩] := by
  simp only [tac, hk]; rfl

theorem length_two {α : Type} {l : List α} (h : l.length = 2) : ∃ a b, l = [a, b] := by
  match l, h with
  | [a, b], _ => exact ⟨a, b, rfl⟩

/-- Each step of a valid and ready refutation works. -/
theorem step_ok (hE : Env cfg G) (hI : Inv cfg G d K C cr es) {rule : Rule} {f : Form} {t : Option Term}
    {forms : List (List Form)} {cs : List Tree} (hax : rule ≠ .ax)
    (hv : Gs3.valid (live es) (.node rule f t forms cs) = true) (hr : ready cfg G C cr (.node rule f t forms cs) = true) :
    StepOk cfg G rule f t forms cs K cr d es := by
  have hv0 := hv
  simp only [Gs3.valid, Bool.and_eq_true, decide_eq_true_eq] at hv
  obtain ⟨hf, hv⟩ := hv
  cases rule with
  | ax => exact absurd rfl hax
  | r => simp at hv
  | w =>
    cases t with
    | none =>
      simp only [ready, Bool.and_eq_true, beq_iff_eq, decide_eq_true_eq] at hr hv
      obtain ⟨htop, hr⟩ := hr
      obtain ⟨i, hi, he, hk⟩ := find_live (K := K) hf htop
      have hlive := live_set he (indexOf_live htop hi).2
      refine ⟨[.clear (.hyp i)], [es.set i none], cr, d, K, C, ?_, Nat.le_refl _, ?_, by simp [hv.1], ?_, hr, ?_⟩
      · simp only [makeStep, hi, weakenStep, hsOf_set, List.map_cons, List.map_nil]
      · intro rest gs
        have hm : i ∈ (hypsFrom K 0 es).map (·.1) :=
          List.mem_map.2 ⟨(i, rocqForm K f), mem_hypsFrom.2 ⟨f, rfl, i, he, by omega⟩, rfl⟩
        have hs := hypsFrom_set (K := K) (k := 0) (i := i) (es := es)
        rw [Nat.zero_add] at hs
        simp only [List.cons_append, List.nil_append, run, tac, goalOf, if_pos hm, List.map_cons, List.map_nil, hs]
      · rw [List.map_cons, List.map_nil, hlive]; exact hv.2
      · intro e hee
        rw [List.mem_singleton.1 hee]
        exact { hI with
          syms := fun p hp => by
            rw [hlive] at hp
            obtain ⟨g, hg, hp⟩ := Form.mem_funsL.1 hp
            exact hI.parts (List.mem_of_mem_erase hg) hp }
    | some u =>
      cases u with
      | var i => simp [ready] at hr
      | mv i => simp [ready] at hr
      | fn p tys args =>
        simp only [ready, Bool.and_eq_true, beq_iff_eq, decide_eq_true_eq, Term.funs, List.head?_cons, Option.all_some] at hr hv
        obtain ⟨hpC, hr⟩ := hr
        obtain ⟨⟨hpL, hl⟩, hv⟩ := hv
        obtain ⟨i, hi⟩ := indexOf_mem hf
        have hpK := hI.sub p hpC
        have hcong : hypsFrom K 0 es = hypsFrom (K.filter (· != p)) 0 es :=
          hypsFrom_congr (fun q hq => by
            have : q ≠ p := fun e => hpL (e ▸ hq)
            simp [this])
        refine ⟨[.clear (.const p)], [es], cr, d, K.filter (· != p), C.filter (· != p), ?_, Nat.le_refl _, ?_, by simp [hl], hv, hr, ?_⟩
        · simp only [makeStep, hi, weakenStep, List.map_cons, List.map_nil]
        · intro rest gs
          have hp' : p ∉ Form.funsL ((hypsFrom K 0 es).map (·.2)) := fun h => hpL (hypsFrom_funs h)
          have hc : p ∈ K ∧ p ∉ Form.funsL ((hypsFrom K 0 es).map (·.2)) ∧ p ∉ Form.funs .bot := ⟨hpK, hp', by simp [Form.funs]⟩
          simp only [List.cons_append, List.nil_append, run, tac, goalOf, if_pos hc, List.map_cons, List.map_nil]
          rw [← hcong]
        · intro e hee
          rw [List.mem_singleton.1 hee]
          exact { hI with
            sub := fun q hq => by
              have := List.mem_filter.1 hq
              exact List.mem_filter.2 ⟨hI.sub q this.1, this.2⟩
            sup := fun q hq => by
              have := List.mem_filter.1 hq
              exact (hI.sup q this.1).imp (fun h => List.mem_filter.2 ⟨h, this.2⟩) id
            sko := fun q hq => hI.sko q (List.mem_filter.1 hq).1 }
  | nnot =>
    simp only [ready, Bool.and_eq_true, decide_eq_true_eq] at hr
    obtain ⟨ps, hps, rfl, hl, hw⟩ := valid_alpha rfl hv0 hr.1
    obtain ⟨k, rfl, rfl⟩ := nnot_inv hps
    obtain ⟨i, hi, he, hk⟩ := find_live (K := K) hf (by simp)
    exact alphaStep_ok (tc := .apply i) (c := .neg (rocqForm K k)) hI rfl hf (by simp)
      (by simp only [makeStep, hi]) (tac_apply hk) introNeg_goalOf hl hw hr.2
  | nimp =>
    simp only [ready, Bool.and_eq_true, decide_eq_true_eq] at hr
    obtain ⟨ps, hps, rfl, hl, hw⟩ := valid_alpha rfl hv0 hr.1
    obtain ⟨k, l, rfl, rfl⟩ := nimp_inv hps
    obtain ⟨i, hi, he, hk⟩ := find_live (K := K) hf (by simp)
    exact alphaStep_ok (tc := .lem .notimply i) hI hps hf (by simp)
      (by simp only [makeStep, hi]) (lem_tac hk rfl) intros_goalOf hl hw hr.2
  | and =>
    simp only [ready, Bool.and_eq_true, decide_eq_true_eq] at hr
    obtain ⟨ps, hps, rfl, hl, hw⟩ := valid_alpha rfl hv0 hr.1.1
    cases and_inv hps
    obtain ⟨a, b, rfl⟩ := length_two (l := ps) (by simpa using hr.1.2)
    obtain ⟨i, hi, he, hk⟩ := find_live (K := K) hf (by simp)
    exact alphaStep_ok (tc := .lem .and i) hI hps hf (by simp)
      (by simp only [makeStep, hi]) (lem_tac hk rfl) intros_goalOf hl hw hr.2
  | nor =>
    simp only [ready, Bool.and_eq_true, decide_eq_true_eq] at hr
    obtain ⟨ps, hps, rfl, hl, hw⟩ := valid_alpha rfl hv0 hr.1.1
    obtain ⟨fs, rfl, rfl⟩ := nor_inv hps
    obtain ⟨a, b, rfl⟩ := length_two (l := fs) (by simpa using hr.1.2)
    obtain ⟨i, hi, he, hk⟩ := find_live (K := K) hf (by simp)
    exact alphaStep_ok (tc := .lem .notor i) hI hps hf (by simp)
      (by simp only [makeStep, hi]) (lem_tac hk rfl) intros_goalOf hl hw hr.2
  | nand =>
    simp only [ready, Bool.and_eq_true, beq_iff_eq] at hr
    obtain ⟨hps, hl, hw⟩ := valid_beta rfl rfl hv0
    obtain ⟨fs, rfl, rfl⟩ := nand_inv hps
    obtain ⟨a, b, rfl⟩ := length_two (l := fs) (by simpa using hr.1)
    obtain ⟨i, hi, he, hk⟩ := find_live (K := K) hf (by simp)
    exact betaStep_ok (l := .notand) hI hps hf (by simp) (by simp) hk (by simp only [makeStep, hi]) rfl hl hw hr.2
  | or =>
    simp only [ready, Bool.and_eq_true, beq_iff_eq] at hr
    obtain ⟨hps, hl, hw⟩ := valid_beta rfl rfl hv0
    obtain ⟨fs, rfl, rfl⟩ := or_inv hps
    obtain ⟨a, b, rfl⟩ := length_two (l := fs) (by simpa using hr.1)
    obtain ⟨i, hi, he, hk⟩ := find_live (K := K) hf (by simp)
    exact betaStep_ok (l := .or) hI hps hf (by simp) (by simp) hk (by simp only [makeStep, hi]) rfl hl hw hr.2
  | nequ =>
    simp only [ready] at hr
    obtain ⟨hps, hl, hw⟩ := valid_beta rfl rfl hv0
    obtain ⟨a, b, rfl, rfl⟩ := nequ_inv hps
    obtain ⟨i, hi, he, hk⟩ := find_live (K := K) hf (by simp)
    exact betaStep_ok (l := .notequiv) hI hps hf (by simp) (by simp) hk (by simp only [makeStep, hi]) rfl hl hw hr
  | imp =>
    simp only [ready] at hr
    obtain ⟨hps, hl, hw⟩ := valid_beta rfl rfl hv0
    obtain ⟨a, b, rfl, rfl⟩ := imp_inv hps
    obtain ⟨i, hi, he, hk⟩ := find_live (K := K) hf (by simp)
    exact betaStep_ok (l := .imply) hI hps hf (by simp) (by simp) hk (by simp only [makeStep, hi]) rfl hl hw hr
  | equ =>
    simp only [ready] at hr
    obtain ⟨hps, hl, hw⟩ := valid_beta rfl rfl hv0
    obtain ⟨a, b, rfl, rfl⟩ := equ_inv hps
    obtain ⟨i, hi, he, hk⟩ := find_live (K := K) hf (by simp)
    exact betaStep_ok (l := .equiv) hI hps hf (by simp) (by simp) hk (by simp only [makeStep, hi]) rfl hl hw hr
  | all =>
    simp only [ready, Bool.and_eq_true] at hr
    obtain ⟨x, b, g, hq, rfl, hi, _, hl, hw⟩ := valid_quant (.inl rfl) hv0
    obtain ⟨v, vs, k, rfl, rfl, rfl⟩ := all_inv hq
    obtain ⟨i, hix, he, hk⟩ := find_live (K := K) hf (by simp)
    obtain ⟨hs, hg, _⟩ := gamma_term hE hI hr.1 hi
    refine gammaStep_ok (tcs := fun u => [.generalize i u]) (c := .imp (rocqForm K g) .bot) hE hI hq hf hi hr.1
      (by simp only [makeStep, hix]) ?_ (intros_goalOf (gs := [g])) hl hw hr.2
    intro rest gs'
    simp only [rocqForm] at hk
    rw [rocq_all_rest] at hg
    simp only [List.cons_append, List.nil_append, run, tac, hk]
    rw [if_pos (show inScope G (goalOf K es).consts _ = true from hs), hg]
    rfl
  | nex =>
    simp only [ready, Bool.and_eq_true] at hr
    obtain ⟨x, b, g, hq, rfl, hi, _, hl, hw⟩ := valid_quant (.inl rfl) hv0
    obtain ⟨v, vs, k, rfl, rfl, rfl⟩ := nex_inv hq
    obtain ⟨i, hix, he, hk⟩ := find_live (K := K) hf (by simp)
    obtain ⟨hs, hg, _⟩ := gamma_term hE hI hr.1 hi
    refine gammaStep_ok (tcs := fun u => [.apply i, .exists_ u, .nnpp]) (c := .neg (rocqForm K g)) hE hI hq hf hi hr.1
      (by simp only [makeStep, hix]) ?_ introNeg_goalOf hl hw hr.2
    intro rest gs'
    simp only [rocqForm] at hk hg
    rw [rocq_ex_rest] at hg
    simp only [List.cons_append, List.nil_append, run, tac_apply hk]
    simp only [tac]
    rw [if_pos hs, hg]
    rfl
  | ex =>
    simp only [ready, Bool.and_eq_true] at hr
    obtain ⟨x, b, g, hq, rfl, hi, hfr, hl, hw⟩ := valid_quant (.inr rfl) hv0
    obtain ⟨v, vs, k, rfl, rfl, rfl⟩ := ex_inv hq
    obtain ⟨i, hix, he, hk⟩ := find_live (K := K) hf (by simp)
    refine deltaStep_ok (before := [.elim i]) (after := []) hE hI hq hf hi (hfr rfl)
      (by simp only [makeStep, hix]) ?_ hl hw hr
    intro p hpK hpL hg
    refine ⟨.imp (rocqForm (K ++ [p]) g) .bot, ?_, intros_goalOf (gs := [g])⟩
    intro rest gs'
    have hpk : p ∉ k.funs := fun h => hpL (Form.mem_funsL.2 ⟨_, hf, h⟩)
    have hkc : rocqForm (K ++ [p]) k = rocqForm K k := rocqForm_congr (fun q hq => by
      have : q ≠ p := fun e => hpk (e ▸ hq)
      simp [this])
    have hcong : hypsFrom (K ++ [p]) 0 es = hypsFrom K 0 es := hypsFrom_congr (fun q hq => by
      have : q ≠ p := fun e => hpL (e ▸ hq)
      simp [this])
    simp only [rocqForm] at hk
    rw [rocq_ex_rest, hkc] at hg
    have hp1 : p ∉ Form.funsL ((hypsFrom K 0 es).map (·.2)) := fun h => hpL (hypsFrom_funs h)
    have hp2 : p ∉ (Form.all [v] (.imp (exRest vs (rocqForm K k)) .bot)).funs := by
      simp only [Form.funs, List.append_nil]
      intro h
      refine hpk (rocqForm_funs (K := K) ?_)
      unfold exRest at h
      split at h <;> exact h
    have hc : ¬ (p ∈ K ∨ p ∈ Form.funsL ((hypsFrom K 0 es).map (·.2)) ∨
        p ∈ (Form.all [v] (.imp (exRest vs (rocqForm K k)) .bot)).funs) := by
      rintro (h | h | h)
      · exact hpK h
      · exact hp1 h
      · exact hp2 h
    simp only [List.cons_append, List.nil_append, List.append_nil, run, tac, hk]
    simp only [goalOf, List.isEmpty_cons, Bool.false_eq_true, if_false, introsN, intro1, if_neg hc, Option.map_some,
      List.cons_append, List.nil_append, run, tac]
    rw [hcong, hg]
    rfl
  | nall =>
    simp only [ready, Bool.and_eq_true] at hr
    obtain ⟨x, b, g, hq, rfl, hi, hfr, hl, hw⟩ := valid_quant (.inr rfl) hv0
    obtain ⟨v, vs, k, rfl, rfl, rfl⟩ := nall_inv hq
    obtain ⟨i, hix, he, hk⟩ := find_live (K := K) hf (by simp)
    refine deltaStep_ok (before := [.apply i]) (after := [.nnpp]) hE hI hq hf hi (hfr rfl)
      (by simp only [makeStep, hix]) ?_ hl hw hr
    intro p hpK hpL hg
    refine ⟨.neg (rocqForm (K ++ [p]) g), ?_, introNeg_goalOf⟩
    intro rest gs'
    have hpk : p ∉ k.funs := fun h => hpL (Form.mem_funsL.2 ⟨_, hf, h⟩)
    have hkc : rocqForm (K ++ [p]) k = rocqForm K k := rocqForm_congr (fun q hq => by
      have : q ≠ p := fun e => hpk (e ▸ hq)
      simp [this])
    have hcong : hypsFrom (K ++ [p]) 0 es = hypsFrom K 0 es := hypsFrom_congr (fun q hq => by
      have : q ≠ p := fun e => hpL (e ▸ hq)
      simp [this])
    simp only [rocqForm] at hk hg
    rw [rocq_all_rest, hkc] at hg
    have hp1 : p ∉ Form.funsL ((hypsFrom K 0 es).map (·.2)) := fun h => hpL (hypsFrom_funs h)
    have hc : ¬ (p ∈ K ∨ p ∈ Form.funsL ((hypsFrom K 0 es).map (·.2)) ∨
        p ∈ (Form.all (v :: vs) (rocqForm K k)).funs) := by
      rintro (h | h | h)
      · exact hpK h
      · exact hp1 h
      · exact hpk (rocqForm_funs h)
    simp only [List.cons_append, List.nil_append, run, tac_apply hk]
    simp only [tac, List.isEmpty_cons, Bool.false_eq_true, if_false, introsN, intro1, if_neg hc, Option.map_some,
      List.cons_append, List.nil_append, run]
    rw [hcong, hg]
    rfl

end

mutual
/-- The script of a refutation closes its goal and leaves the others. -/
theorem follow_ok {cfg : Cfg} {G : List Nat} (hE : Env cfg G) : ∀ (T : Tree) {K C : List Nat} {cr : List Term} {d : Nat}
    {es : List (Option Form)}, Inv cfg G d K C cr es → Gs3.valid (live es) T = true → ready cfg G C cr T = true →
    ∃ tacs d', follow cfg T (hsOf es) cr d = some (tacs, d') ∧ d ≤ d' ∧
      ∀ rest gs, run G (tacs ++ rest) (goalOf K es :: gs) = run G rest gs
  | .hole cs, K, C, cr, d, es, hI, hv, hr => by
    simp only [Gs3.valid, Bool.and_eq_true, beq_iff_eq] at hv
    simp only [ready] at hr
    match cs, hv with
    | [c], hv =>
      obtain ⟨tacs, d', h1, h2, h3⟩ := followL_ok hE [c] (ess := [es]) (K := K) (d := d) (by simpa using hI) rfl hv.2 hr
      exact ⟨tacs, d', h1, h2, h3⟩
  | .node rule f t forms cs, K, C, cr, d, es, hI, hv, hr => by
    by_cases hax : rule = .ax
    · subst hax
      simp only [Gs3.valid, Bool.and_eq_true, decide_eq_true_eq, List.isEmpty_iff] at hv
      obtain ⟨hf, hcl, rfl⟩ := hv
      obtain ⟨i, hi⟩ := indexOf_mem hf
      have hmem : ∀ k, k ∈ live es → rocqForm K k ∈ (hypsFrom K 0 es).map (·.2) := by
        intro k hk
        obtain ⟨o, ho, hok⟩ := List.mem_filterMap.1 hk
        simp only [id] at hok
        subst hok
        obtain ⟨j, hj⟩ := List.mem_iff_getElem?.1 ho
        exact List.mem_map.2 ⟨(j, rocqForm K k), mem_hypsFrom.2 ⟨k, rfl, j, hj, by omega⟩, rfl⟩
      have hcon : contradictory ((hypsFrom K 0 es).map (·.2)) = true := by
        simp only [Gs3.closes, Bool.and_eq_true, Bool.or_eq_true, decide_eq_true_eq] at hcl
        simp only [contradictory, List.any_eq_true, Bool.or_eq_true, decide_eq_true_eq]
        rcases hcl.2 with ((rfl | rfl) | h) | h
        · exact ⟨_, hmem _ hf, .inl (.inl rfl)⟩
        · exact ⟨_, hmem _ hf, .inl (.inr rfl)⟩
        · exact ⟨_, hmem _ hf, .inr (hmem _ h)⟩
        · split at h
          · simp only [decide_eq_true_eq] at h
            exact ⟨_, hmem _ h, .inr (hmem _ hf)⟩
          · cases h
      refine ⟨[if isPredEqual cfg f then .congruence else .auto], d, ?_, Nat.le_refl _, ?_⟩
      · simp only [follow, makeStep, hi, followL, List.append_nil]
      · intro rest gs
        split <;> simp [run, tac, goalOf, hcon]
    · obtain ⟨tacs, ess, cr', d', K', C', h1, h2, h3, h4, h5, h6, h7⟩ := step_ok hE hI hax hv hr
      obtain ⟨tacs', d'', h8, h9, h10⟩ := followL_ok hE cs (ess := ess) (K := K') (d := d') h7 h4 h5 h6
      refine ⟨tacs ++ tacs', d'', ?_, Nat.le_trans h2 h9, ?_⟩
      · simp only [follow, h1, h8]
      · intro rest gs
        rw [List.append_assoc, h3, h10]
theorem followL_ok {cfg : Cfg} {G : List Nat} (hE : Env cfg G) : ∀ (cs : List Tree) {K C : List Nat} {cr : List Term} {d : Nat}
    {ess : List (List (Option Form))}, (∀ e ∈ ess, Inv cfg G d K C cr e) → ess.length = cs.length →
    Gs3.validL (ess.map live) cs = true → readyL cfg G C cr cs = true →
    ∃ tacs d', followL cfg cs (ess.map hsOf) cr d = some (tacs, d') ∧ d ≤ d' ∧
      ∀ rest gs, run G (tacs ++ rest) (ess.map (goalOf K) ++ gs) = run G rest gs
  | [], K, C, cr, d, ess, _, hl, _, _ => by
    cases ess with
    | nil => exact ⟨[], d, rfl, Nat.le_refl _, fun _ _ => rfl⟩
    | cons e ess => simp at hl
  | c :: cs, K, C, cr, d, ess, hI, hl, hv, hr => by
    cases ess with
    | nil => simp at hl
    | cons e ess =>
      simp only [List.map_cons, Gs3.validL, readyL, Bool.and_eq_true] at hv hr
      obtain ⟨t1, d1, h1, h2, h3⟩ := follow_ok hE c (hI e (by simp)) hv.1 hr.1
      obtain ⟨t2, d2, h4, h5, h6⟩ := followL_ok hE cs (ess := ess) (fun e he => (hI e (by simp [he])).mono h2)
        (by simpa using hl) hv.2 hr.2
      refine ⟨t1 ++ t2, d2, ?_, Nat.le_trans h2 h5, ?_⟩
      · simp only [List.map_cons, followL, h1, h4]
      · intro rest gs
        rw [List.map_cons, List.append_assoc, List.cons_append, h3, h6]
end

/-! ## C78: the Rocq output proves the problem -/

/-- The formula that is refuted for axioms `As` and conjecture `c`
(src/main.go:317-332: the negated conjecture, after the axioms in a conjunction). -/
def problem (As : List Form) (c : Form) : Form :=
  match As with
  | [] => .neg c
  | As => .and (As ++ [.neg c])

/-- The formula at the root of the tree. -/
def root : Tree → Option Form
  | .hole _ => none
  | .node _ f _ _ _ => some f

theorem holds_andN {D : Type u} {I : Interp D} {μ ρ : Nat → D} : ∀ {l : List Form},
    Form.holds I μ ρ (andN l) ↔ ∀ f ∈ l, Form.holds I μ ρ f
  | [] => by simp [andN]
  | [a] => by simp [andN]
  | a :: b :: l => by simp [andN, holds_andN (l := b :: l)]

theorem holds_orN {D : Type u} {I : Interp D} {μ ρ : Nat → D} : ∀ {l : List Form},
    Form.holds I μ ρ (orN l) ↔ ∃ f ∈ l, Form.holds I μ ρ f
  | [] => by simp [orN]
  | [a] => by simp [orN]
  | a :: b :: l => by simp [orN, holds_orN (l := b :: l)]

theorem rocqTerm_nil {t : Term} : rocqTerm [] t = t := by
  induction t using Term.ind with
  | var i => rfl
  | mv i => rfl
  | fn p tys args ih =>
    simp only [rocqTerm, List.not_mem_nil, if_false, rocqTermL_eq]
    congr 1
    calc _ = args.map id := List.map_congr_left (fun a ha => ih a ha)
      _ = args := by simp

/-- Rocq reads a formula with its meaning. -/
theorem holds_rocqForm {D : Type u} {I : Interp D} {μ : Nat → D} {f : Form} {ρ : Nat → D} :
    Form.holds I μ ρ (rocqForm [] f) ↔ Form.holds I μ ρ f := by
  induction f using Form.ind generalizing ρ with
  | pred p tys args =>
    have : args.map (rocqTerm []) = args := by
      calc _ = args.map id := List.map_congr_left (fun a _ => rocqTerm_nil)
        _ = args := by simp
    simp only [rocqForm, rocqTermL_eq, this]
  | top => exact Iff.rfl
  | bot => exact Iff.rfl
  | neg f ih => simp only [rocqForm, Form.holds_neg]; exact not_congr ih
  | and fs ih =>
    simp only [rocqForm, holds_andN, rocqFormL_eq, List.mem_map, Form.holds_and]
    constructor
    · intro h f hf; exact (ih f hf).1 (h _ ⟨f, hf, rfl⟩)
    · rintro h _ ⟨f, hf, rfl⟩; exact (ih f hf).2 (h f hf)
  | or fs ih =>
    simp only [rocqForm, holds_orN, rocqFormL_eq, List.mem_map, Form.holds_or]
    constructor
    · rintro ⟨_, ⟨f, hf, rfl⟩, h⟩; exact ⟨f, hf, (ih f hf).1 h⟩
    · rintro ⟨f, hf, h⟩; exact ⟨_, ⟨f, hf, rfl⟩, (ih f hf).2 h⟩
  | imp f g ihf ihg => simp only [rocqForm, Form.holds_imp]; exact imp_congr ihf ihg
  | equ f g ihf ihg => simp only [rocqForm, Form.holds_equ]; exact iff_congr ihf ihg
  | all vs f ih =>
    simp only [rocqForm, Form.holds_all]; exact forallVars_congr (fun ρ => ih)
  | ex vs f ih =>
    simp only [rocqForm, Form.holds_ex]; exact existsVars_congr (fun ρ => ih)

theorem holds_impChain {D : Type u} {I : Interp D} {μ ρ : Nat → D} {c : Form} : ∀ {As : List Form},
    Form.holds I μ ρ (impChain As c) ↔ ((∀ a ∈ As, Form.holds I μ ρ a) → Form.holds I μ ρ c)
  | [] => by simp [impChain]
  | a :: As => by
    simp only [impChain, Form.holds_imp, holds_impChain (As := As), List.mem_cons]
    constructor
    · intro h h'; exact h (h' a (.inl rfl)) (fun b hb => h' b (.inr hb))
    · intro h ha h'; exact h (fun b hb => hb.elim (fun e => e ▸ ha) (h' b))

/-- The statement that Rocq accepts holds in all interpretations. -/
theorem C78_accepted_holds {cfg : Cfg} {stmt : Form} {script : List Tac} (h : accepts cfg stmt script = true)
    (D : Type u) (I : Interp D) (μ ρ : Nat → D) : Form.holds I μ ρ stmt := by
  simp only [accepts, Bool.and_eq_true] at h
  have h2 := h.2
  split at h2
  · rename_i hr
    have := run_sound hr _ (List.mem_singleton.2 rfl) D I μ ρ (by simp)
    exact holds_rocqForm.1 this
  · cases h2

/-- The statement written for a proof of `c` from `As` is that `As` imply `¬¬c`. -/
theorem makeOutput_stmt {cfg : Cfg} {T : Tree} {stmt : Form} {script : List Tac} {As : List Form} {c : Form}
    (hm : makeOutput cfg T = some (stmt, script)) (hT : root T = some (problem As c)) :
    stmt = impChain As (.neg (.neg c)) := by
  cases T with
  | hole cs => cases hm
  | node rule f t forms cs =>
    simp only [root, Option.some.injEq] at hT
    subst hT
    have hp : processMain (problem As c) = some (As, c) := by
      cases As with
      | nil => rfl
      | cons a As =>
        simp only [problem, processMain, List.getLast?_append, List.getLast?_singleton, Option.some_or,
          List.dropLast_concat]
    simp only [makeOutput, hp] at hm
    split at hm
    · cases hm
    · split at hm
      · cases hm
      · simp only [Option.some.injEq, Prod.mk.injEq] at hm; exact hm.1.symm

/-- **C78 (soundness).** If the output module writes a script for a proof of `c` from `As` and Rocq accepts
it, then `c` follows from `As`; whatever the tree of sequents is. -/
theorem C78_output_sound {cfg : Cfg} {T : Tree} {stmt : Form} {script : List Tac} {As : List Form} {c : Form}
    (hm : makeOutput cfg T = some (stmt, script)) (hT : root T = some (problem As c))
    (ha : accepts cfg stmt script = true) (D : Type u) (I : Interp D) (μ ρ : Nat → D)
    (h : ∀ a ∈ As, Form.holds I μ ρ a) : Form.holds I μ ρ c := by
  have := C78_accepted_holds ha D I μ ρ
  rw [makeOutput_stmt hm hT, holds_impChain] at this
  have := this h
  simpa using this

/-- **C78, the full claim.** For each formula that a problem gives and each GS3 refutation of it, the module
writes a script that Rocq accepts. -/
def C78_statement : Prop :=
  ∀ (cfg : Cfg) (T : Tree) (F : Form), Env cfg (cfg.ind :: F.funs) → parses F = true →
    root T = some F → Gs3.valid [F] T = true →
    ∃ stmt script, makeOutput cfg T = some (stmt, script) ∧ accepts cfg stmt script = true

theorem funs_impChain {c : Form} : ∀ {As : List Form},
    (impChain As (.neg (.neg c))).funs = Form.funsL (As ++ [.neg c])
  | [] => by simp [impChain, Form.funs, Form.funsL]
  | a :: As => by simp [impChain, Form.funs, Form.funsL, funs_impChain (As := As)]

theorem funs_problem {As : List Form} {c : Form} : (problem As c).funs = Form.funsL (As ++ [.neg c]) := by
  cases As with
  | nil => simp [problem, Form.funs, Form.funsL]
  | cons a As => simp [problem, Form.funs]

theorem parsesL_append {l m : List Form} : parsesL (l ++ m) = (parsesL l && parsesL m) := by
  induction l with
  | nil => simp [parsesL]
  | cons a l ih => simp [parsesL, ih, Bool.and_assoc]

theorem parses_impChain {c : Form} : ∀ {As : List Form},
    parses (impChain As (.neg (.neg c))) = parsesL (As ++ [.neg c])
  | [] => by simp [impChain, parses, parsesL]
  | a :: As => by simp [impChain, parses, parsesL, parses_impChain (As := As)]

theorem parses_problem {As : List Form} {c : Form} (h : parses (problem As c) = true) :
    parsesL (As ++ [.neg c]) = true := by
  cases As with
  | nil => simpa [problem, parses, parsesL] using h
  | cons a As =>
    simp only [problem, parses, Bool.and_eq_true] at h
    exact h.2

theorem rocqForm_impChain {K : List Nat} {c : Form} : ∀ {As : List Form},
    rocqForm K (impChain As c) = impChain (As.map (rocqForm K)) (rocqForm K c)
  | [] => rfl
  | a :: As => by simp [impChain, rocqForm, rocqForm_impChain (As := As)]

theorem introsN_append : ∀ {ns ms : List Name} {g g' : Goal}, introsN ns g = some g' →
    introsN (ns ++ ms) g = introsN ms g'
  | [], ms, g, g', h => by cases h; rfl
  | n :: ns, ms, g, g', h => by
    simp only [introsN, List.cons_append] at h ⊢
    split at h
    · cases h
    · exact introsN_append h

/-- The names of the axioms. -/
theorem intros_axioms {c : Form} : ∀ {As : List Form} {k : Nat} {H : List (Nat × Form)}, (∀ e ∈ H, e.1 < k) →
    introsN ((List.range As.length).map fun j => .hyp (k + j)) ⟨[], H, impChain (As.map (rocqForm [])) c⟩ =
      some ⟨[], H ++ hypsFrom [] k (As.map some), c⟩
  | [], k, H, _ => by simp [introsN, impChain, hypsFrom]
  | g :: gs, k, H, h => by
    have hk : k ∉ H.map (·.1) := by
      intro hm
      obtain ⟨e, he, rfl⟩ := List.mem_map.1 hm
      exact Nat.lt_irrefl _ (h e he)
    have ih := intros_axioms (c := c) (As := gs) (k := k + 1) (H := H ++ [(k, rocqForm [] g)]) (by
      intro e he
      rcases List.mem_append.1 he with he | he
      · exact Nat.lt_succ_of_lt (h e he)
      · rw [List.mem_singleton.1 he]; exact Nat.lt_succ_self k)
    simp only [List.length_cons, List.range_succ_eq_map, List.map_cons, List.map_map, Nat.add_zero, introsN, intro1,
      impChain, if_neg hk, hypsFrom]
    have he : (fun j => Name.hyp (k + j)) ∘ Nat.succ = fun j => Name.hyp (k + 1 + j) := by
      funext j; simp only [Function.comp]; congr 1; omega
    rw [he, ih]
    simp

/-- The first tactics of the script: the axioms and the negated conjecture become hypotheses. -/
theorem run_start {G : List Nat} {As : List Form} {c : Form} (rest : List Tac) :
    run G (((if As.isEmpty then [] else [.intros (newNames [] As)]) ++ [.intros [.hyp As.length]]) ++ rest)
      [⟨[], [], rocqForm [] (impChain As (.neg (.neg c)))⟩] =
    run G rest [goalOf [] ((As ++ [Form.neg c]).map some)] := by
  have hlast : run G (.intros [.hyp As.length] :: rest)
      [⟨[], hypsFrom [] 0 (As.map some), .neg (.neg (rocqForm [] c))⟩] =
      run G rest [goalOf [] ((As ++ [Form.neg c]).map some)] := by
    have hk : As.length ∉ (hypsFrom [] 0 (As.map some)).map (·.1) := by
      intro hm
      obtain ⟨e, he, hl⟩ := List.mem_map.1 hm
      have := (hypsFrom_lt he).2
      simp at this
      omega
    simp only [run, tac, List.isEmpty_cons, Bool.false_eq_true, if_false, introsN, intro1, if_neg hk, Option.map_some,
      List.cons_append, List.nil_append, goalOf, List.map_append, List.map_cons, List.map_nil, hypsFrom_append,
      List.length_map, Nat.zero_add, hypsFrom, rocqForm]
  rw [rocqForm_impChain]
  cases As with
  | nil => simpa [impChain, hypsFrom, rocqForm] using hlast
  | cons a As =>
    have h := intros_axioms (c := .neg (.neg (rocqForm [] c))) (As := a :: As) (k := 0) (H := []) (by simp)
    have hn : newNames [] (a :: As) = (List.range (a :: As).length).map fun j => Name.hyp (0 + j) := by
      simp [newNames]
    rw [List.nil_append, ← hn] at h
    simp only [List.isEmpty_cons, Bool.false_eq_true, if_false, List.cons_append, List.nil_append]
    rw [run]
    simp only [tac, newNames_ne (hs := []) (List.cons_ne_nil a As), Bool.false_eq_true, if_false, rocqForm, h, Option.map_some]
    exact hlast

theorem live_some (l : List Form) : live (l.map some) = l := by
  simp [live, List.filterMap_map, Function.comp_def]

theorem hsOf_some (l : List Form) : hsOf (l.map some) = l := by
  simp [hsOf, Function.comp_def]

/-- The part of the tree that the script follows refutes the axioms and the negated conjecture. The root is
left out when there are axioms: its formula is their conjunction, which is no hypothesis in Rocq. -/
def Follows (As : List Form) (c : Form) (T body : Tree) : Prop :=
  root T = some (problem As c) ∧ Gs3.valid (As ++ [.neg c]) body = true ∧
  match As with
  | [] => body = T
  | _ => ∃ t forms, T = .node .and (problem As c) t forms [body]

/-- **C78 (partial).** For a problem with a conjecture, the script of a refutation is accepted if the
refutation is `ready`: conjunctions and disjunctions inside the formulas are binary, no user symbol is named
like a Skolem symbol in the terms that are used, and the terms of gamma steps have been introduced before.
Missing: what `ready` excludes (see the violations), rewriting steps, printing and declarations. -/
theorem C78_accepted_partial {cfg : Cfg} {T body : Tree} {As : List Form} {c : Form}
    (hE : Env cfg (cfg.ind :: (problem As c).funs)) (hp : parses (problem As c) = true)
    (hT : Follows As c T body) (hr : ready cfg (cfg.ind :: (problem As c).funs) [] [] body = true) :
    ∃ script, makeOutput cfg T = some (impChain As (.neg (.neg c)), script) ∧
      accepts cfg (impChain As (.neg (.neg c))) script = true := by
  obtain ⟨hroot, hv, hb⟩ := hT
  have hfuns : (impChain As (.neg (.neg c))).funs = (problem As c).funs := by rw [funs_impChain, funs_problem]
  have hI : Inv cfg (cfg.ind :: (problem As c).funs) 0 [] [] [] ((As ++ [Form.neg c]).map some) :=
    { sub := by simp
      sup := by simp
      sko := by simp
      syms := fun p hp => by
        rw [live_some] at hp
        rw [funs_problem]
        exact .inl (List.mem_cons_of_mem _ hp)
      created := by simp }
  obtain ⟨tacs, d', h1, _, h3⟩ := follow_ok hE body hI (by rw [live_some]; exact hv) hr
  rw [hsOf_some] at h1
  refine ⟨((if As.isEmpty then [] else [.intros (newNames [] As)]) ++ [.intros [.hyp As.length]]) ++ tacs, ?_, ?_⟩
  · have hpm : processMain (problem As c) = some (As, c) := by
      cases As with
      | nil => rfl
      | cons a As =>
        simp only [problem, processMain, List.getLast?_append, List.getLast?_singleton, Option.some_or,
          List.dropLast_concat]
    cases As with
    | nil =>
      simp only at hb
      subst hb
      cases body with
      | hole cs => cases hroot
      | node rule f t forms cs =>
        simp only [root, Option.some.injEq] at hroot
        subst hroot
        simp only [makeOutput, hpm, List.isEmpty_nil, if_true, h1]
    | cons a As =>
      obtain ⟨t, forms, rfl⟩ := hb
      simp only [makeOutput, hpm, List.isEmpty_cons, Bool.false_eq_true, if_false, List.getElem?_cons_zero, h1]
  · simp only [accepts, Bool.and_eq_true]
    refine ⟨by rw [parses_impChain]; exact parses_problem hp, ?_⟩
    rw [hfuns, run_start]
    have := h3 [] []
    rw [List.append_nil] at this
    rw [this]
    rfl

/-- **C78 (partial), without a conjecture.** The module panics on a conjunction of axioms whose last
conjunct is no negation. -/
theorem C78_panics {cfg : Cfg} {T : Tree} {fs : List Form} (hT : root T = some (.and fs))
    (hl : ∀ c, fs.getLast? ≠ some (.neg c)) : makeOutput cfg T = none := by
  cases T with
  | hole cs => cases hT
  | node rule f t forms cs =>
    simp only [root, Option.some.injEq] at hT
    subst hT
    have : processMain (.and fs) = none := by
      unfold processMain
      split
      · rename_i h; cases h
      · rename_i h
        cases h
        split
        · rename_i c h; exact absurd h (hl c)
        · rfl
      · rename_i h; exact absurd rfl (h fs)
    simp only [makeOutput, this]

/-! ### Violations -/

namespace Ex
/-- The symbols from 100 to 999 are named like Skolem symbols; `x0`, … are the symbols 1000, …. -/
def cfg : Cfg := { sko := fun p => decide (100 ≤ p) && decide (p < 1000), eq := 0, dummy := fun k => 1000 + k, ind := 49 }

theorem env {l : List Nat} (h : ∀ p ∈ l, p < 1000) : Env cfg (cfg.ind :: l) where
  ind := by simp
  indSko := by simp [cfg]
  dummyG := fun k => by
    simp only [cfg, List.mem_cons, not_or]
    exact ⟨by omega, fun hk => by have := h _ hk; omega⟩
  dummySko := fun k => by simp [cfg]
  dummyInj := fun j k => by simp [cfg]

def p0 : Form := .pred 1 [] []
def q0 : Form := .pred 2 [] []
def p (t : Term) : Form := .pred 3 [] [t]
def v : TVar := ⟨"X", 10, .constr "$i" []⟩

/-- The conjecture `¬(p ∧ q ∧ ¬p)` with a conjunction of three formulas. -/
def three : Form := .neg (.neg (.and [p0, q0, .neg p0]))
def threeTree : Tree :=
  .node .nnot three none [[.and [p0, q0, .neg p0]]]
    [.node .and (.and [p0, q0, .neg p0]) none [[p0, q0, .neg p0]] [.node .ax p0 none [] []]]

/-- The conjecture `∀X p(X) → p(a)` where the name of the constant `a` contains "sko". -/
def a : Term := .fn 100 [] []
def named : Form := .neg (.imp (.all [v] (p (.var 10))) (p a))
def namedTree : Tree :=
  .node .nimp named none [[.all [v] (p (.var 10)), .neg (p a)]]
    [.node .all (.all [v] (p (.var 10))) (some a) [[p a]] [.node .ax (p a) none [] []]]

/-- The axioms `¬p` and `p` without a conjecture. -/
def noConj : Form := .and [.neg p0, p0]
def noConjTree : Tree := .node .and noConj none [[.neg p0, p0]] [.node .ax p0 none [] []]

/-- Axiom `∃X (p(X) ∧ q)`, conjecture `∃X p(X)`. -/
def ax1 : Form := .ex [v] (.and [p (.var 10), q0])
def conj : Form := .ex [v] (p (.var 10))
def sk : Term := .fn 101 [] []
def body : Tree :=
  .node .ex ax1 (some sk) [[.and [p sk, q0]]]
    [.node .and (.and [p sk, q0]) none [[p sk, q0]]
      [.node .w (.and [p sk, q0]) none [] [.node .nex (.neg conj) (some sk) [[.neg (p sk)]] [.node .ax (p sk) none [] []]]]]
def tree : Tree := .node .and (problem [ax1] conj) none [[ax1, .neg conj]] [body]
end Ex

open Ex in
/-- The hypotheses of `C78_accepted_partial` are met by a refutation with delta, alpha, gamma and weakening
steps. -/
example : Env cfg (cfg.ind :: (problem [ax1] conj).funs) ∧ parses (problem [ax1] conj) = true ∧
    Follows [ax1] conj tree body ∧ ready cfg (cfg.ind :: (problem [ax1] conj).funs) [] [] body = true := by
  refine ⟨env (by decide), by decide +kernel, ⟨rfl, by decide +kernel, _, _, rfl⟩, by decide +kernel⟩

open Ex in
/-- The script written for it. -/
example : makeOutput cfg tree = some (.imp ax1 (.neg (.neg conj)),
    [.intros [.hyp 0], .intros [.hyp 1],
     .elim 0, .intros [.const 101], .intros [.hyp 2],
     .lem .and 2, .intros [.hyp 3, .hyp 4],
     .clear (.hyp 2),
     .apply 1, .exists_ (.fn 101 [] []), .nnpp, .intros [.hyp 5],
     .auto]) := by decide +kernel

/-- **C78, violated.** For a conjunction of three formulas (option `-flatten`) the lemma that is applied is
the one for two. -/
theorem C78_violated_three : Gs3.valid [Ex.three] Ex.threeTree = true ∧
    ∃ stmt script, makeOutput Ex.cfg Ex.threeTree = some (stmt, script) ∧ accepts Ex.cfg stmt script = false := by
  refine ⟨by decide +kernel, .neg Ex.three,
    [.intros [.hyp 0], .apply 0, .intros [.hyp 1], .lem .and 1, .intros [.hyp 2, .hyp 3, .hyp 4], .auto], ?_, ?_⟩
  all_goals decide +kernel

/-- **C78, violated.** A constant of the problem whose name contains "sko" is written as `goeland_I` in the
instance of an axiom. -/
theorem C78_violated_named : Gs3.valid [Ex.named] Ex.namedTree = true ∧
    ∃ stmt script, makeOutput Ex.cfg Ex.namedTree = some (stmt, script) ∧
      Tac.generalize 1 (.fn Ex.cfg.ind [] []) ∈ script ∧ accepts Ex.cfg stmt script = false := by
  refine ⟨by decide +kernel, ?_⟩
  refine ⟨.neg (.neg (.imp (.all [Ex.v] (Ex.p (.var 10))) (Ex.p Ex.a))),
    [.intros [.hyp 0], .lem .notimply 0, .intros [.hyp 1, .hyp 2], .generalize 1 (.fn 49 [] []), .intros [.hyp 3], .auto], ?_, ?_, ?_⟩
  all_goals decide +kernel

/-- **C78, violated.** Without a conjecture there is no output. -/
theorem C78_violated_conjecture : Gs3.valid [Ex.noConj] Ex.noConjTree = true ∧
    ∀ cfg, makeOutput cfg Ex.noConjTree = none :=
  ⟨by decide +kernel, fun _ => C78_panics (fs := [.neg Ex.p0, Ex.p0]) rfl (by simp [Ex.p0])⟩

theorem C78_statement_false : ¬ C78_statement := by
  intro h
  obtain ⟨stmt, script, hm, _⟩ := h Ex.cfg Ex.noConjTree Ex.noConj (Ex.env (by decide)) (by decide +kernel) rfl
    C78_violated_conjecture.1
  rw [C78_violated_conjecture.2] at hm
  cases hm

end Verif.Rocq
