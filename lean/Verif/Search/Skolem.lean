import Verif.Search.Tableau
import Verif.AST.Maker
/-!
# C47: Skolem symbols

The Skolemisation module as a service called by the goroutines of the search. A call holds the
mutex of the strategy while it looks up or creates its symbol (src/Core/Sko/*.go), so calls are
serialised; the identity comes from `MakerNewId`, which other goroutines use concurrently (`draw`).
The strategy value is copied at the call and assigned back to a global variable without lock
(src/Core/skolemisation.go:135), so a call works on any earlier value of the memory: it sees some of the
pairs ever remembered (`sees`), not always all.
-/

namespace Verif.Search
open Verif.AST

/-- State of the service. `linked` are all pairs ever remembered. -/
structure SkoState where
  cpt : Nat
  linked : List (Form × Nat)

/-- A successful call: the Skolemised formula, the branch metavariables given, the symbol and its
arguments. -/
structure SkoEvent where
  form : Form
  branch : List Nat
  sym : Nat
  args : List Nat

inductive SkoOp where
  /-- A call of `Skolemize` on a formula, with the elements of the set of branch metavariables; the
  remembered pairs in its copy of the strategy are those satisfying `sees`. -/
  | call (F : Form) (branch : List Nat) (sees : Form × Nat → Bool)
  /-- Other identities are drawn. -/
  | draw (n : Nat)

/-- `Skolemize` of the three strategies up to the choice of symbol and arguments
(src/Core/Sko/outer-skolemization.go:57-72, inner-skolemization.go:57-72,
preinner-skolemization.go:62-90, `genFreshSymbol` of interface.go:63). -/
def SkoState.call (s : Strategy) (st : SkoState) (F : Form) (branch : List Nat)
    (sees : Form × Nat → Bool) : SkoEvent × SkoState :=
  match s with
  | .outer => (⟨F, branch, st.cpt, branch⟩, { st with cpt := st.cpt + 1 })
  | .inner => (⟨F, branch, st.cpt, F.metaElems⟩, { st with cpt := st.cpt + 1 })
  | .preinner =>
    match (st.linked.filter sees).find? (fun p => decide (p.1 = skoKey F)) with
    | some p => (⟨F, branch, p.2, F.metaElems⟩, st)
    | none => (⟨F, branch, st.cpt, F.metaElems⟩,
        { st with cpt := st.cpt + 1, linked := st.linked ++ [(skoKey F, st.cpt)] })

/-- Runs the service. -/
def skoRun (s : Strategy) : SkoState → List SkoOp → List SkoEvent
  | _, [] => []
  | st, .call F b k :: ops => (st.call s F b k).1 :: skoRun s (st.call s F b k).2 ops
  | st, .draw n :: ops => skoRun s { st with cpt := st.cpt + n } ops

/-! ### C47 -/

theorem skoRun_spec (s : Strategy) (ops : List SkoOp) (st : SkoState) (hl : ∀ p ∈ st.linked, p.2 < st.cpt)
    (hu : ∀ p ∈ st.linked, ∀ q ∈ st.linked, p.2 = q.2 → p.1 = q.1) :
    (∀ e ∈ skoRun s st ops, st.cpt ≤ e.sym ∨ (s = .preinner ∧ (skoKey e.form, e.sym) ∈ st.linked)) ∧
    (skoRun s st ops).Pairwise (fun e e' => e.sym = e'.sym → s = .preinner ∧ skoKey e.form = skoKey e'.form) ∧
    ∀ e ∈ skoRun s st ops, e.args = match s with
      | .outer => e.branch
      | _ => e.form.metaElems := by
  induction ops generalizing st with
  | nil => simp [skoRun]
  | cons op ops ih =>
    cases op with
    | draw n =>
      obtain ⟨a, b, c⟩ := ih { st with cpt := st.cpt + n } (fun p hp => Nat.lt_of_lt_of_le (hl p hp) (Nat.le_add_right _ _)) hu
      exact ⟨fun e he => (a e he).imp (fun h => Nat.le_trans (Nat.le_add_right _ _) h) id, b, c⟩
    | call F br sees =>
      simp only [skoRun, List.pairwise_cons, List.forall_mem_cons]
      cases s with
      | outer =>
        obtain ⟨a, b, c⟩ := ih { st with cpt := st.cpt + 1 } (fun p hp => Nat.lt_succ_of_lt (hl p hp)) hu
        simp only [SkoState.call, reduceCtorEq, false_and, or_false] at a b c ⊢
        refine ⟨⟨Nat.le_refl _, fun e he => ?_⟩, ⟨fun e he h => ?_, b⟩, trivial, c⟩
        · have := a e he; omega
        · have := a e he; omega
      | inner =>
        obtain ⟨a, b, c⟩ := ih { st with cpt := st.cpt + 1 } (fun p hp => Nat.lt_succ_of_lt (hl p hp)) hu
        simp only [SkoState.call, reduceCtorEq, false_and, or_false] at a b c ⊢
        refine ⟨⟨Nat.le_refl _, fun e he => ?_⟩, ⟨fun e he h => ?_, b⟩, trivial, c⟩
        · have := a e he; omega
        · have := a e he; omega
      | preinner =>
        cases hf : (st.linked.filter sees).find? (fun p => decide (p.1 = skoKey F)) with
        | some p =>
          have hp := (List.mem_filter.1 (List.mem_of_find?_eq_some hf)).1
          have hk : p.1 = skoKey F := by simpa using List.find?_some hf
          obtain ⟨a, b, c⟩ := ih st hl hu
          simp only [SkoState.call, hf, true_and] at a b c ⊢
          refine ⟨⟨Or.inr (by rw [← hk]; exact hp), a⟩, ⟨fun e he h => ?_, b⟩, c⟩
          rcases a e he with h' | h'
          · have := hl p hp; omega
          · rw [← hk]; exact hu p hp _ h' h
        | none =>
          obtain ⟨a, b, c⟩ := ih { st with cpt := st.cpt + 1, linked := st.linked ++ [(skoKey F, st.cpt)] }
            (by
              intro p hp
              rcases List.mem_append.1 hp with hp | hp
              · exact Nat.lt_succ_of_lt (hl p hp)
              · simp only [List.mem_singleton] at hp; subst hp; exact Nat.lt_succ_self _)
            (by
              intro p hp q hq h
              rcases List.mem_append.1 hp with hp | hp <;> rcases List.mem_append.1 hq with hq | hq
              · exact hu p hp q hq h
              · simp only [List.mem_singleton] at hq; subst hq
                have := hl p hp; simp only at h; omega
              · simp only [List.mem_singleton] at hp; subst hp
                have := hl q hq; simp only at h; omega
              · simp only [List.mem_singleton] at hp hq; subst hp; subst hq; rfl)
          simp only [SkoState.call, hf, true_and, List.mem_append, List.mem_singleton, Prod.mk.injEq] at a b c ⊢
          refine ⟨⟨Or.inl (Nat.le_refl _), fun e he => ?_⟩, ⟨fun e he h => ?_, b⟩, c⟩
          · rcases a e he with h' | h' | h'
            · exact Or.inl (by omega)
            · exact Or.inr h'
            · exact Or.inl (by omega)
          · rcases a e he with h' | h' | h'
            · omega
            · have := hl _ h'; simp only at this; omega
            · exact h'.1.symm

/-- **C47** (term variables). In every run of the Skolemisation service, whatever happens between
the calls: a symbol is never one that existed at the start; two calls get the same symbol only with the
pre-inner strategy and only for formulas that, for the same value of their first variable, have the same
meaning in all interpretations, with the same arguments; and the arguments contain all branch
metavariables (outer) or exactly the metavariables of the formula (inner, pre-inner). -/
theorem C47_skolem_symbols_partial (s : Strategy) (c : Nat) (ops : List SkoOp) :
    (∀ e ∈ skoRun s ⟨c, []⟩ ops, c ≤ e.sym) ∧
    (skoRun s ⟨c, []⟩ ops).Pairwise (fun e e' => e.sym = e'.sym → s = .preinner ∧ e.args = e'.args ∧
      ∀ v b v' b' c c', deltaParts e.form = some (v, b) → deltaParts e'.form = some (v', b') →
        PartsWF v b c → PartsWF v' b' c' →
        ∀ (D : Type u) (I : Interp D) (μ ρ : Nat → D) (d : D),
          Form.holds I μ (upd ρ v.index d) b ↔ Form.holds I μ (upd ρ v'.index d) b') ∧
    (∀ e ∈ skoRun s ⟨c, []⟩ ops, (s = .outer → ∀ i, i ∈ e.args ↔ i ∈ e.branch) ∧
      (s ≠ .outer → ∀ i, i ∈ e.args ↔ i ∈ e.form.metas)) := by
  obtain ⟨a, b, d⟩ := skoRun_spec s ops ⟨c, []⟩ (by simp) (by simp)
  refine ⟨fun e he => by simpa using a e he, ?_, ?_⟩
  · refine (List.Pairwise.and_mem.1 b).imp ?_
    rintro e e' ⟨he, he', h⟩ hs
    obtain ⟨hs, hk⟩ := h hs
    refine ⟨hs, ?_, ?_⟩
    · have h1 := d e he
      have h2 := d e' he'
      subst hs
      simp only at h1 h2
      rw [h1, h2, ← skoKey_metaElems, hk, skoKey_metaElems]
    · intro v b v' b' c c' p p' w w' D I μ ρ x
      exact (same_key p p' w w' hk).2 D I μ ρ ρ x
  · intro e he
    have h1 := d e he
    cases s <;> simp only at h1 <;> simp [h1, Form.mem_metaElems]

/-- Two alpha-equivalent formulas share a symbol with the pre-inner strategy, and only with it. -/
example : ((skoRun .preinner ⟨20, []⟩
    [.call (.ex [⟨"a", 5, .constr "$i" []⟩] (.pred 0 [] [.var 5, .mv 3])) [3, 4] (fun _ => true), .draw 2,
     .call (.ex [⟨"c", 8, .constr "$i" []⟩] (.pred 0 [] [.var 8, .mv 3])) [4] (fun _ => true),
     .call (.ex [⟨"c", 8, .constr "$i" []⟩] (.pred 1 [] [.var 8, .mv 3])) [4] (fun _ => true)]).map fun e => (e.sym, e.args)) =
    [(20, [3]), (20, [3]), (23, [3])] := by decide

/-! ### Type variables -/

/-- The type constant that replaces a quantified type variable (src/Core/skolemisation.go:130-133):
`MakerId("skoTy")`, then the name of `MakerId("skoTy@i")`. It does not look at the formula. -/
def skoTyConst (m : Maker) : String × Maker :=
  let r := m.id "skoTy"
  let n := "skoTy@" ++ toString r.1
  (n, (r.2.id n).2)

/-- Statement of C47 for type variables: two Skolemisation steps, on whatever formulas, with other
symbols made in between, get different constants. -/
def C47_types_statement : Prop :=
  ∀ (m m' : Maker), (∀ s i, (skoTyConst m).2.ids s = some i → m'.ids s = some i) →
    (skoTyConst m).1 ≠ (skoTyConst m').1

theorem id_self (m : Maker) (s : String) : (m.id s).2.ids s = some (m.id s).1 := by
  cases h : m.ids s with
  | some i => simp [Maker.id, h]
  | none => simp [Maker.id, h, Maker.newId, setKey]

theorem id_mono {m : Maker} {t : String} {i : Nat} (s : String) (h : m.ids t = some i) :
    (m.id s).2.ids t = some i := by
  cases h' : m.ids s with
  | some j => simp [Maker.id, h', h]
  | none =>
    have : t ≠ s := by rintro rfl; rw [h] at h'; cases h'
    simp [Maker.id, h', Maker.newId, setKey, this, h]

/-- **C47 is false of the code for type variables**: the constant is always the same one, whatever
the formulas are. -/
theorem C47_violated_types (m m' : Maker)
    (h : ∀ s i, (skoTyConst m).2.ids s = some i → m'.ids s = some i) :
    (skoTyConst m').1 = (skoTyConst m).1 := by
  have key : (skoTyConst m).2.ids "skoTy" = some (m.id "skoTy").1 := id_mono _ (id_self m "skoTy")
  have := h _ _ key
  simp only [skoTyConst, Maker.id, this]

theorem C47_types_statement_false : ¬ C47_types_statement := fun h =>
  h Maker.reset (skoTyConst Maker.reset).2 (fun _ _ e => e)
    (C47_violated_types Maker.reset (skoTyConst Maker.reset).2 (fun _ _ e => e)).symm

end Verif.Search
