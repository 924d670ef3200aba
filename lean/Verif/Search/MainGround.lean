import Verif.Search.MainUnsound
import Verif.Search.IncrGround
import Verif.Search.MainDelta
import Mathlib.Tactic.Tauto
/-!
# C65 for ground formulas and formulas the delta rule is enough for: one round of a process

On formulas without quantifiers, variables, metavariables and equality a round of `ProofSearch` closes the branch
exactly when it contains complementary literals, `⊥` or `¬⊤`, and otherwise replaces a formula by its parts. The same holds
if quantifiers occur where only the delta rule handles them (`Exist`).
-/

namespace Verif.Search.Main
open Verif.AST Verif.Search Verif.Unif
open Verif.Search.Incr (TPlainL Plain PlainL PlainL_iff plain_pred utOf utOfL utOfL_inj herbrand evalL_herbrand)

variable {ar : Nat → Nat} {B : Nat}

/-! ### The index -/

/-- The oracle answers as the model of the index, the depth of the calls not being cut off at once: the code has no bound. -/
def Deep (U : Incr.Oracle) : Prop := ∀ time neg pos l, U time neg pos = some l →
  ∃ n t out, [neg].foldlM (fun n l => Verif.Unif.Node.addAtoms n l) Verif.Unif.Node.empty = some t ∧
    Verif.Unif.Search (addUnif false (n + 2)) (n + 2) t { terms := [pos.term] } out ∧ l = out.map (·.2)

theorem Deep.faithful {U : Incr.Oracle} (h : Deep U) : Incr.Faithful U := fun time neg pos l hl =>
  let ⟨n, t, out, a⟩ := h time neg pos l hl
  ⟨n + 2, t, out, a⟩

theorem realU_deep (n : Nat) : Deep (Incr.realU (n + 2)) := by
  intro time neg pos l h
  unfold Incr.realU at h
  rw [Option.map_eq_some_iff] at h
  obtain ⟨out, h, rfl⟩ := h
  rw [Option.bind_eq_some_iff] at h
  obtain ⟨t, h1, h2⟩ := h
  exact ⟨n, t, out, h1, Verif.Unif.Sample.seq_search h2, rfl⟩

theorem single_nil {n : Nat} {f q : Atom} (hf : f.Gd ar) (hq : q.Gd ar) {a : Atom × Subst}
    (h : a ∈ single (addUnif false n) n { terms := [q.term] } (f.code, f)) : a.2 = [] := by
  obtain ⟨-, m, h1, h2⟩ := mem_single.1 h
  have hg := ground_agree (ar := ar) n
  have hd : AUDiff ar (addUnif false n) := fun a b s r ga gb gs h =>
    strict_diff n a b s r ga gb gs (hg a b s r (Or.inl ga) gs h).1
  obtain ⟨a1, -, -⟩ := G1.exec hg f.code (code_ground hf) (m := { terms := [q.term] }) rfl Subst.Gd.nil h1
  obtain ⟨b1, -⟩ := G2.exec (au' := addUnif true n) Subst.Gd.nil hd f.code (m := { terms := [q.term] })
    ⟨rfl, by simpa [Atom.Gd] using hq, by simp, by simp, rfl⟩ h1
  rw [a1, b1.mt] at h2
  simp only [compute, computeLoop, Res.bind_ok, Res.ok.injEq] at h2
  obtain ⟨_, rfl, E, hE, T, hT, r, hr, he⟩ := h2
  have e1 := elimBoth_ground' (ar := ar) Subst.Gd.nil hE
  have e2 := elimBoth_ground' (ar := ar) Subst.Gd.nil hT
  subst e1; subst e2
  simp only [merge, List.isEmpty_nil, if_true, Res.ok.injEq] at hr
  subst hr
  exact elimBoth_ground' (ar := ar) Subst.Gd.nil he

/-- The answers for ground formulas: no substitution, and one exactly if the atom is stored. -/
theorem oracle_ground {U : Incr.Oracle} (hU : Deep U) {time : Nat} {neg : List Atom} {q : Atom} {l : List Subst}
    (h : U time neg q = some l) (hn : ∀ f ∈ neg, f.Gd ar) (hq : q.Gd ar) : (∀ s ∈ l, s = []) ∧ (l ≠ [] ↔ q ∈ neg) := by
  obtain ⟨n, t, out, ht, hs, rfl⟩ := hU _ _ _ _ h
  have hfl : [neg].flatten = neg := by simp
  constructor
  · intro s hs'
    obtain ⟨a, ha, rfl⟩ := List.mem_map.1 hs'
    have hm := (C30_search_exact [neg] t ht q _ out hs).mem_iff.1 ha
    simp only [List.mem_flatMap, List.mem_dedup, hfl] at hm
    obtain ⟨f, h1, h2⟩ := hm
    exact single_nil (hn f h1) hq h2
  · have hex := C30_ground_exact (ar := ar) [neg] t ht q n out hs (by rw [hfl]; exact fun f hf => (hn f hf).1) hq.1 hq.2
    rw [hfl] at hex
    constructor
    · intro hne
      obtain ⟨s, hs'⟩ := List.exists_mem_of_ne_nil _ hne
      obtain ⟨⟨f, r⟩, ha, -⟩ := List.mem_map.1 hs'
      obtain ⟨h1, σ, h2⟩ := (hex f).1 ⟨r, ha⟩
      rw [UT.inst_ground (hn f h1).2] at h2
      have : f = q := by
        obtain ⟨p, as⟩ := f; obtain ⟨p', as'⟩ := q
        simpa [Atom.term] using h2
      exact this ▸ h1
    · intro hm
      obtain ⟨r, hr⟩ := (hex q).2 ⟨hm, UT.mv, UT.inst_ground hq.2 _⟩
      intro e
      have : r ∈ out.map (·.2) := List.mem_map.2 ⟨_, hr, rfl⟩
      rw [e] at this; cases this

/-! ### Formulas without equality -/

mutual
/-- The predicate `q` does not occur. -/
def NoPred (q : Nat) : Form → Prop
  | .pred p _ _ => p ≠ q
  | .top => True
  | .bot => True
  | .neg f => NoPred q f
  | .and fs => NoPredL q fs
  | .or fs => NoPredL q fs
  | .imp f g => NoPred q f ∧ NoPred q g
  | .equ f g => NoPred q f ∧ NoPred q g
  | .all _ f => NoPred q f
  | .ex _ f => NoPred q f
def NoPredL (q : Nat) : List Form → Prop
  | [] => True
  | f :: fs => NoPred q f ∧ NoPredL q fs
end

theorem NoPredL_iff {q : Nat} {l : List Form} : NoPredL q l ↔ ∀ f ∈ l, NoPred q f := by
  induction l with
  | nil => simp [NoPredL]
  | cons f l ih => simp [NoPredL, ih]

theorem NoPred.repl {q : Nat} {old new : Term} {f : Form} (h : NoPred q f) : NoPred q (f.replaceTermByTerm old new).1 := by
  induction f using Form.ind with
  | pred p tys args => exact h
  | top => trivial
  | bot => trivial
  | neg f ih => exact ih h
  | and fs ih =>
    simp only [NoPred, Form.replaceTermByTerm, Form.replaceTermByTermL_fst, NoPredL_iff, List.forall_mem_map] at h ⊢
    exact fun f hf => ih f hf (h f hf)
  | or fs ih =>
    simp only [NoPred, Form.replaceTermByTerm, Form.replaceTermByTermL_fst, NoPredL_iff, List.forall_mem_map] at h ⊢
    exact fun f hf => ih f hf (h f hf)
  | imp f g ihf ihg => exact ⟨ihf h.1, ihg h.2⟩
  | equ f g ihf ihg => exact ⟨ihf h.1, ihg h.2⟩
  | all vs f ih => exact ih h
  | ex vs f ih => exact ih h

theorem NoPred.sko {q sk : Nat} {args : List Nat} {F g : Form} (h : NoPred q F) (hs : skolemize sk args F = some g) : NoPred q g := by
  cases hp : deltaParts F with
  | none =>
    have : skolemize sk args F = none := by
      unfold skolemize
      unfold deltaParts at hp
      split at hp <;> first | cases hp | skip
      split <;> simp_all
    rw [this] at hs; cases hs
  | some x =>
    obtain ⟨v, b⟩ := x
    rw [skolemize_parts hp] at hs
    cases hs
    apply NoPred.repl
    unfold deltaParts at hp
    split at hp <;> cases hp
    · unfold alls; split <;> exact h
    · unfold exs; split <;> exact h

/-- The shape of the formulas: ground (`none`), or with quantifiers for the delta rule only, the symbols being below a bound. -/
def Shape (ar : Nat → Nat) (B : Nat) : Option Nat → Form → Prop
  | none, f => Plain ar B f
  | some c, f => Exist ar B true f ∧ WF f c

/-- Formulas of this shape without equality. -/
def Gr (ar : Nat → Nat) (B eq : Nat) (cb : Option Nat) (f : Form) : Prop := Shape ar B cb f ∧ NoPred eq f

/-- The bound after one more step. -/
def up (cb : Option Nat) : Option Nat := cb.map (· + 1)

variable {eq : Nat} {cb : Option Nat}

theorem Gr.up {f : Form} (h : Gr ar B eq cb f) : Gr ar B eq (up cb) f := by
  cases cb with
  | none => exact h
  | some c => exact ⟨⟨h.1.1, h.1.2.mono (Nat.le_succ c)⟩, h.2⟩

theorem Gr.lit {f : Form} (h : Gr ar B eq cb f) (hl : IsLiteral f) : Plain ar B f := by
  cases cb with
  | none => exact h.1
  | some c => exact h.1.1.lit hl h.1.2.closed

theorem Gr.pos {p : Nat} {tys : List Ty} {args : List Term} (h : Gr ar B eq cb (.pred p tys args)) : Plain ar B (.pred p tys args) :=
  h.lit (Or.inl (Or.inl ⟨_, _, _, rfl⟩))

theorem Gr.neg {p : Nat} {tys : List Ty} {args : List Term} (h : Gr ar B eq cb (.neg (.pred p tys args))) : Plain ar B (.pred p tys args) := by
  have := h.lit (Or.inr ⟨_, Or.inl ⟨_, _, _, rfl⟩, rfl⟩)
  rwa [Plain] at this

private theorem alpha_none {f : Form} (h : Plain ar B f ∧ NoPred eq f) : ∀ g ∈ applyAlpha f, Plain ar B g ∧ NoPred eq g := by
  intro g hg
  unfold applyAlpha at hg
  split at hg <;> (try simp only [Plain, NoPred, PlainL_iff, NoPredL_iff] at h) <;>
    simp only [mem_appendNew, mem_foldl_appendNew, mem_foldl_appendNew_id, List.not_mem_nil, false_or] at hg
  · subst hg; exact h
  · obtain ⟨x, hx, rfl⟩ := hg; exact ⟨h.1.2.2 x hx, h.2 x hx⟩
  · rcases hg with rfl | rfl
    · exact ⟨h.1.1, h.2.1⟩
    · exact ⟨h.1.2, h.2.2⟩
  · exact ⟨h.1.2.2 g hg, h.2 g hg⟩

private theorem beta_none {f : Form} (h : Plain ar B f ∧ NoPred eq f) :
    (applyBeta f).length ≤ max 2 B ∧ ∀ l ∈ applyBeta f, ∀ g ∈ l, Plain ar B g ∧ NoPred eq g := by
  unfold applyBeta
  split <;> (try simp only [Plain, NoPred, PlainL_iff, NoPredL_iff] at h)
  · refine ⟨by simp only [List.length_map]; omega, ?_⟩
    intro l hl g hg
    obtain ⟨x, hx, rfl⟩ := List.mem_map.1 hl
    simp only [List.mem_singleton] at hg; subst hg
    exact ⟨h.1.2.2 x hx, h.2 x hx⟩
  · refine ⟨by simp only [List.length_cons, List.length_nil]; omega, ?_⟩
    simp [Plain, NoPred]; tauto
  · refine ⟨by simp only [List.length_map]; omega, ?_⟩
    intro l hl g hg
    obtain ⟨x, hx, rfl⟩ := List.mem_map.1 hl
    simp only [List.mem_singleton] at hg; subst hg
    exact ⟨h.1.2.2 g hx, h.2 g hx⟩
  · refine ⟨by simp only [List.length_cons, List.length_nil]; omega, ?_⟩
    simp [Plain, NoPred]; tauto
  · refine ⟨by simp only [List.length_cons, List.length_nil]; omega, ?_⟩
    simp [Plain, NoPred]; tauto
  · simp

theorem NoPred.alpha {f : Form} (h : NoPred eq f) : ∀ g ∈ applyAlpha f, NoPred eq g := by
  intro g hg
  unfold applyAlpha at hg
  split at hg <;> (try simp only [NoPred, NoPredL_iff] at h) <;>
    simp only [mem_appendNew, mem_foldl_appendNew, mem_foldl_appendNew_id, List.not_mem_nil, false_or] at hg
  · subst hg; exact h
  · obtain ⟨x, hx, rfl⟩ := hg; exact h x hx
  · rcases hg with rfl | rfl
    · exact h.1
    · exact h.2
  · exact h g hg

theorem NoPred.beta {f : Form} (h : NoPred eq f) : ∀ l ∈ applyBeta f, ∀ g ∈ l, NoPred eq g := by
  unfold applyBeta
  split <;> (try simp only [NoPred, NoPredL_iff] at h)
  · intro l hl g hg
    obtain ⟨x, hx, rfl⟩ := List.mem_map.1 hl
    simp only [List.mem_singleton] at hg; subst hg
    exact h x hx
  · simp [NoPred]; tauto
  · intro l hl g hg
    obtain ⟨x, hx, rfl⟩ := List.mem_map.1 hl
    simp only [List.mem_singleton] at hg; subst hg
    exact h g hx
  · simp [NoPred]; tauto
  · simp [NoPred]; tauto
  · simp

theorem Gr.alpha {f : Form} (h : Gr ar B eq cb f) : ∀ g ∈ applyAlpha f, Gr ar B eq cb g := by
  intro g hg
  cases cb with
  | none => exact alpha_none h g hg
  | some c => exact ⟨⟨h.1.1.alpha g hg, WF.alpha h.1.2 g hg⟩, h.2.alpha g hg⟩

theorem Gr.beta {f : Form} (h : Gr ar B eq cb f) :
    (applyBeta f).length ≤ max 2 B ∧ ∀ l ∈ applyBeta f, ∀ g ∈ l, Gr ar B eq cb g := by
  cases cb with
  | none => exact beta_none h
  | some c => exact ⟨h.1.1.beta.1, fun l hl g hg => ⟨⟨h.1.1.beta.2 l hl g hg, WF.beta h.1.2 l hl g hg⟩, h.2.beta l hl g hg⟩⟩

theorem Gr.not_universal {f : Form} (h : Gr ar B eq cb f) : ¬ IsUniversal f := by
  cases cb with
  | none => exact (Plain.not_quantified h.1).1
  | some c => exact h.1.1.not_universal

/-! ### Lists of formulas with terms -/

/-- The formulas of a list. -/
def fs (l : List FT) : List Form := l.map (·.form)

theorem mem_fs_addFT {l : List FT} {f : FT} {g : Form} : g ∈ fs (addFT l f) ↔ g ∈ fs l ∨ g = f.form := by
  unfold addFT
  split
  · rename_i h
    simp only [List.any_eq_true, FT.same, Bool.and_eq_true, decide_eq_true_eq] at h
    obtain ⟨x, hx, e, -⟩ := h
    constructor
    · exact Or.inl
    · rintro (h | rfl)
      · exact h
      · exact List.mem_map.2 ⟨x, hx, e.symm⟩
  · simp [fs]

theorem mem_fs_mergeFT {l' l : List FT} {g : Form} : g ∈ fs (mergeFT l l') ↔ g ∈ fs l ∨ g ∈ fs l' := by
  unfold mergeFT
  induction l' generalizing l with
  | nil => simp [fs]
  | cons f l' ih =>
    rw [List.foldl_cons, ih, mem_fs_addFT]
    simp [fs, or_assoc]

theorem weight_addFT {l : List FT} {f : FT} : weightL true (fs (addFT l f)) ≤ weightL true (fs l) + weight true f.form := by
  unfold addFT
  split
  · omega
  · simp [fs, weightL_append, weightL]

/-- All formulas that are still to be taken into account. -/
def Data.parts (d : Data) : List Form := fs d.atomic ++ fs d.alpha ++ fs d.beta ++ fs d.delta

def Data.wt (d : Data) : Nat := weightL true (fs d.lf) + weightL true d.parts

/-- A state on which only such formulas have been seen and which is not closed. -/
structure Good (ar : Nat → Nat) (B eq : Nat) (cb : Option Nat) (d : Data) : Prop where
  lf : ∀ f ∈ fs d.lf, Gr ar B eq cb f
  parts : ∀ f ∈ d.parts, Gr ar B eq cb f
  atomic : ∀ f ∈ fs d.atomic, IsLiteral f
  alpha : ∀ f ∈ fs d.alpha, IsConjunctive f
  beta : ∀ f ∈ fs d.beta, IsDisjunctive f
  delta : ∀ f ∈ fs d.delta, IsExistential f
  gamma : d.gamma = []
  gen : d.metaGen = []
  mm : d.mm = []
  mc : d.mc = []
  applied : d.applied = []
  found : d.found = []
  bot : .bot ∉ fs d.atomic
  top : .neg .top ∉ fs d.atomic
  cons : ∀ p tys args, .pred p tys args ∈ fs d.atomic → .neg (.pred p tys args) ∉ fs d.atomic

theorem Good.up {d : Data} (h : Good ar B eq cb d) : Good ar B eq (up cb) d :=
  ⟨fun f hf => (h.lf f hf).up, fun f hf => (h.parts f hf).up, h.atomic, h.alpha, h.beta, h.delta, h.gamma, h.gen, h.mm, h.mc, h.applied, h.found,
    h.bot, h.top, h.cons⟩

/-- An interpretation with values for variables and metavariables (specification). -/
structure Mod where
  D : Type
  I : Interp D
  μ : Nat → D
  ρ : Nat → D

def Holds (I : Mod) (l : List Form) : Prop := ∀ f ∈ l, Form.holds I.I I.μ I.ρ f

/-- All formulas of the state hold. -/
def Data.holds (I : Mod) (d : Data) : Prop := Holds I (fs d.lf) ∧ Holds I d.parts

theorem holds_append {I : Mod} {l l' : List Form} : Holds I (l ++ l') ↔ Holds I l ∧ Holds I l' := by
  simp [Holds, or_imp, forall_and]

theorem showKind_gr {f : Form} (h : Gr ar B eq cb f) :
    showKind f = .atomic ∨ showKind f = .alpha ∨ showKind f = .beta ∨ showKind f = .delta := by
  obtain ⟨-, -, -, d, -⟩ := showKind_spec f
  cases hk : showKind f with
  | gamma => exact absurd (d.1 hk) h.not_universal
  | _ => simp

theorem mem_parts {d : Data} {g : Form} : g ∈ d.parts ↔ g ∈ fs d.atomic ∨ g ∈ fs d.alpha ∨ g ∈ fs d.beta ∨ g ∈ fs d.delta := by
  simp [Data.parts, or_assoc]

/-- Dispatching a ground formula that is not a literal keeps everything else. -/
structure Disp (d d' : Data) (add : List Form) : Prop where
  parts : ∀ g, g ∈ d'.parts ↔ g ∈ d.parts ∨ g ∈ add
  atomic : ∀ g, g ∈ fs d'.atomic ↔ g ∈ fs d.atomic ∨ (g ∈ add ∧ IsLiteral g)
  alpha : ∀ g, g ∈ fs d'.alpha → g ∈ fs d.alpha ∨ IsConjunctive g
  beta : ∀ g, g ∈ fs d'.beta → g ∈ fs d.beta ∨ IsDisjunctive g
  delta : ∀ g, g ∈ fs d'.delta → g ∈ fs d.delta ∨ IsExistential g
  wt : weightL true d'.parts ≤ weightL true d.parts + weightL true add
  rest : d'.lf = d.lf ∧ d'.gamma = d.gamma ∧ d'.metaGen = d.metaGen ∧ d'.mm = d.mm ∧ d'.mc = d.mc ∧
    d'.applied = d.applied ∧ d'.found = d.found ∧ d'.n = d.n

theorem Disp.refl (d : Data) : Disp d d [] := by
  refine ⟨by simp, by simp, fun g h => Or.inl h, fun g h => Or.inl h, fun g h => Or.inl h, by simp [weightL], by simp⟩

theorem Disp.trans {d d' d'' : Data} {a b : List Form} (h : Disp d d' a) (h' : Disp d' d'' b) : Disp d d'' (a ++ b) := by
  constructor
  · intro g; rw [h'.parts, h.parts]; simp [or_assoc]
  · intro g; rw [h'.atomic, h.atomic]; simp only [List.mem_append]; tauto
  · intro g hg; rcases h'.alpha g hg with x | x
    · exact h.alpha g x
    · exact Or.inr x
  · intro g hg; rcases h'.beta g hg with x | x
    · exact h.beta g x
    · exact Or.inr x
  · intro g hg; rcases h'.delta g hg with x | x
    · exact h.delta g x
    · exact Or.inr x
  · have := h.wt; have := h'.wt; rw [weightL_append]; omega
  · have a := h.rest; have b := h'.rest
    simp only [b, a, and_self]

theorem Disp.one {d : Data} {f : FT} (h : Gr ar B eq cb f.form) : Disp d (d.dispatch f) [f.form] := by
  obtain ⟨s1, s2, s3, -, s5⟩ := showKind_spec f.form
  unfold Data.dispatch
  rcases showKind_gr h with hk | hk | hk | hk <;> simp only [hk]
  · have hl : IsLiteral f.form := s1.1 hk
    refine ⟨?_, ?_, fun g h => Or.inl h, fun g h => Or.inl h, fun g h => Or.inl h, ?_, by simp⟩
    · intro g; simp only [mem_parts, mem_fs_addFT, List.mem_singleton]; tauto
    · intro g; simp only [mem_fs_addFT, List.mem_singleton]
      constructor
      · rintro (h | rfl)
        · exact Or.inl h
        · exact Or.inr ⟨rfl, hl⟩
      · rintro (h | ⟨rfl, -⟩)
        · exact Or.inl h
        · exact Or.inr rfl
    · have := @weight_addFT d.atomic f
      simp only [Data.parts, weightL_append, weightL]; omega
  · have hl : ¬ IsLiteral f.form := by rw [← s1, hk]; simp
    refine ⟨?_, ?_, ?_, fun g h => Or.inl h, fun g h => Or.inl h, ?_, by simp⟩
    · intro g; simp only [mem_parts, mem_fs_addFT, List.mem_singleton]; tauto
    · intro g; simp only [List.mem_singleton]
      constructor
      · exact Or.inl
      · rintro (h | ⟨rfl, h⟩)
        · exact h
        · exact absurd h hl
    · intro g; rw [mem_fs_addFT]
      rintro (h | rfl)
      · exact Or.inl h
      · exact Or.inr (s2.1 hk)
    · have := @weight_addFT d.alpha f
      simp only [Data.parts, weightL_append, weightL]; omega
  · have hl : ¬ IsLiteral f.form := by rw [← s1, hk]; simp
    refine ⟨?_, ?_, fun g h => Or.inl h, ?_, fun g h => Or.inl h, ?_, by simp⟩
    · intro g; simp only [mem_parts, mem_fs_addFT, List.mem_singleton]; tauto
    · intro g; simp only [List.mem_singleton]
      constructor
      · exact Or.inl
      · rintro (h | ⟨rfl, h⟩)
        · exact h
        · exact absurd h hl
    · intro g; rw [mem_fs_addFT]
      rintro (h | rfl)
      · exact Or.inl h
      · exact Or.inr (s3.1 hk)
    · have := @weight_addFT d.beta f
      simp only [Data.parts, weightL_append, weightL]; omega
  · have hl : ¬ IsLiteral f.form := by rw [← s1, hk]; simp
    refine ⟨?_, ?_, fun g h => Or.inl h, fun g h => Or.inl h, ?_, ?_, by simp⟩
    · intro g; simp only [mem_parts, mem_fs_addFT, List.mem_singleton]; tauto
    · intro g; simp only [List.mem_singleton]
      constructor
      · exact Or.inl
      · rintro (h | ⟨rfl, h⟩)
        · exact h
        · exact absurd h hl
    · intro g; rw [mem_fs_addFT]
      rintro (h | rfl)
      · exact Or.inl h
      · exact Or.inr (s5.1 hk)
    · have := @weight_addFT d.delta f
      simp only [Data.parts, weightL_append, weightL]; omega

theorem Disp.foldl {l : List FT} : ∀ {d : Data}, (∀ f ∈ fs l, Gr ar B eq cb f) → Disp d (l.foldl Data.dispatch d) (fs l) := by
  induction l with
  | nil => intro d _; exact Disp.refl d
  | cons f l ih =>
    intro d h
    exact (Disp.one (h _ (by simp [fs]))).trans (ih fun g hg => h g (by simp [fs] at hg ⊢; exact Or.inr hg))

/-- The loop over the new formulas. -/
theorem dispatchLF_spec : ∀ (l : List FT) (d : Data) (new : List FT), (∀ f ∈ fs l, Gr ar B eq cb f) →
    ((dispatchLF l d new).2.2 = true → (.bot ∈ fs l ∨ .neg .top ∈ fs l) ∧ ∃ a, Disp d (dispatchLF l d new).1 a) ∧
    ((dispatchLF l d new).2.2 = false → ∃ a b, (dispatchLF l d new).2.1 = new ++ b ∧ Disp d (dispatchLF l d new).1 a ∧
      (∀ g, g ∈ fs l ↔ g ∈ a ∨ g ∈ fs b) ∧ (∀ g ∈ fs b, IsLiteral g ∧ g ≠ .bot ∧ g ≠ .neg .top) ∧ (∀ g ∈ a, ¬ IsLiteral g) ∧
      weightL true a + weightL true (fs b) = weightL true (fs l)) := by
  intro l
  induction l with
  | nil =>
    intro d new _
    refine ⟨by simp [dispatchLF], fun _ => ⟨[], [], by simp [dispatchLF], Disp.refl d, by simp [fs], by simp [fs], by simp, by simp [fs, weightL]⟩⟩
  | cons f l ih =>
    intro d new h
    have hf : Gr ar B eq cb f.form := h _ (by simp [fs])
    have hl : ∀ g ∈ fs l, Gr ar B eq cb g := fun g hg => h g (by simp [fs] at hg ⊢; exact Or.inr hg)
    obtain ⟨s1, -⟩ := showKind_spec f.form
    simp only [dispatchLF]
    by_cases hk : showKind f.form = .atomic
    · simp only [hk, if_true]
      by_cases ho : obvious f.form = true
      · simp only [ho, if_true, true_implies, Bool.true_eq_false, false_implies, and_true]
        refine ⟨?_, [], Disp.refl d⟩
        unfold obvious at ho
        split at ho
        · rename_i e; exact Or.inl (by simp [fs, e])
        · rename_i e; exact Or.inr (by simp [fs, e])
        · cases ho
      · simp only [ho, Bool.false_eq_true, if_false]
        obtain ⟨i1, i2⟩ := ih d (new ++ [f]) hl
        constructor
        · intro hh
          obtain ⟨x, y⟩ := i1 hh
          exact ⟨by simp only [fs, List.map_cons, List.mem_cons] at x ⊢; tauto, y⟩
        · intro hh
          obtain ⟨a, b, e1, e2, e3, e4, e5, e6⟩ := i2 hh
          refine ⟨a, f :: b, by rw [e1]; simp, e2, ?_, ?_, e5, ?_⟩
          · intro g; have := e3 g; simp only [fs, List.map_cons, List.mem_cons] at this ⊢; tauto
          · intro g hg
            simp only [fs, List.map_cons, List.mem_cons] at hg
            rcases hg with rfl | hg
            · refine ⟨s1.1 hk, ?_, ?_⟩ <;> intro e <;> rw [e] at ho <;> simp [obvious] at ho
            · exact e4 g hg
          · simp only [fs, List.map_cons, weightL] at e6 ⊢; omega
    · simp only [hk, if_false]
      obtain ⟨i1, i2⟩ := ih (d.dispatch f) new hl
      constructor
      · intro hh
        obtain ⟨x, a, y⟩ := i1 hh
        exact ⟨by simp only [fs, List.map_cons, List.mem_cons] at x ⊢; tauto, _, (Disp.one hf).trans y⟩
      · intro hh
        obtain ⟨a, b, e1, e2, e3, e4, e5, e6⟩ := i2 hh
        refine ⟨[f.form] ++ a, b, e1, (Disp.one hf).trans e2, ?_, e4, ?_, ?_⟩
        · intro g; have := e3 g; simp only [fs, List.map_cons, List.mem_cons, List.cons_append, List.nil_append] at this ⊢; tauto
        · intro g hg
          simp only [List.cons_append, List.nil_append, List.mem_cons] at hg
          rcases hg with rfl | hg
          · rw [← s1]; exact hk
          · exact e5 g hg
        · simp only [fs, List.map_cons, weightL, List.cons_append, List.nil_append] at e6 ⊢; omega

/-! ### Closure -/

theorem mem_posAtoms {l : List FT} {a : Atom} : a ∈ posAtoms l ↔ ∃ p tys args, .pred p tys args ∈ fs l ∧ a = ⟨p, utOfL args⟩ := by
  simp only [posAtoms, List.mem_filterMap, fs, List.mem_map]
  constructor
  · rintro ⟨f, hf, h⟩
    split at h
    · rename_i p tys args e
      exact ⟨p, tys, args, ⟨f, hf, e⟩, by simpa using h.symm⟩
    · cases h
  · rintro ⟨p, tys, args, ⟨f, hf, e⟩, rfl⟩
    exact ⟨f, hf, by simp [e]⟩

theorem mem_negAtoms {l : List FT} {a : Atom} :
    a ∈ negAtoms l ↔ ∃ p tys args, .neg (.pred p tys args) ∈ fs l ∧ a = ⟨p, utOfL args⟩ := by
  simp only [negAtoms, List.mem_filterMap, fs, List.mem_map]
  constructor
  · rintro ⟨f, hf, h⟩
    split at h
    · rename_i p tys args e
      exact ⟨p, tys, args, ⟨f, hf, e⟩, by simpa using h.symm⟩
    · cases h
  · rintro ⟨p, tys, args, ⟨f, hf, e⟩, rfl⟩
    exact ⟨f, hf, by simp [e]⟩

theorem mem_filterPos {l : List FT} {g : Form} : g ∈ fs (filterPos l) ↔ g ∈ fs l ∧ ∃ p tys args, g = .pred p tys args := by
  unfold filterPos
  suffices ∀ r, g ∈ fs (l.foldl (fun r f => match f.form with
      | .pred _ _ _ => addFT r f
      | _ => r) r) ↔ g ∈ fs r ∨ g ∈ fs l ∧ ∃ p tys args, g = .pred p tys args by
    exact (this []).trans (by simp [fs])
  induction l with
  | nil => intro r; simp [fs]
  | cons f l ih =>
    intro r
    rw [List.foldl_cons, ih]
    split
    · rename_i p tys args e
      rw [mem_fs_addFT]
      simp only [fs, List.map_cons, List.mem_cons]
      constructor
      · rintro ((h | rfl) | h)
        · exact Or.inl h
        · exact Or.inr ⟨Or.inl rfl, p, tys, args, e⟩
        · exact Or.inr ⟨Or.inr h.1, h.2⟩
      · rintro (h | ⟨h | h, h'⟩)
        · exact Or.inl (Or.inl h)
        · exact Or.inl (Or.inr h)
        · exact Or.inr ⟨h, h'⟩
    · rename_i hne
      simp only [fs, List.map_cons, List.mem_cons]
      constructor
      · rintro (h | h)
        · exact Or.inl h
        · exact Or.inr ⟨Or.inr h.1, h.2⟩
      · rintro (h | ⟨h | h, p, tys, args, h'⟩)
        · exact Or.inl h
        · exact absurd (h ▸ h') (hne p tys args)
        · exact Or.inr ⟨h, p, tys, args, h'⟩

theorem mem_filterNeg {l : List FT} {g : Form} : g ∈ fs (filterNeg l) ↔ g ∈ fs l ∧ ∃ p tys args, g = .neg (.pred p tys args) := by
  unfold filterNeg
  suffices ∀ r, g ∈ fs (l.foldl (fun r f => match f.form with
      | .neg (.pred _ _ _) => addFT r f
      | _ => r) r) ↔ g ∈ fs r ∨ g ∈ fs l ∧ ∃ p tys args, g = .neg (.pred p tys args) by
    exact (this []).trans (by simp [fs])
  induction l with
  | nil => intro r; simp [fs]
  | cons f l ih =>
    intro r
    rw [List.foldl_cons, ih]
    split
    · rename_i p tys args e
      rw [mem_fs_addFT]
      simp only [fs, List.map_cons, List.mem_cons]
      constructor
      · rintro ((h | rfl) | h)
        · exact Or.inl h
        · exact Or.inr ⟨Or.inl rfl, p, tys, args, e⟩
        · exact Or.inr ⟨Or.inr h.1, h.2⟩
      · rintro (h | ⟨h | h, h'⟩)
        · exact Or.inl (Or.inl h)
        · exact Or.inl (Or.inr h)
        · exact Or.inr ⟨h, h'⟩
    · rename_i hne
      simp only [fs, List.map_cons, List.mem_cons]
      constructor
      · rintro (h | h)
        · exact Or.inl h
        · exact Or.inr ⟨Or.inr h.1, h.2⟩
      · rintro (h | ⟨h | h, p, tys, args, h'⟩)
        · exact Or.inl h
        · exact absurd (h ▸ h') (hne p tys args)
        · exact Or.inr ⟨h, p, tys, args, h'⟩

/-- The literal has its complement among the stored atoms. -/
def Meets (pos neg : List Atom) (f : Form) : Prop :=
  ∃ p tys args, (f = .pred p tys args ∧ (⟨p, utOfL args⟩ : Atom) ∈ neg) ∨ (f = .neg (.pred p tys args) ∧ (⟨p, utOfL args⟩ : Atom) ∈ pos)

theorem foldl_addNew {l : List Subst} (h : ∀ s ∈ l, s = []) : l.foldl Clean.addNew [] = if l = [] then [] else [[]] := by
  cases l with
  | nil => rfl
  | cons a l =>
    obtain rfl := h a (by simp)
    simp only [List.foldl_cons, reduceCtorEq, if_false]
    have : Clean.addNew [] [] = [[]] := rfl
    rw [this]
    have hl : ∀ s ∈ l, s = [] := fun s hs => h s (by simp [hs])
    clear h this
    induction l with
    | nil => rfl
    | cons b l ih =>
      obtain rfl := hl b (by simp)
      rw [List.foldl_cons, show Clean.addNew [[]] [] = [[]] from rfl]
      exact ih fun s hs => hl s (by simp [hs])

/-- The closure rules on a ground literal. -/
theorem closure_ground {e : Env} (hU : Deep e.U) {time : Nat} {pos neg : List Atom} (hp : ∀ a ∈ pos, a.Gd ar) (hn : ∀ a ∈ neg, a.Gd ar)
    {f : Form} (hf : Gr ar B e.eq cb f) (hl : IsLiteral f) (hb : f ≠ .bot) (ht : f ≠ .neg .top) {x : Option (List Subst)}
    (h : closure e time pos neg f = some x) : (x = none ∧ ¬ Meets pos neg f) ∨ (x = some [[]] ∧ Meets pos neg f) := by
  have key : ∀ (p : Nat) (tys : List Ty) (args : List Term) (st : List Atom) (l : List Subst), Plain ar B (.pred p tys args) →
      (∀ a ∈ st, a.Gd ar) → e.U time st ⟨p, utOfL args⟩ = some l →
      (l.foldl Clean.addNew [] = [] ∧ (⟨p, utOfL args⟩ : Atom) ∉ st) ∨ (l.foldl Clean.addNew [] = [[]] ∧ (⟨p, utOfL args⟩ : Atom) ∈ st) := by
    intro p tys args st l hpl hst hu
    obtain ⟨h1, h2⟩ := oracle_ground hU hu hst (plain_pred hpl)
    rw [foldl_addNew h1]
    by_cases hm : (⟨p, utOfL args⟩ : Atom) ∈ st
    · exact Or.inr ⟨by rw [if_neg (h2.2 hm)], hm⟩
    · exact Or.inl ⟨by rw [if_pos (by by_contra hh; exact hm (h2.1 hh))], hm⟩
  unfold closure at h
  rcases hl with (⟨p, tys, args, rfl⟩ | rfl | rfl) | ⟨g, ⟨p, tys, args, rfl⟩ | rfl | rfl, rfl⟩
  · simp only [obvious, Bool.false_eq_true, if_false, inequality, contrary] at h
    cases hu : e.U time neg ⟨p, utOfL args⟩ with
    | none => rw [hu] at h; cases h
    | some l =>
      rw [hu] at h
      simp only [Option.some.injEq, Option.toList_none] at h
      rcases key p tys args neg l hf.pos hn hu with ⟨h1, h2⟩ | ⟨h1, h2⟩
      · left; simp only [h1] at h; exact ⟨by simpa using h.symm, by rintro ⟨p', t', a', ⟨h3, h4⟩ | ⟨h3, -⟩⟩ <;> cases h3; exact h2 h4⟩
      · right; simp only [h1] at h; exact ⟨by simpa using h.symm, p, tys, args, Or.inl ⟨rfl, h2⟩⟩
  · left
    simp only [obvious, Bool.false_eq_true, if_false, inequality, contrary, Option.some.injEq, Option.toList_none, List.foldl_nil, if_true] at h
    exact ⟨h.symm, by rintro ⟨p', t', a', ⟨h3, -⟩ | ⟨h3, -⟩⟩ <;> cases h3⟩
  · exact absurd rfl hb
  · have hne : p ≠ e.eq := by have := hf.2; simpa [NoPred] using this
    have hpl : Plain ar B (.pred p tys args) := hf.neg
    simp only [obvious, Bool.false_eq_true, if_false, inequality, contrary, hne] at h
    cases hu : e.U time pos ⟨p, utOfL args⟩ with
    | none => rw [hu] at h; cases h
    | some l =>
      rw [hu] at h
      simp only [Option.some.injEq, Option.toList_none] at h
      rcases key p tys args pos l hpl hp hu with ⟨h1, h2⟩ | ⟨h1, h2⟩
      · left; simp only [h1] at h; exact ⟨by simpa using h.symm, by rintro ⟨p', t', a', ⟨h3, -⟩ | ⟨h3, h4⟩⟩ <;> cases h3; exact h2 h4⟩
      · right; simp only [h1] at h; exact ⟨by simpa using h.symm, p, tys, args, Or.inr ⟨rfl, h2⟩⟩
  · exact absurd rfl ht
  · left
    simp only [obvious, Bool.false_eq_true, if_false, inequality, contrary, Option.some.injEq, Option.toList_none, List.foldl_nil, if_true] at h
    exact ⟨h.symm, by rintro ⟨p', t', a', ⟨h3, -⟩ | ⟨h3, -⟩⟩ <;> cases h3⟩

/-- The closure rules answer if the index does. -/
theorem closure_some {e : Env} (hans : Incr.Answers ar e.U) {time : Nat} {pos neg : List Atom} (hp : ∀ a ∈ pos, a.Gd ar)
    (hn : ∀ a ∈ neg, a.Gd ar) {f : Form} (hg : Plain ar B f) (hf : NoPred e.eq f) : ∃ x, closure e time pos neg f = some x := by
  have hi : inequality e f = some none := by
    unfold inequality
    split
    · rename_i p tys args
      rw [if_neg (by simpa [NoPred] using hf)]
    · rfl
  have hc : ∃ l, contrary e time pos neg f = some l := by
    unfold contrary
    split
    · exact Option.ne_none_iff_exists'.1 (hans _ _ _ hn (plain_pred hg))
    · rw [Plain] at hg
      exact Option.ne_none_iff_exists'.1 (hans _ _ _ hp (plain_pred hg))
    · exact ⟨_, rfl⟩
  obtain ⟨l, hl⟩ := hc
  unfold closure
  rw [hi, hl]
  split
  · exact ⟨_, rfl⟩
  · exact ⟨_, rfl⟩

theorem clean_nil {n : Nat} (h : 0 < n) : Clean.clean n [] [] = .ok [] := by
  obtain ⟨k, rfl⟩ := Nat.exists_eq_add_one.2 h
  simp [Clean.clean, Clean.rounds, Res.bind, Clean.reorganize, Clean.reorgLoop, elimBoth_ground (ar := fun _ => 0) k Subst.Gd.nil, merge, Clean.failPanic]

theorem close_ground {e : Env} (hfu : 0 < e.fuel) {d : Data} (hm : d.mm = []) (ha : d.applied = []) {substs : List Subst}
    (hs : substs = [] ∨ substs = [[]]) : close e d substs = some (.answer true false { d with found := [[]] }) := by
  unfold close
  rw [hm, ha]
  rcases hs with rfl | rfl
  · simp [Clean.dispatch]
  · have : Clean.dispatch e.fuel (uni [] (substMetas [])) [[]] {} = .ok { withoutMM := [[]] } := by
      simp [Clean.dispatch, uni, substMetas, clean_nil hfu, Res.bind, Clean.sortOne, Clean.addNew]
    rw [this]
    simp

/-- The first literal that closes the branch. -/
theorem closeFirst_ground {e : Env} (hU : Deep e.U) (hfu : 0 < e.fuel) {time : Nat} {pos neg : List Atom} (hp : ∀ a ∈ pos, a.Gd ar)
    (hn : ∀ a ∈ neg, a.Gd ar) {d : Data} (hm : d.mm = []) (ha : d.applied = []) : ∀ (l : List FT),
    (∀ f ∈ fs l, Gr ar B e.eq cb f ∧ IsLiteral f ∧ f ≠ .bot ∧ f ≠ .neg .top) → ∀ x, closeFirst e time pos neg d l = some x →
    (x = none ∧ ∀ f ∈ fs l, ¬ Meets pos neg f) ∨ (x = some (.answer true false { d with found := [[]] }) ∧ ∃ f ∈ fs l, Meets pos neg f)
  | [], _, x, h => by
    simp only [closeFirst, Option.some.injEq] at h
    exact Or.inl ⟨h.symm, by simp [fs]⟩
  | f :: l, hl, x, h => by
    obtain ⟨f1, f2, f3, f4⟩ := hl f.form (by simp [fs])
    simp only [closeFirst] at h
    cases hc : closure e time pos neg f.form with
    | none => rw [hc] at h; cases h
    | some y =>
      rcases closure_ground hU hp hn f1 f2 f3 f4 hc with ⟨rfl, h1⟩ | ⟨rfl, h1⟩
      · rw [hc] at h
        rcases closeFirst_ground hU hfu hp hn hm ha l (fun g hg => hl g (by simp [fs] at hg ⊢; exact Or.inr hg)) x h with ⟨a, b⟩ | ⟨a, g, b, c⟩
        · refine Or.inl ⟨a, ?_⟩
          intro g hg
          simp only [fs, List.map_cons, List.mem_cons] at hg
          rcases hg with rfl | hg
          · exact h1
          · exact b g hg
        · exact Or.inr ⟨a, g, by simp [fs] at b ⊢; exact Or.inr b, c⟩
      · rw [hc] at h
        simp only [close_ground hfu hm ha (Or.inr rfl), Option.map_some, Option.some.injEq] at h
        exact Or.inr ⟨h.symm, f.form, by simp [fs], h1⟩

theorem closeFirst_some {e : Env} (hfu : 0 < e.fuel) (hU : Deep e.U) (hans : Incr.Answers ar e.U) {time : Nat} {pos neg : List Atom}
    (hp : ∀ a ∈ pos, a.Gd ar) (hn : ∀ a ∈ neg, a.Gd ar) {d : Data} (hm : d.mm = []) (ha : d.applied = []) : ∀ (l : List FT),
    (∀ f ∈ fs l, Gr ar B e.eq cb f ∧ IsLiteral f ∧ f ≠ .bot ∧ f ≠ .neg .top) → ∃ x, closeFirst e time pos neg d l = some x
  | [], _ => ⟨_, rfl⟩
  | f :: l, hl => by
    obtain ⟨f1, f2, f3, f4⟩ := hl f.form (by simp [fs])
    obtain ⟨y, hy⟩ := closure_some hans (time := time) hp hn (f1.lit f2) f1.2
    simp only [closeFirst]
    rcases closure_ground hU hp hn f1 f2 f3 f4 hy with ⟨rfl, -⟩ | ⟨rfl, -⟩
    · rw [hy]
      exact closeFirst_some hfu hU hans hp hn hm ha l fun g hg => hl g (by simp [fs] at hg ⊢; exact Or.inr hg)
    · rw [hy]
      simp only [close_ground hfu hm ha (Or.inr rfl), Option.map_some]
      exact ⟨_, rfl⟩

/-! ### One round -/

/-- Literals over the same atom. -/
theorem same_atom {p : Nat} {tys tys' : List Ty} {args args' : List Term} (h : Plain ar B (.pred p tys args)) (h' : Plain ar B (.pred p tys' args'))
    (e : utOfL args = utOfL args') : tys = tys' ∧ args = args' := by
  simp only [Plain] at h h'
  exact ⟨by rw [h.1, h'.1], utOfL_inj h.2.2 h'.2.2 e⟩

theorem Holds.subset {I : Mod} {l l' : List Form} (h : Holds I l') (hs : ∀ g ∈ l, g ∈ l') : Holds I l := fun g hg => h g (hs g hg)

/-- The state after the formulas have been dispatched. -/
structure Sorted (ar : Nat → Nat) (B eq : Nat) (cb : Option Nat) (d d2 : Data) (pos neg : List Atom) (lits : List FT) : Prop where
  holds : ∀ I, d.holds I ↔ Holds I d2.parts
  wt : weightL true d2.parts ≤ d.wt
  mm : d2.mm = [] ∧ d2.applied = []
  hlits : ∀ f ∈ fs lits, Gr ar B eq cb f ∧ IsLiteral f ∧ f ≠ .bot ∧ f ≠ .neg .top
  hpos : ∀ a ∈ pos, a.Gd ar
  hneg : ∀ a ∈ neg, a.Gd ar
  meets : (∃ f ∈ fs lits, Meets pos neg f) → ∀ I, ¬ d.holds I
  open_ : (∀ f ∈ fs lits, ¬ Meets pos neg f) → Good ar B eq cb { d2 with lf := [] }
  sub : ∀ g ∈ d2.parts, g ∈ fs d.lf ++ d.parts
  compl : ∀ f ∈ fs lits, Meets pos neg f → f ∈ d2.parts ∧ ∃ p tys args,
    (f = .pred p tys args ∧ .neg (.pred p tys args) ∈ d2.parts) ∨ (f = .neg (.pred p tys args) ∧ .pred p tys args ∈ d2.parts)

theorem sorted {d : Data} (hd : Good ar B eq cb d) :
    ((dispatchLF d.lf d []).2.2 = true → (dispatchLF d.lf d []).1.mm = [] ∧ (dispatchLF d.lf d []).1.applied = [] ∧ ∀ I, ¬ d.holds I) ∧
    ((dispatchLF d.lf d []).2.2 = false → ∀ new, new = (dispatchLF d.lf d []).2.1 →
      Sorted ar B eq cb d (new.foldl Data.dispatch (dispatchLF d.lf d []).1)
        (posAtoms (mergeFT (dispatchLF d.lf d []).1.atomic (filterPos new))) (negAtoms (mergeFT (dispatchLF d.lf d []).1.atomic (filterNeg new)))
        (filterPos new ++ filterNeg new)) := by
  obtain ⟨h1, h2⟩ := dispatchLF_spec d.lf d [] hd.lf
  constructor
  · intro ho
    obtain ⟨x, a, y⟩ := h1 ho
    have r := y.rest
    refine ⟨by rw [r.2.2.2.1, hd.mm], by rw [r.2.2.2.2.2.1, hd.applied], ?_⟩
    intro I hI
    rcases x with x | x
    · exact hI.1 _ x
    · have := hI.1 _ x; simp [Form.holds] at this
  · intro ho new hnew
    obtain ⟨a, b, e1, e2, e3, e4, e5, e6⟩ := h2 ho
    have hb : b = new := by rw [hnew, e1]; simp
    subst hb
    clear e1 hnew h1 h2
    have hbg : ∀ f ∈ fs b, Gr ar B eq cb f := fun f hf => hd.lf f ((e3 f).2 (Or.inr hf))
    have hD := e2.trans (Disp.foldl hbg)
    generalize (dispatchLF d.lf d []).1 = d1 at *
    generalize hd2 : b.foldl Data.dispatch d1 = d2 at *
    have hat1 : ∀ g, g ∈ fs d1.atomic ↔ g ∈ fs d.atomic := by
      intro g; rw [e2.atomic]
      constructor
      · rintro (h | h)
        · exact h
        · exact absurd h.2 (e5 g h.1)
      · exact Or.inl
    have hat2 : ∀ g, g ∈ fs d2.atomic ↔ g ∈ fs d.atomic ∨ g ∈ fs b := by
      intro g; rw [hD.atomic]
      simp only [List.mem_append]
      constructor
      · rintro (h | ⟨h | h, h'⟩)
        · exact Or.inl h
        · exact absurd h' (e5 g h)
        · exact Or.inr h
      · rintro (h | h)
        · exact Or.inl h
        · exact Or.inr ⟨Or.inr h, (e4 g h).1⟩
    have hdat : ∀ f ∈ fs d.atomic, Gr ar B eq cb f := fun f hf => hd.parts f (mem_parts.2 (Or.inl hf))
    have hlit : ∀ g, g ∈ fs (filterPos b ++ filterNeg b) ↔ g ∈ fs b ∧ ((∃ p tys args, g = .pred p tys args) ∨ ∃ p tys args, g = .neg (.pred p tys args)) := by
      intro g
      have : fs (filterPos b ++ filterNeg b) = fs (filterPos b) ++ fs (filterNeg b) := by simp [fs]
      rw [this, List.mem_append, mem_filterPos, mem_filterNeg, ← and_or_left]
    have hmp : ∀ a, a ∈ posAtoms (mergeFT d1.atomic (filterPos b)) ↔ ∃ p tys args, .pred p tys args ∈ fs d2.atomic ∧ a = ⟨p, utOfL args⟩ := by
      intro a
      rw [mem_posAtoms]
      simp only [mem_fs_mergeFT, mem_filterPos, hat1, hat2]
      constructor
      · rintro ⟨p, tys, args, h | h, rfl⟩
        · exact ⟨p, tys, args, Or.inl h, rfl⟩
        · exact ⟨p, tys, args, Or.inr h.1, rfl⟩
      · rintro ⟨p, tys, args, h | h, rfl⟩
        · exact ⟨p, tys, args, Or.inl h, rfl⟩
        · exact ⟨p, tys, args, Or.inr ⟨h, p, tys, args, rfl⟩, rfl⟩
    have hmn : ∀ a, a ∈ negAtoms (mergeFT d1.atomic (filterNeg b)) ↔ ∃ p tys args, .neg (.pred p tys args) ∈ fs d2.atomic ∧ a = ⟨p, utOfL args⟩ := by
      intro a
      rw [mem_negAtoms]
      simp only [mem_fs_mergeFT, mem_filterNeg, hat1, hat2]
      constructor
      · rintro ⟨p, tys, args, h | h, rfl⟩
        · exact ⟨p, tys, args, Or.inl h, rfl⟩
        · exact ⟨p, tys, args, Or.inr h.1, rfl⟩
      · rintro ⟨p, tys, args, h | h, rfl⟩
        · exact ⟨p, tys, args, Or.inl h, rfl⟩
        · exact ⟨p, tys, args, Or.inr ⟨h, p, tys, args, rfl⟩, rfl⟩
    have hparts : ∀ g, g ∈ d2.parts ↔ g ∈ d.parts ∨ g ∈ fs d.lf := by
      intro g; rw [hD.parts, e3]; simp
    have hgr2 : ∀ f ∈ d2.parts, Gr ar B eq cb f := by
      intro f hf
      rcases (hparts f).1 hf with h | h
      · exact hd.parts f h
      · exact hd.lf f h
    have hat2g : ∀ f ∈ fs d2.atomic, Gr ar B eq cb f := fun f hf => hgr2 f (mem_parts.2 (Or.inl hf))
    have hholds : ∀ I, d.holds I ↔ Holds I d2.parts := by
      intro I
      simp only [Data.holds, Holds, hparts]
      constructor
      · rintro ⟨x, y⟩ f (hf | hf)
        · exact y f hf
        · exact x f hf
      · exact fun h => ⟨fun f hf => h f (Or.inr hf), fun f hf => h f (Or.inl hf)⟩
    have r := hD.rest
    have hcompl : ∀ f ∈ fs (filterPos b ++ filterNeg b), Meets (posAtoms (mergeFT d1.atomic (filterPos b))) (negAtoms (mergeFT d1.atomic (filterNeg b))) f →
        f ∈ d2.parts ∧ ∃ p tys args,
          (f = .pred p tys args ∧ .neg (.pred p tys args) ∈ d2.parts) ∨ (f = .neg (.pred p tys args) ∧ .pred p tys args ∈ d2.parts) := by
      rintro f hf ⟨p, tys, args, ⟨rfl, hm⟩ | ⟨rfl, hm⟩⟩
      · have hfb := ((hlit _).1 hf).1
        obtain ⟨p', tys', args', h, e⟩ := (hmn _).1 hm
        simp only [Atom.mk.injEq] at e
        obtain ⟨rfl, e⟩ := e
        obtain ⟨rfl, rfl⟩ := same_atom (hbg _ hfb).pos (hat2g _ h).neg e
        exact ⟨mem_parts.2 (Or.inl ((hat2 _).2 (Or.inr hfb))), _, _, _, Or.inl ⟨rfl, mem_parts.2 (Or.inl h)⟩⟩
      · have hfb := ((hlit _).1 hf).1
        obtain ⟨p', tys', args', h, e⟩ := (hmp _).1 hm
        simp only [Atom.mk.injEq] at e
        obtain ⟨rfl, e⟩ := e
        obtain ⟨rfl, rfl⟩ := same_atom (hbg _ hfb).neg (hat2g _ h).pos e
        exact ⟨mem_parts.2 (Or.inl ((hat2 _).2 (Or.inr hfb))), _, _, _, Or.inr ⟨rfl, mem_parts.2 (Or.inl h)⟩⟩
    refine ⟨hholds, ?_, ?_, ?_, ?_, ?_, ?_, ?_, fun g hg => ?_, hcompl⟩
    · have := hD.wt; rw [weightL_append, e6] at this; unfold Data.wt; omega
    · exact ⟨by rw [r.2.2.2.1, hd.mm], by rw [r.2.2.2.2.2.1, hd.applied]⟩
    · intro f hf
      have := ((hlit f).1 hf).1
      exact ⟨hbg f this, e4 f this⟩
    · intro a ha
      obtain ⟨p, tys, args, h, rfl⟩ := (hmp a).1 ha
      exact plain_pred (hat2g _ h).pos
    · intro a ha
      obtain ⟨p, tys, args, h, rfl⟩ := (hmn a).1 ha
      exact plain_pred (hat2g _ h).neg
    · rintro ⟨f, hf, hm⟩ I hI
      rw [hholds] at hI
      obtain ⟨hfp, p, tys, args, ⟨rfl, h⟩ | ⟨rfl, h⟩⟩ := hcompl f hf hm
      · have y := hI _ h
        rw [Form.holds] at y
        exact y (hI _ hfp)
      · have y := hI _ hfp
        rw [Form.holds] at y
        exact y (hI _ h)
    · intro hno
      refine ⟨by simp [fs], hgr2, ?_, ?_, ?_, ?_, ?_, ?_, ?_, ?_, ?_, ?_, ?_, ?_, ?_⟩
      · intro f hf
        rcases (hat2 f).1 hf with h | h
        · exact hd.atomic f h
        · exact (e4 f h).1
      · intro f hf
        rcases hD.alpha f hf with h | h
        · exact hd.alpha f h
        · exact h
      · intro f hf
        rcases hD.beta f hf with h | h
        · exact hd.beta f h
        · exact h
      · intro f hf
        rcases hD.delta f hf with h | h
        · exact hd.delta f h
        · exact h
      · exact r.2.1.trans hd.gamma
      · exact r.2.2.1.trans hd.gen
      · exact r.2.2.2.1.trans hd.mm
      · exact r.2.2.2.2.1.trans hd.mc
      · exact r.2.2.2.2.2.1.trans hd.applied
      · exact r.2.2.2.2.2.2.1.trans hd.found
      · intro h
        rcases (hat2 _).1 h with h | h
        · exact hd.bot h
        · exact (e4 _ h).2.1 rfl
      · intro h
        rcases (hat2 _).1 h with h | h
        · exact hd.top h
        · exact (e4 _ h).2.2 rfl
      · intro p tys args hp hn
        by_cases hpb : .pred p tys args ∈ fs b
        · exact hno _ ((hlit _).2 ⟨hpb, Or.inl ⟨p, tys, args, rfl⟩⟩) ⟨p, tys, args, Or.inl ⟨rfl, (hmn _).2 ⟨p, tys, args, hn, rfl⟩⟩⟩
        · by_cases hnb : .neg (.pred p tys args) ∈ fs b
          · exact hno _ ((hlit _).2 ⟨hnb, Or.inr ⟨p, tys, args, rfl⟩⟩) ⟨p, tys, args, Or.inr ⟨rfl, (hmp _).2 ⟨p, tys, args, hp, rfl⟩⟩⟩
          · exact hd.cons p tys args (((hat2 _).1 hp).resolve_right hpb) (((hat2 _).1 hn).resolve_right hnb)
    · rcases (hparts g).1 hg with h | h
      · exact List.mem_append_right _ h
      · exact List.mem_append_left _ h

/-- The Herbrand model of an open branch. -/
theorem open_model {d : Data} (h : Good ar B eq cb d) (ha : d.alpha = []) (hb : d.beta = []) (hdl : d.delta = []) : ∃ I, Holds I d.parts := by
  refine ⟨⟨Term, herbrand fun p tys args => .pred p tys args ∈ fs d.atomic, Term.mv, Term.var⟩, ?_⟩
  intro f hf
  rw [mem_parts, ha, hb, hdl] at hf
  have hf : f ∈ fs d.atomic := by simpa [fs] using hf
  rcases h.atomic f hf with (⟨p, tys, args, rfl⟩ | rfl | rfl) | ⟨g, ⟨p, tys, args, rfl⟩ | rfl | rfl, rfl⟩
  · simp only [Form.holds, evalL_herbrand]; exact hf
  · trivial
  · exact absurd hf h.bot
  · simp only [Form.holds, evalL_herbrand]
    exact fun hp => h.cons p tys args hp hf
  · exact absurd hf h.top
  · simp [Form.holds]

/-- The state has no open ends: no metavariables, no substitutions. -/
structure Tidy (d : Data) : Prop where
  mm : d.mm = []
  applied : d.applied = []
  sends : (d.found.filter fun s => !s.isEmpty) = []

/-- What a round leads to. -/
def RoundOk (ar : Nat → Nat) (B eq : Nat) (cb : Option Nat) (d : Data) : Out → Prop
  | .again d' => Good ar B eq cb d' ∧ d'.wt < d.wt ∧ ((∃ I, d.holds I) ↔ ∃ I, d'.holds I)
  | .answer true need d' => need = false ∧ Tidy d' ∧ ∀ I, ¬ d.holds I
  | .answer false _ d' => Tidy d' ∧ ∃ I, d.holds I
  | .split d' ds => Tidy d' ∧ ds.length ≤ max 2 B ∧ (∀ k ∈ ds, Good ar B eq cb k ∧ k.wt < d.wt) ∧ ∀ I, d.holds I ↔ ∃ k ∈ ds, k.holds I

/-- The next Skolem symbol is new, a constant, and applied to the metavariables of the branch or of the formula. -/
def Fresh (ar : Nat → Nat) (e : Env) (cb : Option Nat) (sk : Nat) : Prop :=
  ∀ c, cb = some c → sk = c ∧ ar c = 0 ∧ ∀ F : Form, F.metas = [] → e.sko [] F = []

theorem rules_ok {e : Env} {w : Now} (hw : Fresh ar e cb w.sk) {d d2 : Data} (hg : Good ar B eq cb { d2 with lf := [] })
    (hh : ∀ I, d.holds I ↔ Holds I d2.parts) (hwt : weightL true d2.parts ≤ d.wt) : ∃ o, rules e w d2 = some o ∧ RoundOk ar B eq (up cb) d o := by
  have hgm : d2.gamma = [] := hg.gamma
  have hge : d2.metaGen = [] := hg.gen
  have hmm : d2.mm = [] := hg.mm
  have hmc : d2.mc = [] := hg.mc
  have hfo : d2.found = [] := hg.found
  have hparts : ∀ f ∈ d2.parts, Gr ar B eq cb f := hg.parts
  unfold rules
  cases hal : d2.alpha with
  | cons h t =>
    have hc : IsConjunctive h.form := hg.alpha _ (by simp [fs, hal])
    have e2 : fs ((applyAlpha h.form).map fun f => (⟨f, h.terms⟩ : FT)) = applyAlpha h.form := by simp [fs, Function.comp_def]
    have e1 : d2.parts = fs d2.atomic ++ (h.form :: fs t) ++ fs d2.beta ++ fs d2.delta := by simp [Data.parts, hal, fs]
    refine ⟨_, rfl, ?_, ?_, ?_⟩
    · have hgh : Gr ar B eq cb h.form := hparts _ (mem_parts.2 (Or.inr (Or.inl (by simp [fs, hal]))))
      have hp : ∀ g ∈ fs d2.atomic ++ fs t ++ fs d2.beta ++ fs d2.delta, g ∈ d2.parts := by
        intro g hg; rw [mem_parts, hal]; simp only [List.mem_append, fs, List.map_cons, List.mem_cons] at hg ⊢; tauto
      refine Good.up ⟨?_, fun f hf => hparts f (hp f hf), hg.atomic, ?_, hg.beta, hg.delta, hg.gamma, hg.gen, hg.mm, hg.mc, hg.applied, hg.found,
        hg.bot, hg.top, hg.cons⟩
      · intro f hf
        rw [e2] at hf
        exact hgh.alpha f hf
      · intro f hf; exact hg.alpha f (by simp [fs, hal] at hf ⊢; exact Or.inr hf)
    · have hdec := (@PropStep.alpha (fs d2.atomic) (fs t ++ fs d2.beta) _ hc).decreases
      simp only [branchWeight, weightL_append, weightL] at hdec
      rw [e1] at hwt
      simp only [weightL_append, weightL] at hwt
      simp only [Data.wt, Data.parts, weightL_append] at hwt ⊢
      rw [e2]
      omega
    · refine exists_congr fun I => ?_
      rw [hh]
      simp only [Data.holds, e2]
      rw [e1]
      simp only [Data.parts, holds_append]
      have : Holds I (h.form :: fs t) ↔ Holds I (applyAlpha h.form) ∧ Holds I (fs t) := by
        simp only [Holds, List.mem_cons, forall_eq_or_imp, C19_alpha _ _ _ h.form hc]
      rw [this]; tauto
  | nil =>
    cases hdl : d2.delta with
    | cons h t =>
      have hc : IsExistential h.form := hg.delta _ (by simp [fs, hdl])
      have e1 : d2.parts = fs d2.atomic ++ fs d2.beta ++ (h.form :: fs t) := by simp [Data.parts, hal, hdl, fs]
      have hgh : Gr ar B eq cb h.form := hparts _ (by rw [e1]; simp)
      cases cb with
      | none => exact absurd hc (Plain.not_quantified hgh.1).2
      | some c =>
        obtain ⟨rfl, har, hsko⟩ := hw _ rfl
        obtain ⟨g, g1, g2, g3, g4, g5, g6⟩ := delta_step.{0} hgh.1.1 hgh.1.2 hc har
        have hs0 : e.sko (uni d2.mm d2.mc) h.form = [] := by rw [hmm, hmc]; exact hsko _ hgh.1.1.metas
        have hrest : ∀ g ∈ fs d2.atomic ++ fs d2.beta ++ fs t, g ∈ d2.parts := by
          intro g hg; rw [e1]; simp only [List.mem_append, List.mem_cons] at hg ⊢; tauto
        have e3 : ∀ d3 : Data, d3 = { d2 with delta := t, lf := [⟨g, (uni d2.mm d2.mc).map .mv⟩] } →
            fs d3.lf = [g] ∧ d3.parts = fs d2.atomic ++ fs d2.beta ++ fs t := by
          rintro d3 rfl; simp [fs, Data.parts, hal]
        obtain ⟨e4, e5⟩ := e3 _ rfl
        refine ⟨.again { d2 with delta := t, lf := [⟨g, (uni d2.mm d2.mc).map .mv⟩] }, by simp only [hs0, g1, Option.map_some, hal], ?_, ?_, ?_⟩
        · refine ⟨?_, ?_, hg.atomic, hg.alpha, hg.beta, ?_, hg.gamma, hg.gen, hg.mm, hg.mc, hg.applied, hg.found, hg.bot, hg.top, hg.cons⟩
          · intro f hf
            rw [e4] at hf
            obtain rfl : f = g := by simpa using hf
            exact ⟨⟨g2, g3⟩, hgh.2.sko g1⟩
          · intro f hf
            rw [e5] at hf
            exact (hparts f (hrest f hf)).up
          · intro f hf; exact hg.delta f (by simp [fs, hdl] at hf ⊢; exact Or.inr hf)
        · simp only [Data.wt, e4, e5]
          rw [e1] at hwt
          simp only [Data.wt, weightL_append, weightL] at hwt ⊢
          omega
        · simp only [Data.holds, e4, e5]
          constructor
          · rintro ⟨I, hI⟩
            have hI := (hh I).1 hI
            obtain ⟨J, j1, j2, j3⟩ := g6 I.D I.I
            refine ⟨⟨I.D, J, I.μ, I.ρ⟩, ?_, ?_⟩
            · intro f hf
              obtain rfl : f = g := by simpa using hf
              exact j3 _ _ (hI _ (by rw [e1]; simp))
            · intro f hf
              have hgr := hparts f (hrest f hf)
              exact (Form.holds_congr (fun _ _ => rfl) (fun _ _ => rfl)
                (fun p hp => (j2 p (fun e => by have := hgr.1.2.funs p hp; omega)).symm) j1.symm).1 (hI f (hrest f hf))
          · rintro ⟨I, h1, h2⟩
            refine ⟨I, (hh I).2 ?_⟩
            intro f hf
            rw [e1] at hf
            simp only [List.mem_append, List.mem_cons] at hf
            rcases hf with hf | rfl | hf
            · exact h2 f (by simp only [List.mem_append]; exact Or.inl hf)
            · exact g5 _ _ _ _ (h1 g (by simp))
            · exact h2 f (by simp only [List.mem_append]; exact Or.inr hf)
    | nil =>
      cases hbe : d2.beta with
      | cons h t =>
        refine ⟨_, rfl, ⟨hg.mm, hg.applied, by rw [hfo]; rfl⟩, ?_⟩
        have hc : IsDisjunctive h.form := hg.beta _ (by simp [fs, hbe])
        have hgh : Gr ar B eq cb h.form := hparts _ (mem_parts.2 (Or.inr (Or.inr (Or.inl (by simp [fs, hbe])))))
        obtain ⟨b1, b2⟩ := hgh.beta
        have e2 : ∀ l : List Form, fs (l.map fun f => (⟨f, h.terms⟩ : FT)) = l := by intro l; simp [fs, Function.comp_def]
        have e1 : d2.parts = fs d2.atomic ++ (h.form :: fs t) := by simp [Data.parts, hal, hbe, hdl, fs]
        refine ⟨by simpa using b1, ?_, ?_⟩
        · intro k hk
          obtain ⟨l, hl, rfl⟩ := List.mem_map.1 hk
          constructor
          · refine Good.up ⟨?_, ?_, hg.atomic, hg.alpha, ?_, hg.delta, hg.gamma, hg.gen, by simp [Data.copy, hmm, hmc, uni], rfl, rfl, rfl, hg.bot,
              hg.top, hg.cons⟩
            · intro f hf; simp only [e2] at hf; exact b2 l hl f hf
            · intro f hf
              refine hparts f ?_
              rw [e1]
              simp only [Data.parts, Data.copy, hal, hdl] at hf
              simp only [List.mem_append, fs, List.map_cons, List.mem_cons, List.map_nil, List.not_mem_nil, or_false] at hf ⊢; tauto
            · intro f hf; exact hg.beta f (by simp [fs, hbe] at hf ⊢; exact Or.inr hf)
          · have hdec := (@PropStep.beta (fs d2.atomic) (fs t) _ l hc hl).decreases
            simp only [branchWeight, weightL_append, weightL] at hdec
            rw [e1] at hwt
            simp only [weightL_append, weightL] at hwt
            have : ∀ x : Data, x = { d2.copy with beta := t, lf := l.map fun f => (⟨f, h.terms⟩ : FT) } → x.wt = weightL true l + (weightL true (fs d2.atomic) + weightL true (fs t)) := by
              rintro x rfl
              simp only [Data.wt, Data.parts, Data.copy, hal, hdl, e2, weightL_append]
              simp [fs, weightL]
            rw [this _ rfl]
            omega
        · intro I
          rw [hh, e1]
          have : Holds I (h.form :: fs t) ↔ (∃ l ∈ applyBeta h.form, Holds I l) ∧ Holds I (fs t) := by
            simp only [Holds, List.mem_cons, forall_eq_or_imp, C20_beta _ _ _ h.form hc]
          rw [holds_append, this]
          simp only [List.mem_map, exists_exists_and_eq_and, Data.holds, Data.parts, Data.copy, hal, hdl, e2, holds_append]
          have hn : Holds I (fs []) := by simp [Holds, fs]
          constructor
          · rintro ⟨x, ⟨l, hl, y⟩, z⟩; exact ⟨l, hl, y, ⟨⟨x, hn⟩, z⟩, hn⟩
          · rintro ⟨l, hl, y, ⟨⟨x, -⟩, z⟩, -⟩; exact ⟨x, ⟨l, hl, y⟩, z⟩
      | nil =>
        rw [hgm]
        simp only [hge, ne_eq, not_true_eq_false, false_and, if_false]
        refine ⟨_, rfl, ⟨hg.mm, hg.applied, by rw [hfo]; rfl⟩, ?_⟩
        obtain ⟨I, hI⟩ := open_model hg hal hbe hdl
        exact ⟨I, (hh I).2 hI⟩

/-- **One round** on such a state: the rules keep satisfiability, a closed branch has no model, an open one has one. -/
theorem round_ok {e : Env} (hU : Deep e.U) (hfu : 0 < e.fuel) {w : Now} (hw : Fresh ar e cb w.sk) {d : Data} (hd : Good ar B e.eq cb d) {o : Out}
    (h : round e w [] d = some o) : RoundOk ar B e.eq (up cb) d o := by
  simp only [round, if_true, expand] at h
  obtain ⟨s1, s2⟩ := sorted hd
  have htidy : ∀ d1 : Data, d1.mm = [] → d1.applied = [] → Tidy { d1 with found := [[]] } := fun d1 a b => ⟨a, b, rfl⟩
  by_cases ho : (dispatchLF d.lf d []).2.2 = true
  · obtain ⟨a, b, c⟩ := s1 ho
    rw [if_pos ho, close_ground hfu a b (Or.inl rfl)] at h
    cases h
    exact ⟨rfl, htidy _ a b, c⟩
  · rw [if_neg ho] at h
    have S := s2 (by simpa using ho) _ rfl
    have hx := closeFirst_ground hU hfu (time := w.time) S.hpos S.hneg S.mm.1 S.mm.2 _ S.hlits
    split at h
    · cases h
    · rename_i o' hc
      cases h
      rcases hx _ hc with ⟨h1, -⟩ | ⟨h1, h2⟩
      · cases h1
      · cases h1
        exact ⟨rfl, htidy _ S.mm.1 S.mm.2, S.meets h2⟩
    · rename_i hc
      rcases hx _ hc with ⟨-, h2⟩ | ⟨h1, -⟩
      · obtain ⟨o', r1, r2⟩ := rules_ok (e := e) hw (S.open_ h2) S.holds S.wt
        rw [r1] at h; cases h
        exact r2
      · cases h1

theorem round_some {e : Env} (hU : Deep e.U) (hfu : 0 < e.fuel) (hans : Incr.Answers ar e.U) {w : Now} (hw : Fresh ar e cb w.sk) {d : Data}
    (hd : Good ar B e.eq cb d) : ∃ o, round e w [] d = some o := by
  simp only [round, if_true, expand]
  obtain ⟨s1, s2⟩ := sorted hd
  by_cases ho : (dispatchLF d.lf d []).2.2 = true
  · obtain ⟨a, b, c⟩ := s1 ho
    rw [if_pos ho, close_ground hfu a b (Or.inl rfl)]
    exact ⟨_, rfl⟩
  · rw [if_neg ho]
    have S := s2 (by simpa using ho) _ rfl
    obtain ⟨x, hc⟩ := closeFirst_some hfu hU hans (time := w.time) S.hpos S.hneg S.mm.1 S.mm.2 _ S.hlits
    have hx := closeFirst_ground hU hfu (time := w.time) S.hpos S.hneg S.mm.1 S.mm.2 _ S.hlits _ hc
    rw [hc]
    rcases hx with ⟨rfl, h2⟩ | ⟨rfl, h2⟩
    · obtain ⟨o', r1, r2⟩ := rules_ok (e := e) hw (S.open_ h2) S.holds S.wt
      exact ⟨o', r1⟩
    · exact ⟨_, rfl⟩

end Verif.Search.Main
