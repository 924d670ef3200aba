import Verif.Search.IncrVerdict
import Verif.Unif.GroundAnswers
/-!
# C64 for ground formulas: managers

Formulas without quantifiers, variables, metavariables and type arguments, each symbol with one arity, no
connective with an empty list of arguments. Here the closure rules are exact.
-/

namespace Verif.Search.Incr
open Verif.AST Verif.Search Verif.Unif

mutual
/-- A term without variables, metavariables and type arguments. -/
def TPlain (ar : Nat → Nat) : Term → Prop
  | .var _ => False
  | .mv _ => False
  | .fn p tys args => tys = [] ∧ args.length = ar p ∧ TPlainL ar args
def TPlainL (ar : Nat → Nat) : List Term → Prop
  | [] => True
  | t :: l => TPlain ar t ∧ TPlainL ar l
end

mutual
/-- A formula without quantifiers whose terms are plain; connectives have at least one and at most `B` arguments. -/
def Plain (ar : Nat → Nat) (B : Nat) : Form → Prop
  | .pred p tys args => tys = [] ∧ args.length = ar p ∧ TPlainL ar args
  | .top => True
  | .bot => True
  | .neg f => Plain ar B f
  | .and fs => fs ≠ [] ∧ fs.length ≤ B ∧ PlainL ar B fs
  | .or fs => fs ≠ [] ∧ fs.length ≤ B ∧ PlainL ar B fs
  | .imp f g => Plain ar B f ∧ Plain ar B g
  | .equ f g => Plain ar B f ∧ Plain ar B g
  | .all _ _ => False
  | .ex _ _ => False
def PlainL (ar : Nat → Nat) (B : Nat) : List Form → Prop
  | [] => True
  | f :: fs => Plain ar B f ∧ PlainL ar B fs
end

variable {ar : Nat → Nat} {B : Nat}

theorem PlainL_iff {l : List Form} : PlainL ar B l ↔ ∀ f ∈ l, Plain ar B f := by
  induction l with
  | nil => simp [PlainL]
  | cons f l ih => simp [PlainL, ih]

theorem TPlainL_iff {l : List Term} : TPlainL ar l ↔ ∀ t ∈ l, TPlain ar t := by
  induction l with
  | nil => simp [TPlainL]
  | cons f l ih => simp [TPlainL, ih]

mutual
theorem utOf_ground : ∀ {t : Term}, TPlain ar t → (utOf t).Ar ar ∧ (utOf t).occ = []
  | .var _, h => by simp [TPlain] at h
  | .mv _, h => by simp [TPlain] at h
  | .fn p tys args, h => by
    simp only [TPlain] at h
    obtain ⟨h1, h2, h3⟩ := utOfL_ground h.2.2
    simp [utOf, UT.Ar, UT.occ, h1, h2, h3, h.2.1]
theorem utOfL_ground : ∀ {l : List Term}, TPlainL ar l → UT.ArL ar (utOfL l) ∧ UT.occL (utOfL l) = [] ∧ (utOfL l).length = l.length
  | [], _ => by simp [utOfL, UT.ArL, UT.occL]
  | t :: l, h => by
    simp only [TPlainL] at h
    obtain ⟨a, b⟩ := utOf_ground h.1
    obtain ⟨c, d, e⟩ := utOfL_ground h.2
    simp [utOfL, UT.ArL, UT.occL, a, b, c, d, e]
end

mutual
theorem utOf_inj : ∀ {t u : Term}, TPlain ar t → TPlain ar u → utOf t = utOf u → t = u
  | .var _, _, h, _, _ => by simp [TPlain] at h
  | .mv _, _, h, _, _ => by simp [TPlain] at h
  | .fn _ _ _, .var _, _, h, _ => by simp [TPlain] at h
  | .fn _ _ _, .mv _, _, h, _ => by simp [TPlain] at h
  | .fn p tys as, .fn q tys' bs, h, h', e => by
    simp only [TPlain] at h h'
    simp only [utOf, UT.fn.injEq] at e
    rw [e.1, h.1, h'.1, utOfL_inj h.2.2 h'.2.2 e.2]
theorem utOfL_inj : ∀ {l l' : List Term}, TPlainL ar l → TPlainL ar l' → utOfL l = utOfL l' → l = l'
  | [], [], _, _, _ => rfl
  | [], _ :: _, _, _, e => by simp [utOfL] at e
  | _ :: _, [], _, _, e => by simp [utOfL] at e
  | t :: l, u :: l', h, h', e => by
    simp only [TPlainL] at h h'
    simp only [utOfL, List.cons.injEq] at e
    rw [utOf_inj h.1 h'.1 e.1, utOfL_inj h.2 h'.2 e.2]
end

/-- What holds of the managers in a search on a plain formula. -/
structure RM.Good (ar : Nat → Nat) (B : Nat) (rm : RM) : Prop where
  sorted : rm.Sorted
  pos : ∀ r ∈ rm.atomic, isNeg r.form = false
  neg : ∀ r ∈ rm.atomicNot, isNeg r.form = true
  plain : ∀ r ∈ rm.all, Plain ar B r.form

theorem RM.Good.insert {rm : RM} (h : rm.Good ar B) {r : Rule} (hr : Plain ar B r.form) : (rm.insert r).Good ar B := by
  refine ⟨h.sorted.insert r, ?_, ?_, fun x hx => ?_⟩
  · unfold RM.insert
    cases showKind r.form <;> simp only <;> try exact h.pos
    split
    · exact h.pos
    · intro x hx
      rcases mem_addNew.1 hx with hx | rfl
      · exact h.pos x hx
      · simpa using ‹¬ isNeg x.form = true›
  · unfold RM.insert
    cases showKind r.form <;> simp only <;> try exact h.neg
    split
    · intro x hx
      rcases mem_addNew.1 hx with hx | rfl
      · exact h.neg x hx
      · assumption
    · exact h.neg
  · rcases mem_insert.1 hx with hx | rfl
    · exact h.plain x hx
    · exact hr

theorem RM.Good.insertAll {rm : RM} (h : rm.Good ar B) {l : List Rule} (hl : ∀ r ∈ l, Plain ar B r.form) : (rm.insertAll l).Good ar B := by
  unfold RM.insertAll
  induction l generalizing rm with
  | nil => exact h
  | cons r l ih => exact ih (h.insert (hl r (by simp))) fun x hx => hl x (by simp [hx])

theorem RM.Good.remove {rm : RM} (h : rm.Good ar B) (r : Rule) : (rm.remove r).Good ar B :=
  ⟨h.sorted.remove r, fun x hx => h.pos x (List.mem_of_mem_erase hx), fun x hx => h.neg x (List.mem_of_mem_erase hx),
    fun x hx => h.plain x (mem_remove.1 hx)⟩

theorem RM.Good.root {f : Form} (h : Plain ar B f) : (RM.root f).Good ar B :=
  RM.Good.insert ⟨RM.Sorted.empty, by simp, by simp, by simp [RM.all]⟩ h

theorem Plain.not_quantified {f : Form} (h : Plain ar B f) : ¬ IsUniversal f ∧ ¬ IsExistential f := by
  constructor
  · rintro (⟨vs, g, rfl⟩ | ⟨vs, g, rfl⟩) <;> simp [Plain] at h
  · rintro (⟨vs, g, rfl⟩ | ⟨vs, g, rfl⟩) <;> simp [Plain] at h

theorem RM.Good.gamma {rm : RM} (h : rm.Good ar B) : rm.gamma = [] := by
  rw [List.eq_nil_iff_forall_not_mem]
  intro r hr
  exact (h.plain r (by simp [RM.all, hr])).not_quantified.1 (h.sorted.5 r hr)

theorem RM.Good.delta {rm : RM} (h : rm.Good ar B) : rm.delta = [] := by
  rw [List.eq_nil_iff_forall_not_mem]
  intro r hr
  exact (h.plain r (by simp [RM.all, hr])).not_quantified.2 (h.sorted.6 r hr)

/-! ### Closure -/

theorem mem_atomsOf_pos {l : List Rule} (h : ∀ r ∈ l, isNeg r.form = false) {a : Atom} (ha : a ∈ atomsOf l) :
    ∃ r ∈ l, ∃ p tys args, r.form = .pred p tys args ∧ a = ⟨p, utOfL args⟩ := by
  induction l with
  | nil => cases ha
  | cons r l ih =>
    simp only [atomsOf] at ha
    split at ha
    · rename_i p tys args e
      rcases List.mem_cons.1 ha with rfl | ha
      · exact ⟨r, by simp, p, tys, args, e, rfl⟩
      · obtain ⟨x, hx, y⟩ := ih (fun r hr => h r (by simp [hr])) ha
        exact ⟨x, by simp [hx], y⟩
    · rename_i e
      have := h r (by simp)
      rw [e] at this; simp [isNeg] at this
    · obtain ⟨x, hx, y⟩ := ih (fun r hr => h r (by simp [hr])) ha
      exact ⟨x, by simp [hx], y⟩

theorem mem_atomsOf_neg {l : List Rule} (h : ∀ r ∈ l, isNeg r.form = true) {a : Atom} (ha : a ∈ atomsOf l) :
    ∃ r ∈ l, ∃ p tys args, r.form = .neg (.pred p tys args) ∧ a = ⟨p, utOfL args⟩ := by
  induction l with
  | nil => cases ha
  | cons r l ih =>
    simp only [atomsOf] at ha
    split at ha
    · rename_i e
      have := h r (by simp)
      rw [e] at this; simp [isNeg] at this
    · rename_i p tys args e
      rcases List.mem_cons.1 ha with rfl | ha
      · exact ⟨r, by simp, p, tys, args, e, rfl⟩
      · obtain ⟨x, hx, y⟩ := ih (fun r hr => h r (by simp [hr])) ha
        exact ⟨x, by simp [hx], y⟩
    · obtain ⟨x, hx, y⟩ := ih (fun r hr => h r (by simp [hr])) ha
      exact ⟨x, by simp [hx], y⟩

theorem mapM_mem {α β : Type} {f : α → Option β} {l : List α} {r : List β} (h : l.mapM f = some r) {y : β} (hy : y ∈ r) :
    ∃ x ∈ l, f x = some y := by
  induction l generalizing r with
  | nil => simp at h; subst h; cases hy
  | cons a l ih =>
    simp only [List.mapM_cons, Option.pure_def, Option.bind_eq_bind, Option.bind_eq_some_iff, Option.some.injEq] at h
    obtain ⟨b, hb, bs, hbs, rfl⟩ := h
    rcases List.mem_cons.1 hy with rfl | hy
    · exact ⟨a, by simp, hb⟩
    · obtain ⟨x, hx, e⟩ := ih hbs hy
      exact ⟨x, by simp [hx], e⟩

theorem plain_pred {p : Nat} {tys : List Ty} {args : List Term} (h : Plain ar B (.pred p tys args)) :
    (Atom.term ⟨p, utOfL args⟩).Ar ar ∧ (Atom.term ⟨p, utOfL args⟩).occ = [] := by
  simp only [Plain] at h
  obtain ⟨h1, h2, h3⟩ := utOfL_ground h.2.2
  simp [Atom.term, UT.Ar, UT.occ, h1, h2, h3, h.2.1]

/-- The index answers when no metavariables are around. -/
def Answers (ar : Nat → Nat) (U : Oracle) : Prop := ∀ time neg pos, (∀ a ∈ neg, Atom.Gd ar a) → Atom.Gd ar pos → U time neg pos ≠ none

open Classical in
/-- An index that answers whenever some search in it does, and as this search. -/
noncomputable def anyU : Oracle := fun _ neg pos =>
  if h : ∃ l n t out, [neg].foldlM (fun n l => Verif.Unif.Node.addAtoms n l) Verif.Unif.Node.empty = some t ∧
    Verif.Unif.Search (addUnif false (n + 2)) (n + 2) t { terms := [pos.term] } out ∧ l = out.map (·.2) then some h.choose else none

theorem anyU_deep (time : Nat) (neg : List Atom) (pos : Atom) (l : List Subst) (h : anyU time neg pos = some l) :
    ∃ n t out, [neg].foldlM (fun n l => Verif.Unif.Node.addAtoms n l) Verif.Unif.Node.empty = some t ∧
      Verif.Unif.Search (addUnif false (n + 2)) (n + 2) t { terms := [pos.term] } out ∧ l = out.map (·.2) := by
  unfold anyU at h
  split at h
  · rename_i hx
    cases h
    exact hx.choose_spec
  · cases h

theorem anyU_faithful : Faithful anyU := fun time neg pos l h =>
  let ⟨n, t, out, a⟩ := anyU_deep time neg pos l h
  ⟨n + 2, t, out, a⟩

/-- There is such an index (`C30_ground_answers`). -/
theorem anyU_answers : Answers ar anyU := by
  intro time neg pos hn hp
  obtain ⟨t, out, h1, h2⟩ := C30_ground_answers [neg] pos 1 (by simpa using hn) hp
  unfold anyU
  rw [dif_pos ⟨_, 0, t, out, h1, h2, rfl⟩]
  simp

/-- Without `⊥`, `¬⊤` and complementary literals, unification closes nothing. -/
theorem substClosure_ground {U : Oracle} (hU : Faithful U) {time : Nat} {rm : RM} (h : rm.Good ar B) (hc : rm.complementary = false)
    {l : List Sub} (hl : rm.substClosure U time = some l) : l = [] := by
  rw [List.eq_nil_iff_forall_not_mem]
  intro x hx
  obtain ⟨ls, hls, rfl⟩ := Option.map_eq_some_iff.1 hl
  obtain ⟨s, hs, -⟩ := List.mem_map.1 hx
  obtain ⟨as, has, hs⟩ := List.mem_flatten.1 hs
  obtain ⟨a, ha, hUa⟩ := mapM_mem hls has
  obtain ⟨r, hr, p, tys, args, er, rfl⟩ := mem_atomsOf_pos h.pos ha
  obtain ⟨n, t, out, ht, hsearch, rfl⟩ := hU _ _ _ _ hUa
  obtain ⟨⟨f, s'⟩, hf, -⟩ := List.mem_map.1 hs
  have hpr := h.plain r (by simp [RM.all, hr])
  rw [er] at hpr
  obtain ⟨q1, q2⟩ := plain_pred hpr
  have hneg : ∀ f ∈ atomsOf rm.atomicNot, ∃ r ∈ rm.atomicNot, ∃ p tys args, r.form = .neg (.pred p tys args) ∧ f = ⟨p, utOfL args⟩ ∧
      Plain ar B (.pred p tys args) := by
    intro f hf
    obtain ⟨r, hr, p, tys, args, e, rfl⟩ := mem_atomsOf_neg h.neg hf
    have := h.plain r (by simp [RM.all, hr])
    rw [e, Plain] at this
    exact ⟨r, hr, p, tys, args, e, rfl, this⟩
  obtain ⟨g1, g2⟩ := C30_ground_sound (ar := ar) [atomsOf rm.atomicNot] t ht _ n out hsearch (by
    intro f hf
    simp only [List.flatten_cons, List.flatten_nil, List.append_nil] at hf
    obtain ⟨_, _, _, _, _, _, rfl, hp⟩ := hneg f hf
    exact (plain_pred hp).1) q1 f s' hf (Or.inl q2)
  simp only [List.flatten_cons, List.flatten_nil, List.append_nil] at g1
  obtain ⟨r', hr', p', tys', args', er', rfl, hp'⟩ := hneg f g1
  rw [UT.inst_ground q2, UT.inst_ground (plain_pred hp').2] at g2
  simp only [Atom.term, UT.fn.injEq] at g2
  simp only [Plain] at hpr hp'
  have e2 := utOfL_inj hp'.2.2 hpr.2.2 g2.2
  have : rm.complementary = true := by
    simp only [RM.complementary, List.any_eq_true, Bool.and_eq_true, decide_eq_true_eq]
    exact ⟨r, hr, by simp [er, isPred], r', hr', by rw [er', er, g2.1, e2, hp'.1, hpr.1]⟩
  rw [hc] at this; cases this

/-- The manager is closed without substitution. -/
def RM.shut (rm : RM) : Bool := rm.trivial || rm.complementary

/-- **The closure rules are exact on plain managers.** -/
theorem closure_ground {U : Oracle} (hU : Faithful U) {time : Nat} {rm : RM} (h : rm.Good ar B) {x : Option (List Sub)}
    (hx : rm.closure U time = some x) : x = if rm.shut then some [Sub.theJoker] else none := by
  unfold RM.closure at hx
  unfold RM.shut
  split at hx
  · rename_i h1; rw [if_pos h1]; exact (Option.some.inj hx).symm
  · rename_i h1
    rw [if_neg h1]
    simp only [Bool.or_eq_true, not_or, Bool.not_eq_true] at h1
    obtain ⟨l, hl, rfl⟩ := Option.map_eq_some_iff.1 hx
    rw [substClosure_ground hU h h1.2 hl, if_pos rfl]

theorem shut_unsat {rm : RM} (h : rm.shut = true) {D : Type u} (I : Interp D) (μ ρ : Nat → D) : ¬ rm.holds I μ ρ := by
  intro hh
  simp only [RM.shut, RM.trivial, RM.complementary, Bool.or_eq_true, List.any_eq_true, decide_eq_true_eq, Bool.and_eq_true] at h
  rcases h with (⟨r, hr, e⟩ | ⟨r, hr, e⟩) | ⟨p, hp, -, q, hq, e⟩
  · have := hh r (by simp [RM.all, hr]); rw [e] at this; simp [Form.holds] at this
  · have := hh r (by simp [RM.all, hr]); rw [e] at this; simp [Form.holds] at this
  · have h1 := hh p (by simp [RM.all, hp])
    have h2 := hh q (by simp [RM.all, hq])
    rw [e] at h2; simp only [Form.holds] at h2
    exact h2 h1

/-! ### Models of open leaves -/

/-- The interpretation by terms in which the atoms of a list are the true ones. -/
def herbrand (P : Nat → List Ty → List Term → Prop) : Interp Term := ⟨Term.fn, P⟩

mutual
theorem eval_herbrand (P : Nat → List Ty → List Term → Prop) : ∀ t : Term, Term.eval (herbrand P) Term.var Term.mv t = t
  | .var _ => rfl
  | .mv _ => rfl
  | .fn p tys args => by rw [Term.eval, evalL_herbrand P args]; rfl
theorem evalL_herbrand (P : Nat → List Ty → List Term → Prop) : ∀ l : List Term, Term.evalL (herbrand P) Term.var Term.mv l = l
  | [] => rfl
  | t :: l => by rw [Term.evalL, eval_herbrand P t, evalL_herbrand P l]
end

/-- An open manager without rules to apply has a model. -/
theorem open_model {rm : RM} (h : rm.Good ar B) (hn : rm.next = []) (hs : rm.shut = false) :
    ∃ I : Interp Term, rm.holds I Term.mv Term.var := by
  refine ⟨herbrand fun p tys args => ∃ r ∈ rm.atomic, r.form = .pred p tys args, ?_⟩
  have ha : rm.alpha = [] ∧ rm.beta = [] := by
    unfold RM.next at hn
    rw [h.gamma, h.delta] at hn
    constructor
    · by_contra e; simp [e] at hn
    · by_contra e
      by_cases e' : rm.alpha = []
      · simp [e, e'] at hn
      · simp [e'] at hn
  simp only [RM.shut, RM.trivial, RM.complementary, Bool.or_eq_false_iff, List.any_eq_false, List.any_eq_true, decide_eq_true_eq, Bool.and_eq_true,
    not_and] at hs
  obtain ⟨⟨s1, s2⟩, s3⟩ := hs
  intro r hr
  simp only [RM.all, ha.1, ha.2, h.gamma, h.delta, List.append_nil, List.mem_append] at hr
  rcases hr with hr | hr
  · have hn := h.pos r hr
    rcases h.sorted.1 r hr with (⟨p, tys, args, e⟩ | e | e) | ⟨g, hg, e⟩
    · rw [e]
      simp only [Form.holds, evalL_herbrand]
      exact ⟨r, hr, e⟩
    · rw [e]; trivial
    · exact absurd e (s1 r hr)
    · rw [e] at hn; simp [isNeg] at hn
  · have hn := h.neg r hr
    rcases h.sorted.2 r hr with (⟨p, tys, args, e⟩ | e | e) | ⟨g, ⟨p, tys, args, rfl⟩ | rfl | rfl, e⟩
    · rw [e] at hn; simp [isNeg] at hn
    · rw [e] at hn; simp [isNeg] at hn
    · rw [e] at hn; simp [isNeg] at hn
    · rw [e]
      simp only [Form.holds, evalL_herbrand]
      rintro ⟨x, hx, ex⟩
      exact s3 x hx (by simp [ex, isPred]) ⟨r, hr, by rw [e, ex]⟩
    · exact absurd e (s2 r hr)
    · rw [e]; simp [Form.holds]

/-! ### One rule -/

theorem apply_plain (m sk : Nat) (args : List Nat) {r : Rule} {bs : List (List Rule)} (hp : Plain ar B r.form)
    (h : r.apply m sk args = some bs) : bs ≠ [] ∧ bs.length ≤ max 2 B ∧ (∀ b ∈ bs, ∀ x ∈ b, Plain ar B x.form) ∧
      (showKind r.form ≠ .beta → bs.length = 1) := by
  obtain ⟨f, ts⟩ := r
  dsimp only at hp
  unfold Rule.apply at h
  dsimp only at h
  split at h <;> (try simp only [Plain, PlainL_iff] at hp) <;> (obtain rfl := Option.some.inj h) <;>
    refine ⟨by simp [hp], by simp <;> omega, ?_, by simp [showKind]⟩ <;>
    simp only [List.mem_cons, List.mem_map, List.not_mem_nil, or_false] <;> grind [Plain]

/-- What one application of a rule does to a plain manager. -/
theorem tryToApply_ground {m sk : Nat} {g : Mgr} (h : g.rm.Good ar B) (hn : g.rm.next ≠ []) :
    ∃ r bs, g.tryToApply m sk g.rm.next = some ⟨r, bs.map fun b => ⟨b, g.reintro, g.metas⟩, g⟩ ∧ bs ≠ [] ∧
      bs.length ≤ max 2 B ∧ (showKind r.form ≠ .beta → bs.length = 1) ∧ (∀ b ∈ bs, b.Good ar B ∧ b.wt < g.rm.wt) ∧
      ∀ (D : Type) (I : Interp D) (μ ρ : Nat → D), g.rm.holds I μ ρ ↔ ∃ b ∈ bs, b.holds I μ ρ := by
  obtain ⟨r, rest, hcat⟩ := List.exists_cons_of_ne_nil hn
  have hr : r ∈ g.rm.alpha ∨ r ∈ g.rm.beta := by
    have : r ∈ g.rm.next := by rw [hcat]; simp
    unfold RM.next at this
    rw [h.gamma, h.delta] at this
    split at this
    · exact Or.inl this
    · simp only [ne_eq, not_true, if_false] at this
      split at this
      · exact Or.inr this
      · cases this
  have hrall : r ∈ g.rm.all := by
    simp only [RM.all, List.mem_append]; tauto
  have hk : IsConjunctive r.form ∨ IsDisjunctive r.form :=
    hr.elim (fun e => Or.inl (h.sorted.3 r e)) fun e => Or.inr (h.sorted.4 r e)
  have hp := h.plain r hrall
  obtain ⟨bs, hbs, heq⟩ := C49_rule_equivalent.{0} m sk r.form.metaElems r hp.not_quantified.1 hp.not_quantified.2
  obtain ⟨b1, b2, b3, b4⟩ := apply_plain m sk _ hp hbs
  refine ⟨r, bs.map fun b => (g.rm.remove r).insertAll b, ?_, by simpa using b1, by simpa using b2, by simpa using b4, ?_, ?_⟩
  · rw [hcat]
    simp [Mgr.tryToApply, hbs, isGammaRule_false]
  · intro b hb
    obtain ⟨x, hx, rfl⟩ := List.mem_map.1 hb
    refine ⟨(h.remove r).insertAll (b3 x hx), ?_⟩
    have h1 := @RM.wt_insertAll (g.rm.remove r) x
    have h2 := RM.wt_remove hr
    have h3 := branch_lt m sk _ hk hbs hx
    omega
  · intro D I μ ρ
    exact step_equiv I μ ρ hrall (heq D I μ ρ)

end Verif.Search.Incr
