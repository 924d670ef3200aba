import Verif.Engine.ProblemProps
import Verif.Search.Quant
/-!
# The formula searched, for untyped problems

The formula made of a problem of closed FOF formulas is closed, its quantifiers bind different variables, none of which has the
number of a symbol, and it has no metavariables: it is a formula the results on the rules (C21, C22, C23) and on the search
(C65) are about. A class of formulas that the parts of the way keep is carried along (`Class`).
-/

namespace Verif.Engine
open Verif.AST
open Verif.Search (FO FOL FOL_iff WF FO_replace)

/-! ### Numbers of symbols are new -/

/-- A number given to a symbol on the way was not in use before. -/
structure Grow (m m' : Maker) : Prop where
  cpt : m.cpt ≤ m'.cpt
  new : ∀ s i, m'.ids s = some i → m.ids s = some i ∨ m.cpt ≤ i

theorem Grow.refl (m : Maker) : Grow m m := ⟨Nat.le_refl _, fun _ _ h => .inl h⟩
theorem Grow.trans {a b c : Maker} (h : Grow a b) (h' : Grow b c) : Grow a c :=
  ⟨Nat.le_trans h.cpt h'.cpt, fun s i x => by
    rcases h'.new s i x with y | y
    · exact h.new s i y
    · exact .inr (Nat.le_trans h.cpt y)⟩

theorem Grow.of_ids {m m' : Maker} (h : m'.ids = m.ids) (hc : m.cpt ≤ m'.cpt) : Grow m m' :=
  ⟨hc, fun s i x => .inl (by rw [← h]; exact x)⟩

theorem var_grow (m : Maker) (n : String) : Grow m (m.var n).2 := by
  unfold Maker.var; split
  · exact Grow.refl _
  · exact .of_ids rfl (Nat.le_succ _)

theorem id_grow (m : Maker) (n : String) : Grow m (m.id n).2 := by
  unfold Maker.id; split
  · exact Grow.refl _
  · refine ⟨Nat.le_succ _, fun s i h => ?_⟩
    simp only [Maker.newId, setKey] at h
    split at h
    · cases h; exact .inr (Nat.le_refl _)
    · exact .inl h

mutual
theorem elabTy_grow (top : Bool) : ∀ (ty : PTy) (m : Maker) (r : Ty × Maker), elabTy top m ty = some r →
    Grow m r.2
  | .var n, m, r, h => by
    simp only [elabTy] at h
    split at h <;> cases h
    · exact Grow.refl _
    · exact var_grow m n
  | .fn s args, m, r, h => by
    simp only [elabTy, Option.map_eq_some_iff] at h
    obtain ⟨x, hx, rfl⟩ := h
    exact elabTyL_grow top args m x hx
  | .prod l r', m, r, h => by
    simp only [elabTy] at h
    split at h
    · cases h
    simp only [Option.bind_eq_some_iff, Option.map_eq_some_iff] at h
    obtain ⟨x, hx, y, hy, rfl⟩ := h
    exact Grow.trans (elabTy_grow top l m x hx) (elabTy_grow top r' _ y hy)
  | .map l r', m, r, h => by
    simp only [elabTy] at h
    split at h
    · cases h
    simp only [Option.bind_eq_some_iff, Option.map_eq_some_iff] at h
    obtain ⟨x, hx, y, hy, rfl⟩ := h
    exact Grow.trans (elabTy_grow top l m x hx) (elabTy_grow top r' _ y hy)
  | .all vs t, m, r, h => by
    simp only [elabTy, Option.bind_eq_some_iff] at h
    obtain ⟨x, hx, h⟩ := h
    have := elabTy_grow top t m x hx
    split at h <;> cases h
    exact this
theorem elabTyL_grow (top : Bool) : ∀ (l : List PTy) (m : Maker) (r : List Ty × Maker),
    elabTyL top m l = some r → Grow m r.2
  | [], m, r, h => by simp only [elabTyL] at h; cases h; exact Grow.refl _
  | a :: l, m, r, h => by
    simp only [elabTyL, Option.bind_eq_some_iff, Option.map_eq_some_iff] at h
    obtain ⟨x, hx, y, hy, rfl⟩ := h
    exact Grow.trans (elabTy_grow top a m x hx) (elabTyL_grow top l _ y hy)
end

mutual
theorem elabT_grow : ∀ (t : PTm) (con : Ctx) (m : Maker) (r : Out Term), elabT con m t = some r →
    Grow m r.m
  | .var n, con, m, r, h => by simp only [elabT] at h; cases h; exact var_grow m n
  | .fn s args dt, con, m, r, h => by
    simp only [elabT, Option.bind_eq_some_iff] at h
    obtain ⟨tys, _, x, hx, targs, _, y, hy, h⟩ := h
    have h1 := elabL_grow args con m tys x hx
    have h2 := elabTyL_grow false targs _ y hy
    have h3 := id_grow x.m s
    split at h
    · cases h; exact Grow.trans (Grow.trans h1 h3) h2
    · simp only [Option.map_eq_some_iff] at h
      obtain ⟨z, hz, rfl⟩ := h
      exact Grow.trans (Grow.trans (Grow.trans h1 h3) h2) (elabTy_grow false _ _ z hz)
theorem elabL_grow : ∀ (l : List PTm) (con : Ctx) (m : Maker) (tys : List PTy) (r : Out (List Term)),
    elabL con m tys l = some r → Grow m r.m
  | [], con, m, tys, r, h => by simp only [elabL] at h; cases h; exact Grow.refl _
  | a :: l, con, m, tys, r, h => by
    cases tys with
    | nil => simp only [elabL] at h; cases h; exact Grow.refl _
    | cons ty tys =>
    simp only [elabL] at h
    split at h
    · exact elabL_grow l con m tys r h
    · simp only [Option.bind_eq_some_iff, Option.map_eq_some_iff] at h
      obtain ⟨x, hx, y, hy, rfl⟩ := h
      exact Grow.trans (elabT_grow a con m x hx) (elabL_grow l x.con x.m tys y hy)
end

theorem pretypeVars_grow : ∀ (vs : List (String × PTy)) (m : Maker) (r : List TVar × Maker),
    pretypeVars m vs = some r → Grow m r.2
  | [], m, r, h => by simp only [pretypeVars] at h; cases h; exact Grow.refl _
  | e :: vs, m, r, h => by
    simp only [pretypeVars, Option.bind_eq_some_iff, Option.map_eq_some_iff] at h
    obtain ⟨x, hx, y, hy, rfl⟩ := h
    exact Grow.trans (Grow.trans (elabTy_grow false _ m x hx) (var_grow _ _))
      (pretypeVars_grow vs _ y hy)

theorem elabSeq_grow {g : Ctx → Maker → PForm → Option (Out Form)}
    (hg : ∀ f con m r, g con m f = some r → Grow m r.m) : ∀ (fs : List PForm) (con : Ctx) (m : Maker)
    (r : Out (List Form)), elabSeq g con m fs = some r → Grow m r.m
  | [], con, m, r, h => by simp only [elabSeq] at h; cases h; exact Grow.refl _
  | f :: fs, con, m, r, h => by
    simp only [elabSeq, Option.bind_eq_some_iff, Option.map_eq_some_iff] at h
    obtain ⟨x, hx, y, hy, rfl⟩ := h
    exact Grow.trans (hg f con m x hx) (elabSeq_grow hg fs x.con x.m y hy)

theorem elabN_grow (fl : Bool) : ∀ (n : Nat) (f : PForm) (con : Ctx) (m : Maker) (r : Out Form),
    elabN fl n con m f = some r → Grow m r.m := by
  intro n
  induction n with
  | zero => intro f con m r h; simp [elabN] at h
  | succ n ih =>
    intro f con m r h
    cases f with
    | top => simp only [elabN] at h; cases h; exact Grow.refl _
    | bot => simp only [elabN] at h; cases h; exact Grow.refl _
    | pred s args =>
      simp only [elabN, Option.bind_eq_some_iff, Option.map_eq_some_iff] at h
      obtain ⟨tys, _, x, hx, targs, _, y, hy, rfl⟩ := h
      exact Grow.trans (Grow.trans (elabL_grow args con m tys x hx) (id_grow x.m s))
        (elabTyL_grow false targs _ y hy)
    | neg f =>
      simp only [elabN, Option.map_eq_some_iff] at h
      obtain ⟨x, hx, rfl⟩ := h
      exact ih f con m x hx
    | bin op l r' =>
      simp only [elabN, Option.bind_eq_some_iff, Option.map_eq_some_iff] at h
      obtain ⟨x, hx, f', _, rfl⟩ := h
      exact elabSeq_grow ih _ con m x hx
    | all vs f =>
      simp only [elabN, Option.bind_eq_some_iff, Option.map_eq_some_iff] at h
      obtain ⟨q, hq, x, hx, rfl⟩ := h
      exact Grow.trans (pretypeVars_grow vs m q hq) (ih _ _ _ x hx)
    | ex vs f =>
      simp only [elabN, Option.bind_eq_some_iff] at h
      obtain ⟨q, hq, h⟩ := h
      split at h
      · cases h
      simp only [Option.map_eq_some_iff] at h
      obtain ⟨x, hx, rfl⟩ := h
      exact Grow.trans (pretypeVars_grow vs m q hq) (ih _ _ _ x hx)

/-! ### Elaborated formulas are of first order and without metavariables -/

mutual
theorem elabT_metas : ∀ (t : PTm) (con : Ctx) (m : Maker) (r : Out Term), elabT con m t = some r → r.val.metas = []
  | .var n, con, m, r, h => by simp only [elabT] at h; cases h; rfl
  | .fn s args dt, con, m, r, h => by
    simp only [elabT, Option.bind_eq_some_iff] at h
    obtain ⟨tys, _, x, hx, targs, _, y, hy, h⟩ := h
    have h1 := elabL_metas args con m tys x hx
    split at h
    · cases h; simpa [Term.metas] using h1
    · simp only [Option.map_eq_some_iff] at h
      obtain ⟨z, hz, rfl⟩ := h
      simpa [Term.metas] using h1
theorem elabL_metas : ∀ (l : List PTm) (con : Ctx) (m : Maker) (tys : List PTy) (r : Out (List Term)),
    elabL con m tys l = some r → Term.metasL r.val = []
  | [], con, m, tys, r, h => by simp only [elabL] at h; cases h; rfl
  | a :: l, con, m, tys, r, h => by
    cases tys with
    | nil => simp only [elabL] at h; cases h; rfl
    | cons ty tys =>
    simp only [elabL] at h
    split at h
    · exact elabL_metas l con m tys r h
    · simp only [Option.bind_eq_some_iff, Option.map_eq_some_iff] at h
      obtain ⟨x, hx, y, hy, rfl⟩ := h
      simp [Term.metasL, elabT_metas a con m x hx, elabL_metas l x.con x.m tys y hy]
end

theorem pretypeVars_types : ∀ (vs : List (String × PTy)) (m : Maker) (r : List TVar × Maker),
    (∀ e ∈ vs, ∃ s, s ≠ "$tType" ∧ e.2 = .fn s []) → pretypeVars m vs = some r → ∀ v ∈ r.1, Verif.Search.isTType v.ty = false
  | [], m, r, _, h => by simp only [pretypeVars] at h; cases h; simp
  | e :: vs, m, r, hv, h => by
    obtain ⟨s, hs, he⟩ := hv e (by simp)
    simp only [pretypeVars, he, elabTy, elabTyL, Option.map_some, Option.bind_some, Option.map_eq_some_iff] at h
    obtain ⟨y, hy, rfl⟩ := h
    intro v hv'
    rcases List.mem_cons.1 hv' with rfl | hv'
    · simp [Verif.Search.isTType, hs]
    · exact pretypeVars_types vs _ y (fun e he => hv e (List.mem_cons_of_mem _ he)) hy v hv'

/-- First order, without metavariables. -/
def Pure (f : Form) : Prop := FO f ∧ f.metas = []

theorem metasL_nil {l : List Form} : Form.metasL l = [] ↔ ∀ f ∈ l, f.metas = [] := by
  induction l with
  | nil => simp [Form.metasL]
  | cons a l ih => simp [Form.metasL, ih]

theorem pure_and {l : List Form} : Pure (.and l) ↔ ∀ f ∈ l, Pure f := by
  simp only [Pure, FO, FOL_iff, Form.metas, metasL_nil, forall_and]

theorem pure_or {l : List Form} : Pure (.or l) ↔ ∀ f ∈ l, Pure f := by
  simp only [Pure, FO, FOL_iff, Form.metas, metasL_nil, forall_and]

theorem mkBin_pure {op : PBinOp} {fs : List Form} {f : Form} (h : ∀ g ∈ fs, Pure g) (hf : mkBin op fs = some f) : Pure f := by
  match op, fs, h, hf with
  | .or, fs, h, hf => simp only [mkBin, Option.some.injEq] at hf; subst hf; exact pure_or.2 h
  | .and, fs, h, hf => simp only [mkBin, Option.some.injEq] at hf; subst hf; exact pure_and.2 h
  | .imp, [a, b], h, hf =>
    have h1 := h a (by simp)
    have h2 := h b (by simp)
    simp only [mkBin, Option.some.injEq] at hf; subst hf
    exact ⟨⟨h1.1, h2.1⟩, by simp [Form.metas, h1.2, h2.2]⟩
  | .equ, [a, b], h, hf =>
    have h1 := h a (by simp)
    have h2 := h b (by simp)
    simp only [mkBin, Option.some.injEq] at hf; subst hf
    exact ⟨⟨h1.1, h2.1⟩, by simp [Form.metas, h1.2, h2.2]⟩
  | .imp, [], _, hf => simp [mkBin] at hf
  | .imp, [_], _, hf => simp [mkBin] at hf
  | .imp, _ :: _ :: _ :: _, _, hf => simp [mkBin] at hf
  | .equ, [], _, hf => simp [mkBin] at hf
  | .equ, [_], _, hf => simp [mkBin] at hf
  | .equ, _ :: _ :: _ :: _, _, hf => simp [mkBin] at hf

theorem elabSeq_pure {V F : String → Prop} {g : Ctx → Maker → PForm → Option (Out Form)}
    (hg : ∀ f con m r, f.Fof V F → g con m f = some r → Pure r.val) : ∀ (fs : List PForm) (con : Ctx) (m : Maker)
    (r : Out (List Form)), (∀ f ∈ fs, f.Fof V F) → elabSeq g con m fs = some r → ∀ f ∈ r.val, Pure f
  | [], con, m, r, _, h => by simp only [elabSeq] at h; cases h; simp
  | f :: fs, con, m, r, hp, h => by
    simp only [elabSeq, Option.bind_eq_some_iff, Option.map_eq_some_iff] at h
    obtain ⟨x, hx, y, hy, rfl⟩ := h
    intro z hz
    rcases List.mem_cons.1 hz with rfl | hz
    · exact hg f con m x (hp f (by simp)) hx
    · exact elabSeq_pure hg fs x.con x.m y (fun f hf => hp f (List.mem_cons_of_mem _ hf)) hy z hz

theorem elabN_pure {V F : String → Prop} (fl : Bool) : ∀ (n : Nat) (f : PForm) (con : Ctx) (m : Maker) (r : Out Form), f.Fof V F →
    elabN fl n con m f = some r → Pure r.val := by
  intro n
  induction n with
  | zero => intro f con m r _ h; simp [elabN] at h
  | succ n ih =>
    intro f con m r hp h
    have predCase : ∀ s args, elabN fl (n + 1) con m (.pred s args) = some r → Pure r.val := by
      intro s args h
      simp only [elabN, Option.bind_eq_some_iff, Option.map_eq_some_iff] at h
      obtain ⟨tys, _, x, hx, targs, _, y, hy, rfl⟩ := h
      exact ⟨trivial, elabL_metas args con m tys x hx⟩
    cases hp with
    | top => simp only [elabN] at h; cases h; exact ⟨trivial, rfl⟩
    | bot => simp only [elabN] at h; cases h; exact ⟨trivial, rfl⟩
    | pred => exact predCase _ _ h
    | eq => exact predCase _ _ h
    | neg hp =>
      simp only [elabN, Option.map_eq_some_iff] at h
      obtain ⟨x, hx, rfl⟩ := h
      exact ih _ con m x hp hx
    | bin hl hr =>
      simp only [elabN, Option.bind_eq_some_iff, Option.map_eq_some_iff] at h
      obtain ⟨x, hx, f', hf', rfl⟩ := h
      exact mkBin_pure (elabSeq_pure ih _ con m x (fun g hg => (subForms_fof hl hr g hg).1) hx) hf'
    | @all vs f hv hp =>
      simp only [elabN, Option.bind_eq_some_iff, Option.map_eq_some_iff] at h
      obtain ⟨q, hq, x, hx, rfl⟩ := h
      have h0 := pretypeVars_types vs m q (fun e he => (hv e he).2) hq
      have h1 := ih _ _ _ x hp hx
      simp only [mkAll]
      split
      · exact h1
      · next hne => exact ⟨⟨⟨by simpa using hne, h0⟩, h1.1⟩, h1.2⟩
    | @ex vs f hv hp =>
      simp only [elabN, Option.bind_eq_some_iff] at h
      obtain ⟨q, hq, h⟩ := h
      split at h
      · cases h
      simp only [Option.map_eq_some_iff] at h
      obtain ⟨x, hx, rfl⟩ := h
      have h0 := pretypeVars_types vs m q (fun e he => (hv e he).2) hq
      have h1 := ih _ _ _ x hp hx
      simp only [mkEx]
      split
      · exact h1
      · next hne => exact ⟨⟨⟨by simpa using hne, h0⟩, h1.1⟩, h1.2⟩

/-! ### Renaming -/

/-- What the two replacements of the renaming keep, the loop over the variables keeps. -/
theorem renameVarsLoop_keeps {P : Form → Prop} (h1 : ∀ f x y, P f → P (Form.replaceTermByTerm (.var x) (.var y) f).1)
    (h2 : ∀ f n s, P f → P (f.substBound n (.bound s))) : ∀ (vs : List TVar) (f : Form) (m : Maker), P f →
    P (renameVarsLoop vs f m).2.2.1
  | [], f, m, h => h
  | v :: vs, f, m, h => by
    simp only [renameVarsLoop]
    refine renameVarsLoop_keeps h1 h2 vs _ _ ?_
    split
    · exact h1 _ _ _ h
    · exact h2 _ _ _ (h1 _ _ _ h)

theorem renameVarsLoop_types : ∀ (vs : List TVar) (f : Form) (m : Maker),
    (renameVarsLoop vs f m).1.map TVar.ty = vs.map TVar.ty
  | [], f, m => rfl
  | v :: vs, f, m => by simp only [renameVarsLoop, List.map_cons, renameVarsLoop_types vs]

theorem isTType_subst {n s : String} (t : Ty) (h : Verif.Search.isTType t = false) : Verif.Search.isTType (Ty.substBound n (.bound s) t) = false := by
  cases t with
  | constr c l =>
    cases l with
    | nil => simpa [Ty.substBound, Ty.substBoundL] using h
    | cons a l => simp [Ty.substBound, Ty.substBoundL, Verif.Search.isTType]
  | bound k =>
    simp only [Ty.substBound]
    split <;> simp [Verif.Search.isTType]
  | _ => simp [Ty.substBound, Verif.Search.isTType]

theorem isTType_substs (ps : List (String × String)) (t : Ty) (h : Verif.Search.isTType t = false) :
    Verif.Search.isTType (ps.foldl (fun t p => Ty.substBound p.1 (.bound p.2) t) t) = false := by
  induction ps generalizing t with
  | nil => exact h
  | cons p ps ih => exact ih _ (isTType_subst t h)

theorem vars_types {ps : List (String × String)} {vs : List TVar} {f : Form} {m : Maker}
    (h : vs ≠ [] ∧ ∀ v ∈ vs, Verif.Search.isTType v.ty = false) :
    substTVars ps (renameVarsLoop vs f m).1 ≠ [] ∧ ∀ v ∈ substTVars ps (renameVarsLoop vs f m).1, Verif.Search.isTType v.ty = false := by
  have ht := renameVarsLoop_types vs f m
  constructor
  · intro he
    have h1 : ((renameVarsLoop vs f m).1.map TVar.ty).length = 0 := by
      have := congrArg List.length he
      simpa [substTVars] using this
    rw [ht, List.length_map] at h1
    exact h.1 (List.length_eq_zero_iff.1 h1)
  · intro v hv
    obtain ⟨w, hw, rfl⟩ := List.mem_map.1 hv
    refine isTType_substs _ _ ?_
    have : w.ty ∈ vs.map TVar.ty := by rw [← ht]; exact List.mem_map_of_mem hw
    obtain ⟨u, hu, e⟩ := List.mem_map.1 this
    rw [← e]
    exact h.2 u hu

mutual
theorem FO_substBound {n s : String} : ∀ (f : Form), FO f → FO (f.substBound n (.bound s))
  | .pred _ _ _, _ => by simp [Form.substBound, FO]
  | .top, _ => by simp [Form.substBound, FO]
  | .bot, _ => by simp [Form.substBound, FO]
  | .neg f, h => by simp only [Form.substBound, FO]; exact FO_substBound f h
  | .and fs, h => by simp only [Form.substBound, FO]; exact FOL_substBound fs h
  | .or fs, h => by simp only [Form.substBound, FO]; exact FOL_substBound fs h
  | .imp f g, h => by simp only [Form.substBound, FO]; exact ⟨FO_substBound f h.1, FO_substBound g h.2⟩
  | .equ f g, h => by simp only [Form.substBound, FO]; exact ⟨FO_substBound f h.1, FO_substBound g h.2⟩
  | .all vs f, h => by
    simp only [Form.substBound, FO]
    refine ⟨⟨by simpa using h.1.1, ?_⟩, FO_substBound f h.2⟩
    intro v hv
    obtain ⟨w, hw, rfl⟩ := List.mem_map.1 hv
    exact isTType_subst _ (h.1.2 w hw)
  | .ex vs f, h => by
    simp only [Form.substBound, FO]
    refine ⟨⟨by simpa using h.1.1, ?_⟩, FO_substBound f h.2⟩
    intro v hv
    obtain ⟨w, hw, rfl⟩ := List.mem_map.1 hv
    exact isTType_subst _ (h.1.2 w hw)
theorem FOL_substBound {n s : String} : ∀ (l : List Form), FOL l → FOL (Form.substBoundL n (.bound s) l)
  | [], _ => by simp [Form.substBoundL, FOL]
  | f :: l, h => by simp only [Form.substBoundL, FOL]; exact ⟨FO_substBound f h.1, FOL_substBound l h.2⟩
end

mutual
theorem FO_rename : ∀ (f : Form) (m : Maker), FO f → FO (f.rename m).1
  | .pred _ _ _, m, _ => trivial
  | .top, m, _ => trivial
  | .bot, m, _ => trivial
  | .neg f, m, h => by simp only [Form.rename, FO]; exact FO_rename f m h
  | .and fs, m, h => by simp only [Form.rename, FO]; exact FOL_rename fs m h
  | .or fs, m, h => by simp only [Form.rename, FO]; exact FOL_rename fs m h
  | .imp f g, m, h => by simp only [Form.rename, FO]; exact ⟨FO_rename f _ h.1, FO_rename g _ h.2⟩
  | .equ f g, m, h => by simp only [Form.rename, FO]; exact ⟨FO_rename f _ h.1, FO_rename g _ h.2⟩
  | .all vs f, m, h => by
    simp only [Form.rename, FO]
    exact ⟨vars_types h.1, renameVarsLoop_keeps (fun _ _ _ h => FO_replace h) (fun f _ _ h => FO_substBound f h) _ _ _ (FO_rename f m h.2)⟩
  | .ex vs f, m, h => by
    simp only [Form.rename, FO]
    exact ⟨vars_types h.1, renameVarsLoop_keeps (fun _ _ _ h => FO_replace h) (fun f _ _ h => FO_substBound f h) _ _ _ (FO_rename f m h.2)⟩
theorem FOL_rename : ∀ (l : List Form) (m : Maker), FOL l → FOL (Form.renameL l m).1
  | [], m, _ => trivial
  | f :: l, m, h => by simp only [Form.renameL, FOL]; exact ⟨FO_rename f m h.1, FOL_rename l _ h.2⟩
end

/-! ### A class of formulas -/

/-- A class of written formulas, asserted or denied (`W`), and of elaborated formulas (`Q`), that the elaboration, the renaming and the
conjunction of the formulas keep. -/
structure Class (V F : String → Prop) (W : Bool → WForm → Prop) (Q : Maker → Bool → Form → Prop) : Prop where
  made : ∀ (fl : Bool) (con : Ctx) (m : Maker) (w : WForm) (r : Out Form) (p : Bool), w.Fof V F → W p w → FofCon V F con → Inv m →
    elabForm fl con m w.parse = some r → Q r.m p r.val
  le : ∀ {m m' : Maker} {p : Bool} {f : Form}, IdsLe m m' → Q m p f → Q m' p f
  ren : ∀ {m : Maker} {p : Bool} {f : Form} (k : Maker), Q m p f → Q m p (f.rename k).1
  neg : ∀ {m : Maker} {f : Form}, Q m false f → Q m true (.neg f)
  and : ∀ {m : Maker} {l : List Form}, l ≠ [] → (∀ f ∈ l, Q m true f) → Q m true (.and l)
  parts : ∀ {m : Maker} {l : List Form}, Q m true (.and l) → ∀ f ∈ l, Q m true f

/-- Whether the formula of a statement is asserted. -/
def PRole.pol : PRole → Bool
  | .conj => false
  | _ => true

/-- Untyped problems with formulas of a class. -/
inductive PStmt.In (V F : String → Prop) (W : Bool → WForm → Prop) : PStmt → Prop
  | incl {file} : (∀ s ∈ file, PStmt.In V F W s) → PStmt.In V F W (.incl none file)
  | form {n role w} : (role = .ax ∨ role = .conj ∨ role = .negConj) → w.Fof V F → w.AllI → (∀ x, x ∉ w.fv) → W role.pol w →
      PStmt.In V F W (.form n role w)

variable {V F : String → Prop} {W : Bool → WForm → Prop} {Q : Maker → Bool → Form → Prop}

theorem PStmt.In.fof {s : PStmt} (h : PStmt.In V F W s) : PStmt.Fof V F s := by
  induction h with
  | incl _ ih => exact .incl ih
  | form h1 h2 h3 h4 _ => exact .form h1 h2 h3 h4

theorem PStmt.Fof.in_all {s : PStmt} (h : PStmt.Fof V F s) : PStmt.In V F (fun _ _ => True) s := by
  induction h with
  | incl _ ih => exact .incl ih
  | form h1 h2 h3 h4 => exact .form h1 h2 h3 h4 trivial

/-- All formulas are a class. -/
theorem classAll : Class V F (fun _ _ => True) (fun _ _ _ => True) := by
  constructor <;> intros <;> trivial

/-- Formulas collected: they are closed, of first order and the class, and bind different variables with numbers from `lo` on. -/
structure Tidy (Q : Maker → Bool → Form → Prop) (lo : Nat) (m : Maker) (l : List Form) : Prop where
  pure : ∀ f ∈ l, Pure f
  closed : ∀ f ∈ l, ∀ i, i ∉ f.fvs
  nodup : (l.flatMap Form.binders).Nodup
  binders : ∀ f ∈ l, ∀ i ∈ f.binders, lo ≤ i ∧ i < m.cpt ∧ ∀ s, m.ids s ≠ some i
  funs : ∀ f ∈ l, ∀ i ∈ f.funs, ∃ s, m.ids s = some i
  cls : ∀ f ∈ l, Q m true f

theorem Tidy.nil {lo : Nat} {m : Maker} : Tidy Q lo m [] := by constructor <;> simp

theorem Tidy.perm {lo : Nat} {m : Maker} {l l' : List Form} (h : Tidy Q lo m l) (hp : l.Perm l') : Tidy Q lo m l' :=
  ⟨fun f hf => h.pure f (hp.mem_iff.2 hf), fun f hf => h.closed f (hp.mem_iff.2 hf), (hp.flatMap_right _).nodup_iff.1 h.nodup,
    fun f hf => h.binders f (hp.mem_iff.2 hf), fun f hf => h.funs f (hp.mem_iff.2 hf), fun f hf => h.cls f (hp.mem_iff.2 hf)⟩

theorem Tidy.le (C : Class V F W Q) {lo : Nat} {m m' : Maker} {l : List Form} (h : Tidy Q lo m l) (hi : IdsLe m m') (hg : Grow m m') :
    Tidy Q lo m' l :=
  ⟨h.pure, h.closed, h.nodup, fun f hf i hb => by
    obtain ⟨a, b, c⟩ := h.binders f hf i hb
    refine ⟨a, Nat.lt_of_lt_of_le b hi.cpt, fun s hs => ?_⟩
    rcases hg.new s i hs with h | h
    · exact c s h
    · omega, fun f hf i hb => by
    obtain ⟨s, hs⟩ := h.funs f hf i hb
    exact ⟨s, hi.ids _ _ hs⟩, fun f hf => C.le hi (h.cls f hf)⟩

theorem Tidy.append (C : Class V F W Q) {lo : Nat} {m m' : Maker} {l l' : List Form} (h : Tidy Q lo m l) (hi : IdsLe m m') (hg : Grow m m')
    (hlo : lo ≤ m.cpt) (h' : Tidy Q m.cpt m' l') : Tidy Q lo m' (l ++ l') := by
  have k := h.le C hi hg
  constructor
  · intro f hf; rcases List.mem_append.1 hf with hf | hf
    · exact k.pure f hf
    · exact h'.pure f hf
  · intro f hf; rcases List.mem_append.1 hf with hf | hf
    · exact k.closed f hf
    · exact h'.closed f hf
  · rw [List.flatMap_append, List.nodup_append]
    refine ⟨h.nodup, h'.nodup, ?_⟩
    intro a ha b hb e
    obtain ⟨f, hf, ha⟩ := List.mem_flatMap.1 ha
    obtain ⟨g, hg, hb⟩ := List.mem_flatMap.1 hb
    have := (h.binders f hf a ha).2.1
    have := (h'.binders g hg b hb).1
    omega
  · intro f hf i hb; rcases List.mem_append.1 hf with hf | hf
    · exact k.binders f hf i hb
    · obtain ⟨a, b⟩ := h'.binders f hf i hb
      exact ⟨Nat.le_trans hlo a, b⟩
  · intro f hf; rcases List.mem_append.1 hf with hf | hf
    · exact k.funs f hf
    · exact h'.funs f hf
  · intro f hf; rcases List.mem_append.1 hf with hf | hf
    · exact k.cls f hf
    · exact h'.cls f hf

/-- An elaborated formula before the renaming. -/
structure Raw (Q : Maker → Bool → Form → Prop) (p : Bool) (m : Maker) (f : Form) : Prop where
  ready : Ready f m
  pure : Pure f
  funs : ∀ i ∈ f.funs, ∃ s, m.ids s = some i
  cls : Q m p f

theorem Raw.le (C : Class V F W Q) {p : Bool} {m m' : Maker} {f : Form} (h : Raw Q p m f) (hi : IdsLe m m') : Raw Q p m' f :=
  ⟨h.ready.le hi.cpt, h.pure, fun i hb => by obtain ⟨s, hs⟩ := h.funs i hb; exact ⟨s, hi.ids _ _ hs⟩, C.le hi h.cls⟩

/-- Renaming the formula. -/
theorem Raw.rename (C : Class V F W Q) {p : Bool} {m : Maker} {f : Form} (hm : Inv m) (h : Raw Q p m f) :
    IdsLe m (f.rename m).2 ∧ Grow m (f.rename m).2 ∧ Inv (f.rename m).2 ∧ ∀ g, g = (f.rename m).1 ∧ p = true ∨ g = .neg (f.rename m).1 ∧ p = false →
      Tidy Q m.cpt (f.rename m).2 [g] := by
  have s := Form.rename_spec.{0} f m h.ready.mono h.ready.names hm.fresh h.ready.binders (fun i hi => absurd hi (h.ready.fvs i))
  have k := rename_maker f m hm.ok
  have hle : IdsLe m (f.rename m).2 := ⟨fun s i hs => by rw [k.1]; exact hs, k.2.2⟩
  have hq : Q (f.rename m).2 p (f.rename m).1 := C.ren m (C.le hle h.cls)
  have hp : Pure (f.rename m).1 := by
    refine ⟨FO_rename f m h.pure.1, ?_⟩
    cases hmm : (f.rename m).1.metas with
    | nil => rfl
    | cons a l =>
      have := s.metas a (by rw [hmm]; simp)
      rw [h.pure.2] at this
      cases this
  have hb : ∀ i ∈ (f.rename m).1.binders, m.cpt ≤ i ∧ i < (f.rename m).2.cpt ∧ ∀ s, (f.rename m).2.ids s ≠ some i := by
    intro i hi
    obtain ⟨a, b⟩ := s.range i hi
    refine ⟨a, b, fun t ht => ?_⟩
    rw [k.1] at ht
    have := hm.ok.ids_lt _ _ ht
    omega
  have hfn : ∀ i ∈ (f.rename m).1.funs, ∃ s, (f.rename m).2.ids s = some i := by
    intro i hi
    obtain ⟨t, ht⟩ := h.funs i (s.funs i hi)
    exact ⟨t, hle.ids _ _ ht⟩
  have hcl : ∀ i, i ∉ (f.rename m).1.fvs := fun i hi => h.ready.fvs i (s.fvs i hi)
  refine ⟨hle, .of_ids k.1 k.2.2, ⟨k.2.1, s.fresh⟩, ?_⟩
  rintro g (⟨rfl, rfl⟩ | ⟨rfl, rfl⟩)
  · constructor <;> simp only [List.mem_singleton, forall_eq, List.flatMap_cons, List.flatMap_nil, List.append_nil]
    · exact hp
    · exact hcl
    · exact s.nodup
    · exact hb
    · exact hfn
    · exact hq
  · constructor <;> simp only [List.mem_singleton, forall_eq, List.flatMap_cons, List.flatMap_nil, List.append_nil]
    · exact hp
    · exact hcl
    · exact s.nodup
    · exact hb
    · exact hfn
    · exact C.neg hq

/-! ### Files -/

/-- A statement after elaboration. -/
def CIn (V F : String → Prop) (W : Bool → WForm → Prop) (Q : Maker → Bool → Form → Prop) (m : Maker) : CStmt → Prop
  | .incl file => ∀ s ∈ file, PStmt.In V F W s
  | .missing => True
  | .form role f => Raw Q role.pol m f
  | .typ _ _ _ => True

theorem CIn.le (C : Class V F W Q) {m m' : Maker} (h : IdsLe m m') : ∀ {c : CStmt}, CIn V F W Q m c → CIn V F W Q m' c
  | .incl _, hc => hc
  | .missing, _ => trivial
  | .form _ _, hc => Raw.le C hc h
  | .typ _ _ _, _ => trivial

theorem toInternal_in (C : Class V F W Q) (fl : Bool) (L : Lex V F) : ∀ (l : List PStmt) (con : Ctx) (m : Maker) (cs : List CStmt) (b : Bool) (m' : Maker),
    (∀ s ∈ l, PStmt.In V F W s) → FofCon V F con → ConI V con → Inv m → toInternal fl con m l = some (cs, b, m') →
    IdsLe m m' ∧ Grow m m' ∧ Inv m' ∧ ∀ c ∈ cs, CIn V F W Q m' c
  | [], con, m, cs, b, m', _, _, _, hm, h => by
    simp only [toInternal, Option.some.injEq, Prod.mk.injEq] at h
    obtain ⟨rfl, _, rfl⟩ := h
    exact ⟨IdsLe.refl m, Grow.refl m, hm, by simp⟩
  | s :: l, con, m, cs, b, m', hl, hc, hi, hm, h => by
    have hl' : ∀ s ∈ l, PStmt.In V F W s := fun s hs => hl s (List.mem_cons_of_mem _ hs)
    cases hl s (by simp) with
    | @incl file hfile =>
      simp only [toInternal, Option.map_eq_some_iff] at h
      obtain ⟨⟨cs', b', m''⟩, hy, h⟩ := h
      cases h
      obtain ⟨a1, a2, a3, a4⟩ := toInternal_in C fl L l con m _ _ _ hl' hc hi hm hy
      refine ⟨a1, a2, a3, ?_⟩
      intro c hcs
      rcases List.mem_cons.1 hcs with rfl | hcs
      · exact hfile
      · exact a4 c hcs
    | @form n role w hrole hw hI hcl hW =>
      simp only [toInternal, Option.bind_eq_some_iff, Option.map_eq_some_iff] at h
      obtain ⟨x, hx, ⟨cs', b', m''⟩, hy, h⟩ := h
      cases h
      obtain ⟨r, hr, b1, b2, b3, b4, -, b6, -⟩ := elabForm_ready.{0} fl L con m w hw hI hcl hc hi hm
      obtain rfl : r = x := by rw [hx] at hr; cases hr; rfl
      obtain ⟨-, -, -, -, syn⟩ := elabN_syn fl L _ w.parse con m r (parse_fof hw) hc hm.ok hm.fresh hx
      obtain ⟨a1, a2, a3, a4⟩ := toInternal_in C fl L l r.con r.m _ _ _ hl' b3 b4 b2 hy
      refine ⟨b1.trans a1, (elabN_grow fl _ _ _ _ _ hx).trans a2, a3, ?_⟩
      intro c hcs
      rcases List.mem_cons.1 hcs with rfl | hcs
      · exact Raw.le C ⟨b6, elabN_pure fl _ _ _ _ _ (parse_fof hw) hx, syn.funs, C.made fl con m w r _ hw hW hc hm hx⟩ a1
      · exact a4 c hcs

/-- What is shown of reading a file. -/
structure FileIn (Q : Maker → Bool → Form → Prop) (m : Maker) (r : FileOut) : Prop where
  le : IdsLe m r.m
  grow : Grow m r.m
  inv : Inv r.m
  tidy : ∀ f, r.form = some f → Tidy Q m.cpt r.m [f]

/-- The formulas collected by the loop. -/
def LState.all (st : LState) : List Form := st.conj.toList ++ st.ands

theorem loop_in (C : Class V F W Q) {g : Maker → List PStmt → Option FileOut}
    (hg : ∀ m file r, (∀ s ∈ file, PStmt.In V F W s) → Inv m → g m file = some r → FileIn Q m r) :
    ∀ (cs : List CStmt) (st st' : LState) (lo : Nat), (∀ c ∈ cs, CIn V F W Q st.m c) → Inv st.m → lo ≤ st.m.cpt → Tidy Q lo st.m st.all →
    loop (fun _ => false) g cs st = some st' →
    IdsLe st.m st'.m ∧ Grow st.m st'.m ∧ Inv st'.m ∧ Tidy Q lo st'.m st'.all
  | [], st, st', lo, _, hi, _, ht, h => by
    simp only [loop, Option.some.injEq] at h
    subst h
    exact ⟨IdsLe.refl _, Grow.refl _, hi, ht⟩
  | c :: cs, st, st', lo, hcs, hi, hlo, ht, h => by
    have hh := hcs c (by simp)
    have htl : ∀ c ∈ cs, CIn V F W Q st.m c := fun c h => hcs c (List.mem_cons_of_mem _ h)
    -- one more formula
    have more : ∀ (st1 : LState) (f : List Form), IdsLe st.m st1.m → Grow st.m st1.m → Inv st1.m → Tidy Q st.m.cpt st1.m f →
        (st.all ++ f).Perm st1.all → loop (fun _ => false) g cs st1 = some st' →
        IdsLe st.m st'.m ∧ Grow st.m st'.m ∧ Inv st'.m ∧ Tidy Q lo st'.m st'.all := by
      intro st1 f h1 h2 h3 h4 h5 h6
      obtain ⟨a1, a2, a3, a4⟩ := loop_in C hg cs st1 st' lo (fun c h => (htl c h).le C h1) h3 (Nat.le_trans hlo h1.cpt)
        ((ht.append C h1 h2 hlo h4).perm h5) h6
      exact ⟨h1.trans a1, h2.trans a2, a3, a4⟩
    cases c with
    | incl file =>
      simp only [loop, Option.bind_eq_some_iff] at h
      obtain ⟨r, hr, h⟩ := h
      have b := hg _ _ _ hh hi hr
      cases hrf : r.form with
      | none =>
        rw [hrf] at h
        exact more _ [] b.le b.grow b.inv .nil (by simp [LState.all]) h
      | some f =>
        rw [hrf] at h
        exact more _ [f] b.le b.grow b.inv (b.tidy f hrf) (by simp [LState.all]) h
    | missing => simp [loop] at h
    | form role f =>
      cases role with
      | ax =>
        obtain ⟨k1, k2, k3, k4⟩ := Raw.rename C hi hh
        simp only [loop, Bool.false_eq_true, if_false] at h
        exact more _ [_] k1 k2 k3 (k4 _ (.inl ⟨rfl, rfl⟩)) (by simp [LState.all]) h
      | conj =>
        obtain ⟨k1, k2, k3, k4⟩ := Raw.rename C hi hh
        simp only [loop] at h
        split at h
        · cases h
        · next hn =>
          have hcn : st.conj = none := by simpa using hn
          exact more _ [_] k1 k2 k3 (k4 _ (.inr ⟨rfl, rfl⟩)) (by
            simp only [LState.all, hcn, Option.toList_none, List.nil_append, Option.toList_some]; exact List.perm_append_comm) h
      | negConj =>
        obtain ⟨k1, k2, k3, k4⟩ := Raw.rename C hi hh
        simp only [loop] at h
        split at h
        · cases h
        · next hn =>
          have hcn : st.conj = none := by simpa using hn
          exact more _ [_] k1 k2 k3 (k4 _ (.inl ⟨rfl, rfl⟩)) (by
            simp only [LState.all, hcn, Option.toList_none, List.nil_append, Option.toList_some]; exact List.perm_append_comm) h
      | type => simp [loop] at h
      | unknown => simp [loop] at h
    | typ role s ty =>
      cases role with
      | type => simp only [loop] at h; exact loop_in C hg cs st st' lo htl hi hlo ht h
      | _ => simp [loop] at h

theorem bindersL_flatMap (l : List Form) : Form.bindersL l = l.flatMap Form.binders := by
  induction l with
  | nil => rfl
  | cons a l ih => simp [Form.bindersL, ih]
theorem fvsL_flatMap (l : List Form) : Form.fvsL l = l.flatMap Form.fvs := by
  induction l with
  | nil => rfl
  | cons a l ih => simp [Form.fvsL, ih]
theorem funsL_flatMap (l : List Form) : Form.funsL l = l.flatMap Form.funs := by
  induction l with
  | nil => rfl
  | cons a l ih => simp [Form.funsL, ih]

/-- A conjunction of the formulas. -/
theorem Tidy.and (C : Class V F W Q) {lo : Nat} {m : Maker} {l : List Form} (h : Tidy Q lo m l) (hl : l ≠ []) : Tidy Q lo m [.and l] := by
  constructor <;> simp only [List.mem_singleton, forall_eq, List.flatMap_cons, List.flatMap_nil, List.append_nil]
  · exact pure_and.2 h.pure
  · intro i hi
    simp only [Form.fvs, fvsL_flatMap, List.mem_flatMap] at hi
    obtain ⟨f, hf, hi⟩ := hi
    exact h.closed f hf i hi
  · simp only [Form.binders, bindersL_flatMap]
    exact h.nodup
  · intro i hi
    simp only [Form.binders, bindersL_flatMap, List.mem_flatMap] at hi
    obtain ⟨f, hf, hi⟩ := hi
    exact h.binders f hf i hi
  · intro i hi
    simp only [Form.funs, funsL_flatMap, List.mem_flatMap] at hi
    obtain ⟨f, hf, hi⟩ := hi
    exact h.funs f hf i hi
  · exact C.and hl h.cls

mutual
theorem flattenAnd1_binders : ∀ (f : Form), (flattenAnd1 f).flatMap Form.binders = f.binders
  | .and fs => by simp only [flattenAnd1, Form.binders]; exact flattenAnd_binders fs
  | .top => by simp [flattenAnd1]
  | .bot => by simp [flattenAnd1]
  | .pred _ _ _ => by simp [flattenAnd1]
  | .neg _ => by simp [flattenAnd1]
  | .or _ => by simp [flattenAnd1]
  | .imp _ _ => by simp [flattenAnd1]
  | .equ _ _ => by simp [flattenAnd1]
  | .all _ _ => by simp [flattenAnd1]
  | .ex _ _ => by simp [flattenAnd1]
theorem flattenAnd_binders : ∀ (l : List Form), (flattenAnd l).flatMap Form.binders = Form.bindersL l
  | [] => by simp [flattenAnd, Form.bindersL]
  | f :: l => by simp only [flattenAnd, List.flatMap_append, Form.bindersL, flattenAnd1_binders f, flattenAnd_binders l]
end

mutual
theorem flattenAnd1_parts {P : Form → Prop} (hP : ∀ l, P (.and l) → ∀ f ∈ l, P f) : ∀ (f : Form), P f → ∀ g ∈ flattenAnd1 f, P g
  | .and fs, h => by simp only [flattenAnd1]; exact flattenAnd_parts hP fs (hP fs h)
  | .top, h => by simpa [flattenAnd1] using h
  | .bot, h => by simpa [flattenAnd1] using h
  | .pred _ _ _, h => by simpa [flattenAnd1] using h
  | .neg _, h => by simpa [flattenAnd1] using h
  | .or _, h => by simpa [flattenAnd1] using h
  | .imp _ _, h => by simpa [flattenAnd1] using h
  | .equ _ _, h => by simpa [flattenAnd1] using h
  | .all _ _, h => by simpa [flattenAnd1] using h
  | .ex _ _, h => by simpa [flattenAnd1] using h
theorem flattenAnd_parts {P : Form → Prop} (hP : ∀ l, P (.and l) → ∀ f ∈ l, P f) : ∀ (l : List Form), (∀ f ∈ l, P f) → ∀ g ∈ flattenAnd l, P g
  | [], _ => by simp [flattenAnd]
  | f :: l, h => by
    intro g hg
    simp only [flattenAnd, List.mem_append] at hg
    rcases hg with hg | hg
    · exact flattenAnd1_parts hP f (h f (by simp)) g hg
    · exact flattenAnd_parts hP l (fun f hf => h f (List.mem_cons_of_mem _ hf)) g hg
end

theorem Tidy.flatten (C : Class V F W Q) {lo : Nat} {m : Maker} {l : List Form} (h : Tidy Q lo m l) : Tidy Q lo m (flattenAnd l) := by
  constructor
  · exact flattenAnd_parts (fun l h => pure_and.1 h) l h.pure
  · refine flattenAnd_parts (P := fun f => ∀ i, i ∉ f.fvs) ?_ l h.closed
    intro l h f hf i hi
    exact h i (by simp only [Form.fvs, fvsL_flatMap, List.mem_flatMap]; exact ⟨f, hf, hi⟩)
  · rw [flattenAnd_binders, bindersL_flatMap]
    exact h.nodup
  · refine flattenAnd_parts (P := fun f => ∀ i ∈ f.binders, lo ≤ i ∧ i < m.cpt ∧ ∀ s, m.ids s ≠ some i) ?_ l h.binders
    intro l h f hf i hi
    exact h i (by simp only [Form.binders, bindersL_flatMap, List.mem_flatMap]; exact ⟨f, hf, hi⟩)
  · refine flattenAnd_parts (P := fun f => ∀ i ∈ f.funs, ∃ s, m.ids s = some i) ?_ l h.funs
    intro l h f hf i hi
    exact h i (by simp only [Form.funs, funsL_flatMap, List.mem_flatMap]; exact ⟨f, hf, hi⟩)
  · exact flattenAnd_parts (fun l h => C.parts h) l h.cls

theorem Tidy.split {lo : Nat} {m : Maker} {l l' : List Form} (h : Tidy Q lo m (l ++ l')) : Tidy Q lo m l ∧ Tidy Q lo m l' ∧
    ∀ i ∈ l.flatMap Form.binders, i ∉ l'.flatMap Form.binders := by
  have hn := h.nodup
  rw [List.flatMap_append, List.nodup_append] at hn
  refine ⟨⟨?_, ?_, hn.1, ?_, ?_, ?_⟩, ⟨?_, ?_, hn.2.1, ?_, ?_, ?_⟩, fun i hi hj => hn.2.2 i hi i hj rfl⟩
  all_goals intro f hf
  · exact h.pure f (by simp [hf])
  · exact h.closed f (by simp [hf])
  · exact h.binders f (by simp [hf])
  · exact h.funs f (by simp [hf])
  · exact h.cls f (by simp [hf])
  · exact h.pure f (by simp [hf])
  · exact h.closed f (by simp [hf])
  · exact h.binders f (by simp [hf])
  · exact h.funs f (by simp [hf])
  · exact h.cls f (by simp [hf])

theorem Tidy.join {lo : Nat} {m : Maker} {l l' : List Form} (h : Tidy Q lo m l) (h' : Tidy Q lo m l')
    (hd : ∀ i ∈ l.flatMap Form.binders, i ∉ l'.flatMap Form.binders) : Tidy Q lo m (l ++ l') := by
  refine ⟨?_, ?_, ?_, ?_, ?_, ?_⟩
  · intro f hf; rcases List.mem_append.1 hf with hf | hf
    · exact h.pure f hf
    · exact h'.pure f hf
  · intro f hf; rcases List.mem_append.1 hf with hf | hf
    · exact h.closed f hf
    · exact h'.closed f hf
  · rw [List.flatMap_append, List.nodup_append]
    exact ⟨h.nodup, h'.nodup, fun a ha b hb e => hd a ha (e ▸ hb)⟩
  · intro f hf; rcases List.mem_append.1 hf with hf | hf
    · exact h.binders f hf
    · exact h'.binders f hf
  · intro f hf; rcases List.mem_append.1 hf with hf | hf
    · exact h.funs f hf
    · exact h'.funs f hf
  · intro f hf; rcases List.mem_append.1 hf with hf | hf
    · exact h.cls f hf
    · exact h'.cls f hf

theorem finish_in (C : Class V F W Q) {lo : Nat} {m : Maker} {ands : List Form} {conj : Option Form} {f : Form}
    (h : Tidy Q lo m (conj.toList ++ ands)) (hf : finish ands conj = some f) : Tidy Q lo m [f] := by
  simp only [finish, List.isEmpty_iff] at hf
  cases conj with
  | none =>
    simp only at hf
    split at hf
    · cases hf
    · next hne => cases hf; exact Tidy.and C (by simpa using h) hne
  | some c =>
    simp only at hf
    simp only [Option.toList_some] at h
    obtain ⟨h1, h2, h3⟩ := h.split
    split at hf
    · cases hf; exact h1
    · cases hf
      refine Tidy.and C ((h1.join (h2.flatten C) ?_).perm List.perm_append_comm) (by simp)
      intro i hi hj
      rw [flattenAnd_binders, bindersL_flatMap] at hj
      exact h3 i hi hj

theorem readFile_in (C : Class V F W Q) (fl : Bool) (L : Lex V F) (hV : ∀ s, V s → UserName s) (hF : ∀ s, F s → UserName s) :
    ∀ (n : Nat) (m : Maker) (file : List PStmt) (r : FileOut), (∀ s ∈ file, PStmt.In V F W s) → Inv m →
    readFile fl (fun _ => false) n m file = some r → FileIn Q m r := by
  intro n
  induction n with
  | zero => intro m file r _ _ h; simp [readFile] at h
  | succ n ih =>
    intro m file r hf hi h
    simp only [readFile, Option.bind_eq_some_iff, Option.map_eq_some_iff] at h
    obtain ⟨t, ht, st, hst, rfl⟩ := h
    have hci : ConI V initialContext := by
      intro e he hv
      have : e.1 ∈ initialContext.map (·.1) := List.mem_map_of_mem he
      exact absurd this (hV _ hv)
    obtain ⟨a1, a2, a3, a4⟩ := toInternal_in C fl L file _ m t.1 t.2.1 t.2.2 hf (initialContext_fof hV hF) hci hi ht
    obtain ⟨b1, b2, b3, b4⟩ := loop_in C ih t.1 _ st m.cpt a4 a3 a1.cpt .nil hst
    exact ⟨a1.trans b1, a2.trans b2, b3, fun f hff => finish_in C b4 hff⟩

/-- The formula made of a problem. -/
theorem presearch_in (C : Class V F W Q) (fl : Bool) (typeOk : Form → Bool) (L : Lex V F) (hV : ∀ s, V s → UserName s) (hF : ∀ s, F s → UserName s)
    (m : Maker) (hi : Inv m) (file : List PStmt) (hf : ∀ s ∈ file, PStmt.In V F W s) (f : Form) (c : Bool) (m' : Maker)
    (h : presearch fl (fun _ => false) typeOk m file = .search f c m') :
    WF f m'.cpt ∧ f.metas = [] ∧ IdsLe m m' ∧ Inv m' ∧ Q m' true f := by
  have key : ∃ r, readFile fl (fun _ => false) (PStmt.depthL file + 1) m file = some r ∧ r.form = some f ∧ r.m = m' := by
    unfold presearch at h
    split at h
    · cases h
    · next r hr =>
      refine ⟨r, hr, ?_⟩
      split at h
      · cases h
      · next f' hf' =>
        rw [hf']
        split at h
        · split at h
          · cases h; exact ⟨rfl, rfl⟩
          · cases h
        · cases h; exact ⟨rfl, rfl⟩
  obtain ⟨r, hr, hrf, rfl⟩ := key
  have k := readFile_in C fl L hV hF _ m file r hf hi hr
  have t := k.tidy f hrf
  have hm : f ∈ [f] := by simp
  refine ⟨⟨(t.pure f hm).1, by simpa using t.nodup, ?_, ?_, t.closed f hm⟩, (t.pure f hm).2, k.le, k.inv, t.cls f hm⟩
  · intro i hb
    obtain ⟨a, b, c⟩ := t.binders f hm i hb
    refine ⟨b, fun hfun => ?_⟩
    obtain ⟨s, hs⟩ := t.funs f hm i hfun
    exact c s hs
  · intro i hfun
    obtain ⟨s, hs⟩ := t.funs f hm i hfun
    exact k.inv.ok.ids_lt _ _ hs

/-- **C43, the formula searched is in order**: for untyped problems it is closed, its quantifiers bind different variables, no variable
is a symbol, and it has no metavariables. -/
theorem C43_searched_partial (fl : Bool) (typeOk : Form → Bool) (L : Lex V F) (hV : ∀ s, V s → UserName s) (hF : ∀ s, F s → UserName s)
    (m : Maker) (hi : Inv m) (file : List PStmt) (hf : ∀ s ∈ file, PStmt.Fof V F s) (f : Form) (c : Bool) (m' : Maker)
    (h : presearch fl (fun _ => false) typeOk m file = .search f c m') : WF f m'.cpt ∧ f.metas = [] := by
  have := presearch_in classAll fl typeOk L hV hF m hi file (fun s hs => (hf s hs).in_all) f c m' h
  exact ⟨this.1, this.2.1⟩

/-- A problem meeting the hypotheses, with an included file. -/
example : ∃ f m, presearch true (fun _ => false) (fun _ => true) initMaker sampleFile = .search f false m ∧ WF f m.cpt ∧ f.metas = [] := by
  obtain ⟨f, m, h⟩ := (C43_outcome_partial true (fun _ => true) sampleLex sampleUser.1 sampleUser.2 initMaker Inv_init sampleFile sampleFof
    (.mk (by decide) (by simp [sampleFile, incls]; exact .mk (by decide) (by simp [incls])))).2 (by decide)
  exact ⟨f, m, h, C43_searched_partial true (fun _ => true) sampleLex sampleUser.1 sampleUser.2 initMaker Inv_init sampleFile sampleFof f false m h⟩

end Verif.Engine
