import Verif.Engine.ElabSyn
/-!
# Untyped formulas: exact meaning of the internal formula

In formulas where every variable has type `$i`, the internal symbols occur without type arguments,
except equality, which always carries `$i`. Hence every interpretation of the internal formula comes
from a structure of the input language, and nothing is gained or lost by reading.
-/

namespace Verif.Engine
open Verif.AST

/-! ### Interpretations that agree on the occurrences of a formula -/

mutual
/-- Every function of the term, with its type arguments, satisfies `Q`. -/
def TermOcc (Q : Nat → List Ty → Prop) : Term → Prop
  | .var _ => True
  | .mv _ => True
  | .fn p tys args => Q p tys ∧ TermOccL Q args
def TermOccL (Q : Nat → List Ty → Prop) : List Term → Prop
  | [] => True
  | a :: l => TermOcc Q a ∧ TermOccL Q l
end

mutual
def FormOcc (Q P : Nat → List Ty → Prop) : Form → Prop
  | .pred p tys args => P p tys ∧ TermOccL Q args
  | .top => True
  | .bot => True
  | .neg f => FormOcc Q P f
  | .and fs => FormOccL Q P fs
  | .or fs => FormOccL Q P fs
  | .imp f g => FormOcc Q P f ∧ FormOcc Q P g
  | .equ f g => FormOcc Q P f ∧ FormOcc Q P g
  | .all _ f => FormOcc Q P f
  | .ex _ f => FormOcc Q P f
def FormOccL (Q P : Nat → List Ty → Prop) : List Form → Prop
  | [] => True
  | f :: fs => FormOcc Q P f ∧ FormOccL Q P fs
end

theorem FormOccL_iff {Q P : Nat → List Ty → Prop} : ∀ {fs : List Form},
    FormOccL Q P fs ↔ ∀ f ∈ fs, FormOcc Q P f
  | [] => by simp [FormOccL]
  | f :: fs => by simp [FormOccL, FormOccL_iff (fs := fs)]

section
variable {Q Q' P P' : Nat → List Ty → Prop}
mutual
theorem TermOcc.mono (h : ∀ i tys, Q i tys → Q' i tys) : ∀ {t : Term}, TermOcc Q t → TermOcc Q' t
  | .var _, _ => trivial
  | .mv _, _ => trivial
  | .fn _ _ _, ho => ⟨h _ _ ho.1, TermOccL.mono h ho.2⟩
theorem TermOccL.mono (h : ∀ i tys, Q i tys → Q' i tys) : ∀ {l : List Term}, TermOccL Q l → TermOccL Q' l
  | [], _ => trivial
  | _ :: _, ho => ⟨TermOcc.mono h ho.1, TermOccL.mono h ho.2⟩
end

mutual
theorem FormOcc.mono (h : ∀ i tys, Q i tys → Q' i tys) (h' : ∀ i tys, P i tys → P' i tys) :
    ∀ {f : Form}, FormOcc Q P f → FormOcc Q' P' f
  | .pred _ _ _, ho => ⟨h' _ _ ho.1, TermOccL.mono h ho.2⟩
  | .top, _ => trivial
  | .bot, _ => trivial
  | .neg f, ho => FormOcc.mono h h' (f := f) ho
  | .and fs, ho => FormOccL.mono h h' (fs := fs) ho
  | .or fs, ho => FormOccL.mono h h' (fs := fs) ho
  | .imp _ _, ho => ⟨FormOcc.mono h h' ho.1, FormOcc.mono h h' ho.2⟩
  | .equ _ _, ho => ⟨FormOcc.mono h h' ho.1, FormOcc.mono h h' ho.2⟩
  | .all _ f, ho => FormOcc.mono h h' (f := f) ho
  | .ex _ f, ho => FormOcc.mono h h' (f := f) ho
theorem FormOccL.mono (h : ∀ i tys, Q i tys → Q' i tys) (h' : ∀ i tys, P i tys → P' i tys) :
    ∀ {fs : List Form}, FormOccL Q P fs → FormOccL Q' P' fs
  | [], _ => trivial
  | _ :: _, ho => ⟨FormOcc.mono h h' ho.1, FormOccL.mono h h' ho.2⟩
end

mutual
theorem eval_occ {D : Type u} {I J : Interp D} {μ ρ : Nat → D}
    (hQ : ∀ i tys, Q i tys → I.fn i tys = J.fn i tys) :
    ∀ {t : Term}, TermOcc Q t → Term.eval I ρ μ t = Term.eval J ρ μ t
  | .var _, _ => by simp only [Term.eval]
  | .mv _, _ => by simp only [Term.eval]
  | .fn p tys args, ho => by
    simp only [Term.eval, Term.evalL_eq_map, hQ _ _ ho.1]
    rw [evalL_occ hQ ho.2]
theorem evalL_occ {D : Type u} {I J : Interp D} {μ ρ : Nat → D}
    (hQ : ∀ i tys, Q i tys → I.fn i tys = J.fn i tys) :
    ∀ {l : List Term}, TermOccL Q l → l.map (Term.eval I ρ μ) = l.map (Term.eval J ρ μ)
  | [], _ => rfl
  | _ :: _, ho => by simp only [List.map_cons, eval_occ hQ ho.1, evalL_occ hQ ho.2]
end

theorem holds_occ {D : Type u} {I J : Interp D} {μ : Nat → D}
    (hQ : ∀ i tys, Q i tys → I.fn i tys = J.fn i tys) (hP : ∀ i tys, P i tys → I.pr i tys = J.pr i tys)
    (f : Form) : ∀ ρ, FormOcc Q P f → (Form.holds I μ ρ f ↔ Form.holds J μ ρ f) := by
  have hvs : ∀ (vs : List TVar) (f : Form), (∀ ρ, Form.holds I μ ρ f ↔ Form.holds J μ ρ f) →
      ∀ ρ, (forallVars (fun ρ => Form.holds I μ ρ f) vs ρ ↔ forallVars (fun ρ => Form.holds J μ ρ f) vs ρ) ∧
        (existsVars (fun ρ => Form.holds I μ ρ f) vs ρ ↔ existsVars (fun ρ => Form.holds J μ ρ f) vs ρ) := by
    intro vs f h
    have : (fun ρ => Form.holds I μ ρ f) = (fun ρ => Form.holds J μ ρ f) := by
      funext ρ; exact propext (h ρ)
    intro ρ
    rw [this]; exact ⟨Iff.rfl, Iff.rfl⟩
  induction f using Form.ind with
  | pred p tys args =>
    intro ρ ho
    simp only [Form.holds_pred, hP _ _ ho.1]
    rw [evalL_occ hQ ho.2]
  | top => intro ρ _; simp
  | bot => intro ρ _; simp
  | neg f ih => intro ρ ho; simp only [Form.holds_neg]; rw [ih ρ ho]
  | and fs ih =>
    intro ρ ho
    simp only [Form.holds_and]
    simp only [FormOcc, FormOccL_iff] at ho
    exact forall_congr' fun f => forall_congr' fun hf => ih f hf ρ (ho f hf)
  | or fs ih =>
    intro ρ ho
    simp only [Form.holds_or]
    simp only [FormOcc, FormOccL_iff] at ho
    exact exists_congr fun f => and_congr_right fun hf => ih f hf ρ (ho f hf)
  | imp f g ihf ihg => intro ρ ho; simp only [Form.holds_imp]; rw [ihf ρ ho.1, ihg ρ ho.2]
  | equ f g ihf ihg => intro ρ ho; simp only [Form.holds_equ]; rw [ihf ρ ho.1, ihg ρ ho.2]
  | all vs f ih =>
    intro ρ ho; simp only [Form.holds_all]; exact (hvs vs f (fun ρ => ih ρ ho) ρ).1
  | ex vs f ih =>
    intro ρ ho; simp only [Form.holds_ex]; exact (hvs vs f (fun ρ => ih ρ ho) ρ).2
end

/-! ### Occurrences in elaborated formulas -/

/-- Every variable quantified has type `$i`. -/
def WForm.AllI : WForm → Prop
  | .not f => f.AllI
  | .and l r => l.AllI ∧ r.AllI
  | .or l r => l.AllI ∧ r.AllI
  | .imp l r => l.AllI ∧ r.AllI
  | .rimp l r => l.AllI ∧ r.AllI
  | .iff l r => l.AllI ∧ r.AllI
  | .xor l r => l.AllI ∧ r.AllI
  | .nor l r => l.AllI ∧ r.AllI
  | .nand l r => l.AllI ∧ r.AllI
  | .all vs f => (∀ e ∈ vs, e.2 = .fn "$i" []) ∧ f.AllI
  | .ex vs f => (∀ e ∈ vs, e.2 = .fn "$i" []) ∧ f.AllI
  | _ => True

def PForm.AllI : PForm → Prop
  | .neg f => f.AllI
  | .bin _ l r => l.AllI ∧ r.AllI
  | .all vs f => (∀ e ∈ vs, e.2 = .fn "$i" []) ∧ f.AllI
  | .ex vs f => (∀ e ∈ vs, e.2 = .fn "$i" []) ∧ f.AllI
  | _ => True

theorem parse_allI (w : WForm) (h : w.AllI) : w.parse.AllI := by
  induction w with
  | top => trivial
  | bot => trivial
  | atom => trivial
  | eq => trivial
  | neq => trivial
  | not f ih => exact ih h
  | all vs f ih => exact ⟨h.1, ih h.2⟩
  | ex vs f ih => exact ⟨h.1, ih h.2⟩
  | _ l r il ir =>
    have h1 := il h.1
    have h2 := ir h.2
    simp [WForm.parse, mkPRevImp, mkPXor, mkPNotOr, mkPNotAnd, PForm.AllI, h1, h2]

section
variable {V F : String → Prop}

/-- The variables known to the context have type `$i`. -/
def ConI (V : String → Prop) (con : Ctx) : Prop := ∀ e ∈ con, V e.1 → e.2 = .fn "$i" []

theorem ConI.append {con : Ctx} {vs : List (String × PTy)} (h : ConI V con)
    (hv : ∀ e ∈ vs, e.2 = .fn "$i" []) : ConI V (con ++ vs) := by
  intro e he hV
  rcases List.mem_append.1 he with he | he
  · exact h e he hV
  · exact hv e he

theorem pretype1_I {con : Ctx} (hc : FofCon V F con) (hi : ConI V con) {t : PTm} (ht : t.Fof V F) :
    pretype1 con t = some (.fn "$i" []) := by
  cases ht with
  | @var n hn =>
    simp only [pretype1]
    cases hl : lookup con n with
    | none => rfl
    | some ty =>
      have h := hi _ (lookup_mem hl) hn
      simp only at h
      subst h
      simp [instType]
  | @fn s args hs ha =>
    simp only [pretype1]
    cases hl : lookup con s with
    | none => rfl
    | some ty => exact absurd hs (hc _ (lookup_mem hl)).1

theorem pretype_I {con : Ctx} (hc : FofCon V F con) (hi : ConI V con) : ∀ (l : List PTm),
    (∀ a ∈ l, PTm.Fof V F a) → ∀ tys, pretype con l = some tys → ∀ ty ∈ tys, ty = .fn "$i" []
  | [], _, tys, h => by simp only [pretype, Option.some.injEq] at h; subst h; simp
  | a :: l, ha, tys, h => by
    simp only [pretype, pretype1_I hc hi (ha a (by simp)), Option.bind_some, Option.map_eq_some_iff] at h
    obtain ⟨tys', h1, rfl⟩ := h
    intro ty hty
    rcases List.mem_cons.1 hty with rfl | hty
    · rfl
    · exact pretype_I hc hi l (fun a h => ha a (List.mem_cons_of_mem _ h)) tys' h1 ty hty

theorem definedTys_I {con : Ctx} (hc : FofCon V F con) (hi : ConI V con) : ∀ (ps : List PTm)
    (as : List Term) (tys r : List PTy), (∀ a ∈ ps, PTm.Fof V F a) → UntypedHeads ps as →
    (∀ ty ∈ tys, ty = .fn "$i" []) → definedTys con ps as tys = some r → ∀ ty ∈ r, ty = .fn "$i" []
  | [], as, tys, r, _, _, _, h => by
    simp only [definedTys, Option.some.injEq] at h; subst h; simp
  | _ :: _, [], _, _, _, h, _, _ => h.elim
  | p :: ps, a :: as, tys, r, hp, hu, ht, h => by
    simp only [definedTys, Option.bind_eq_some_iff, Option.map_eq_some_iff] at h
    obtain ⟨ty, hty, r', hr', rfl⟩ := h
    have hrest := definedTys_I hc hi ps as tys.tail r' (fun a ha => hp a (List.mem_cons_of_mem _ ha)) hu.2
      (fun ty h => ht ty (List.mem_of_mem_tail h)) hr'
    have hhead : ∀ ty, tys.head? = some ty → ty = .fn "$i" [] := fun ty h => ht ty (List.mem_of_mem_head? h)
    have key : ty = .fn "$i" [] := by
      cases hp p (by simp) with
      | @var n hn =>
        simp only at hty
        cases hl : lookup con n with
        | none => rw [hl] at hty; exact hhead _ hty
        | some ty' =>
          have h := hi _ (lookup_mem hl) hn
          simp only at h
          subst h
          simpa [hl, instType, eq_comm] using hty
      | @fn s args hs ha =>
        cases a with
        | fn q targs l =>
          have ht : targs = [] := hu.1
          subst ht
          simp only [tyArgsBack, Option.bind_some] at hty
          cases hl : lookup con s with
          | none => rw [hl] at hty; exact hhead _ hty
          | some ty' => exact absurd hs (hc _ (lookup_mem hl)).1
        | var _ => exact hu.1.elim
        | mv _ => exact hu.1.elim
    intro ty' h
    rcases List.mem_cons.1 h with rfl | h
    · exact key
    · exact hrest ty' h

/-- Functions: in the table, without type arguments. -/
def FunOcc (m : Maker) (i : Nat) (tys : List Ty) : Prop := (∃ s, m.ids s = some i) ∧ tys = []

/-- Type arguments of a predicate. -/
def predTys (s : String) : List Ty := if s = "=" then [.constr "$i" []] else []

/-- Predicates: in the table, with the type argument `$i` for equality and none for the others. -/
def PredOcc (m : Maker) (i : Nat) (tys : List Ty) : Prop := ∃ s, m.ids s = some i ∧ tys = predTys s

theorem FunOcc.ext {m m' : Maker} (e : Ext m m') : ∀ i tys, FunOcc m i tys → FunOcc m' i tys :=
  fun i _ h => ⟨h.1.elim fun s hs => ⟨s, e.ids s i hs⟩, h.2⟩
theorem PredOcc.ext {m m' : Maker} (e : Ext m m') : ∀ i tys, PredOcc m i tys → PredOcc m' i tys :=
  fun i _ h => h.elim fun s hs => ⟨s, e.ids s i hs.1, hs.2⟩

mutual
theorem elabT_occ (L : Lex V F) : ∀ (t : PTm) (con : Ctx) (m : Maker) (r : Out Term), FofCon V F con →
    t.Fof V F → MOK m → m.NamesFresh → elabT con m t = some r → TermOcc (FunOcc r.m) r.val
  | .var n, con, m, r, _, _, _, _, h => by
    simp only [elabT] at h; cases h; trivial
  | .fn s args dt, con, m, r, hc, ht, hm, hf, h => by
    cases ht with
    | fn hs ha =>
    obtain ⟨tys, h1, h2, h3⟩ := pretype_fof hc args ha
    simp only [elabT, h1, Option.bind_some, Option.bind_eq_some_iff] at h
    obtain ⟨x, hx, targs, htargs, y, hy, h⟩ := h
    cases h
    have htargs' : targs = [] := by
      simp only [tyArgs, L.defined s hs, Bool.false_eq_true, if_false, splitTys_fof tys args h3,
        Option.some.injEq] at htargs
      exact htargs.symm
    subst htargs'
    simp only [elabTyL, Option.some.injEq] at hy
    subst hy
    have k1 := (elabL_syn L args con m tys x hc ha hm hf h2 h3 hx).2.1
    have h4 := id_ok k1 s
    exact ⟨⟨⟨s, h4.2.2⟩, rfl⟩,
      TermOccL.mono (FunOcc.ext h4.1) (elabL_occ L args con m tys x hc ha hm hf h2 h3 hx)⟩
theorem elabL_occ (L : Lex V F) : ∀ (l : List PTm) (con : Ctx) (m : Maker) (tys : List PTy)
    (r : Out (List Term)), FofCon V F con → (∀ a ∈ l, PTm.Fof V F a) → MOK m → m.NamesFresh →
    tys.length = l.length → (∀ ty ∈ tys, ∃ s, s ≠ "$tType" ∧ ty = .fn s []) →
    elabL con m tys l = some r → TermOccL (FunOcc r.m) r.val
  | [], con, m, tys, r, _, _, _, _, _, _, h => by
    simp only [elabL] at h; cases h; trivial
  | a :: l, con, m, tys, r, hc, hl, hm, hf, hlen, htys, h => by
    cases tys with
    | nil => simp at hlen
    | cons ty tys =>
    obtain ⟨s, hs, rfl⟩ := htys ty (by simp)
    simp only [elabL, isTyConstr, beq_iff_eq, hs, if_false, Option.bind_eq_some_iff,
      Option.map_eq_some_iff] at h
    obtain ⟨x, hx, y, hy, rfl⟩ := h
    obtain ⟨_, k1, f1, c1, _⟩ := elabT_syn L a con m x hc (hl a (by simp)) hm hf hx
    have o1 := elabT_occ L a con m x hc (hl a (by simp)) hm hf hx
    have hc' : FofCon V F x.con := by rw [c1]; exact hc
    have e2 := (elabL_syn L l x.con x.m tys y hc'
      (fun a ha => hl a (List.mem_cons_of_mem _ ha)) k1 f1 (by simpa using hlen)
      (fun ty hty => htys ty (List.mem_cons_of_mem _ hty)) hy).1
    have o2 := elabL_occ L l x.con x.m tys y hc'
      (fun a ha => hl a (List.mem_cons_of_mem _ ha)) k1 f1 (by simpa using hlen)
      (fun ty hty => htys ty (List.mem_cons_of_mem _ hty)) hy
    exact ⟨TermOcc.mono (FunOcc.ext e2) o1, o2⟩
end

theorem FormOcc.ext {m m' : Maker} (e : Ext m m') {f : Form} (h : FormOcc (FunOcc m) (PredOcc m) f) :
    FormOcc (FunOcc m') (PredOcc m') f := FormOcc.mono (FunOcc.ext e) (PredOcc.ext e) h

def OccSpec (V F : String → Prop) (P : PForm → Prop)
    (g : Ctx → Maker → PForm → Option (Out Form)) : Prop :=
  ∀ (f : PForm) (con : Ctx) (m : Maker) (r : Out Form), P f → FofCon V F con → ConI V con → MOK m →
    m.NamesFresh → g con m f = some r → ConI V r.con ∧ FormOcc (FunOcc r.m) (PredOcc r.m) r.val

theorem elabSeq_occ {g : Ctx → Maker → PForm → Option (Out Form)} {P : PForm → Prop}
    (hs : SynSpec V F P g) (hg : OccSpec V F P g) : ∀ (fs : List PForm) (con : Ctx) (m : Maker)
    (r : Out (List Form)), (∀ f ∈ fs, P f) → FofCon V F con → ConI V con → MOK m → m.NamesFresh →
    elabSeq g con m fs = some r →
    Ext m r.m ∧ ConI V r.con ∧ ∀ f ∈ r.val, FormOcc (FunOcc r.m) (PredOcc r.m) f
  | [], con, m, r, _, _, hi, _, _, h => by
    simp only [elabSeq] at h; cases h; exact ⟨Ext.refl m, hi, by simp⟩
  | f :: fs, con, m, r, hp, hc, hi, hm, hf, h => by
    simp only [elabSeq, Option.bind_eq_some_iff, Option.map_eq_some_iff] at h
    obtain ⟨x, hx, y, hy, rfl⟩ := h
    obtain ⟨e1, k1, f1, c1, _⟩ := hs f con m x (hp f (by simp)) hc hm hf hx
    obtain ⟨i1, o1⟩ := hg f con m x (hp f (by simp)) hc hi hm hf hx
    obtain ⟨e2, i2, o2⟩ := elabSeq_occ hs hg fs x.con x.m y (fun f hf' => hp f (List.mem_cons_of_mem _ hf'))
      c1 i1 k1 f1 hy
    refine ⟨e1.trans e2, i2, ?_⟩
    intro z hz
    rcases List.mem_cons.1 hz with rfl | hz
    · exact FormOcc.ext e2 o1
    · exact o2 z hz

theorem mkBin_occ {Q P : Nat → List Ty → Prop} {op : PBinOp} {fs : List Form} {f : Form}
    (h : ∀ g ∈ fs, FormOcc Q P g) (hf : mkBin op fs = some f) : FormOcc Q P f := by
  match op, fs, h, hf with
  | .or, fs, h, hf =>
    simp only [mkBin, Option.some.injEq] at hf; subst hf
    simp only [FormOcc, FormOccL_iff]; exact h
  | .and, fs, h, hf =>
    simp only [mkBin, Option.some.injEq] at hf; subst hf
    simp only [FormOcc, FormOccL_iff]; exact h
  | .imp, [a, b], h, hf =>
    simp only [mkBin, Option.some.injEq] at hf; subst hf; exact ⟨h a (by simp), h b (by simp)⟩
  | .equ, [a, b], h, hf =>
    simp only [mkBin, Option.some.injEq] at hf; subst hf; exact ⟨h a (by simp), h b (by simp)⟩
  | .imp, [], _, hf => simp [mkBin] at hf
  | .imp, [_], _, hf => simp [mkBin] at hf
  | .imp, _ :: _ :: _ :: _, _, hf => simp [mkBin] at hf
  | .equ, [], _, hf => simp [mkBin] at hf
  | .equ, [_], _, hf => simp [mkBin] at hf
  | .equ, _ :: _ :: _ :: _, _, hf => simp [mkBin] at hf

theorem flatten_allI {op : PBinOp} (f : PForm) (h : f.AllI) : ∀ g ∈ flatten op f, g.AllI := by
  induction f with
  | bin o l r il ir =>
    intro g hg
    simp only [flatten] at hg
    split at hg
    · rcases List.mem_append.1 hg with hg | hg
      · exact il h.1 g hg
      · exact ir h.2 g hg
    · simp only [List.mem_singleton] at hg; subst hg; exact h
  | _ => intro g hg; simp only [flatten, List.mem_singleton] at hg; subst hg; exact h

theorem subForms_allI {fl : Bool} {op : PBinOp} {l r : PForm} (hl : l.AllI) (hr : r.AllI) :
    ∀ g ∈ subForms fl op l r, g.AllI := by
  unfold subForms
  split
  · exact flatten_allI _ ⟨hl, hr⟩
  · intro g hg
    simp only [List.mem_cons, List.not_mem_nil, or_false] at hg
    rcases hg with rfl | rfl
    · exact hl
    · exact hr

theorem mkAll_occ {Q P : Nat → List Ty → Prop} {vs : List TVar} {f : Form} (h : FormOcc Q P f) :
    FormOcc Q P (mkAll vs f) ∧ FormOcc Q P (mkEx vs f) := by
  unfold mkAll mkEx
  split
  · exact ⟨h, h⟩
  · exact ⟨h, h⟩

theorem elabN_occ (fl : Bool) (L : Lex V F) :
    ∀ n, OccSpec V F (fun f => f.Fof V F ∧ f.AllI) (elabN fl n) := by
  intro n
  induction n with
  | zero => intro f con m r _ _ _ _ _ h; simp [elabN] at h
  | succ n ih =>
    have hsyn : SynSpec V F (fun f => f.Fof V F ∧ f.AllI) (elabN fl n) :=
      fun f con m r hp => elabN_syn fl L n f con m r hp.1
    intro f con m r hp hc hi hm hf h
    obtain ⟨hp, hall⟩ := hp
    cases hp with
    | top => simp only [elabN] at h; cases h; exact ⟨hi, trivial⟩
    | bot => simp only [elabN] at h; cases h; exact ⟨hi, trivial⟩
    | @pred s args hs ha =>
      obtain ⟨tys, h1, h2, h3⟩ := pretype_fof hc args ha
      simp only [elabN, h1, Option.bind_some, Option.bind_eq_some_iff, Option.map_eq_some_iff] at h
      obtain ⟨x, hx, targs, htargs, y, hy, rfl⟩ := h
      have htargs' : targs = [] := by
        simp only [tyArgs, hs, Bool.false_eq_true, if_false, splitTys_fof tys args h3,
          Option.some.injEq] at htargs
        exact htargs.symm
      subst htargs'
      simp only [elabTyL, Option.some.injEq] at hy
      subst hy
      obtain ⟨_, k1, _, c1, _⟩ := elabL_syn L args con m tys x hc ha hm hf h2 h3 hx
      have h4 := id_ok k1 s
      have hne : s ≠ "=" := by rintro rfl; simp [isDefined, definedTable] at hs
      refine ⟨by rw [c1]; exact hi, ⟨s, h4.2.2, by simp [predTys, hne]⟩,
        TermOccL.mono (FunOcc.ext h4.1) (elabL_occ L args con m tys x hc ha hm hf h2 h3 hx)⟩
    | @eq l r' hl hr =>
      have ha : ∀ a ∈ [l, r'], PTm.Fof V F a := by
        intro a h
        simp only [List.mem_cons, List.not_mem_nil, or_false] at h
        rcases h with rfl | rfl
        · exact hl
        · exact hr
      obtain ⟨tys, h1, h2, h3⟩ := pretype_fof hc _ ha
      obtain ⟨x', hx', hxc', _, hu⟩ := elabL_total L.defined _ con m tys hc ha h2 h3
      simp only [elabN, h1, Option.bind_some, Option.bind_eq_some_iff, Option.map_eq_some_iff] at h
      obtain ⟨x, hx, targs, htargs, y, hy, rfl⟩ := h
      rw [hx'] at hx
      cases hx
      have hc' : FofCon V F x'.con := by rw [hxc']; exact hc
      have hi' : ConI V x'.con := by rw [hxc']; exact hi
      have htargs' : targs = [.fn "$i" []] := by
        have e1 : isDefined "=" = true := by decide
        simp only [tyArgs, e1, if_true, splitTys_fof tys _ h3, splitTms_fof tys [l, r'] (by simpa using h2) h3,
          elabDefined, List.length_nil, List.drop_zero] at htargs
        split at htargs
        · cases htargs
        obtain ⟨q, hq, htargs⟩ := Option.bind_eq_some_iff.1 htargs
        split at htargs
        · next ty hty =>
          cases htargs
          rw [definedTys_I hc' hi' _ _ _ _ ha hu (pretype_I hc hi _ ha tys h1) hq ty
            (List.mem_of_find?_eq_some hty)]
        · cases htargs
      subst htargs'
      simp only [elabTyL, elabTy, Option.map_some, Option.bind_some, Option.some.injEq] at hy
      subst hy
      have k1 := (elabL_syn L _ con m tys x' hc ha hm hf h2 h3 hx').2.1
      have h4 := id_ok k1 "="
      exact ⟨hi', ⟨"=", h4.2.2, by simp [predTys]⟩,
        TermOccL.mono (FunOcc.ext h4.1) (elabL_occ L _ con m tys x' hc ha hm hf h2 h3 hx')⟩
    | neg hp =>
      simp only [elabN, Option.map_eq_some_iff] at h
      obtain ⟨x, hx, rfl⟩ := h
      exact ih _ con m x ⟨hp, hall⟩ hc hi hm hf hx
    | @bin op l r' hl hr =>
      simp only [elabN, Option.bind_eq_some_iff, Option.map_eq_some_iff] at h
      obtain ⟨x, hx, f', hf', rfl⟩ := h
      obtain ⟨_, i1, o1⟩ := elabSeq_occ hsyn ih _ con m x
        (fun g hg => ⟨(subForms_fof hl hr g hg).1, subForms_allI hall.1 hall.2 g hg⟩) hc hi hm hf hx
      exact ⟨i1, mkBin_occ o1 hf'⟩
    | @all vs f hv hp =>
      simp only [elabN, Option.bind_eq_some_iff, Option.map_eq_some_iff] at h
      obtain ⟨q, hq, x, hx, rfl⟩ := h
      have h0 := pretypeVars_ok vs m q hm hq
      have h0' := pretypeVars_syn L vs m q hv hf hq
      obtain ⟨i1, o1⟩ := ih _ _ _ x ⟨hp, hall.2⟩ (hc.append L.disj hv) (hi.append hall.1) h0.2.1 h0'.1 hx
      exact ⟨i1, (mkAll_occ o1).1⟩
    | @ex vs f hv hp =>
      simp only [elabN, Option.bind_eq_some_iff] at h
      obtain ⟨q, hq, h⟩ := h
      split at h
      · cases h
      simp only [Option.map_eq_some_iff] at h
      obtain ⟨x, hx, rfl⟩ := h
      have h0 := pretypeVars_ok vs m q hm hq
      have h0' := pretypeVars_syn L vs m q hv hf hq
      obtain ⟨i1, o1⟩ := ih _ _ _ x ⟨hp, hall.2⟩ (hc.append L.disj hv) (hi.append hall.1) h0.2.1 h0'.1 hx
      exact ⟨i1, (mkAll_occ o1).2⟩

end

/-! ### Exact reading -/

/-- The interpretation of the symbols as they occur in untyped formulas is the structure `S`. -/
def Reads1 {D : Type u} (m : Maker) (S : Str D) (I : Interp D) : Prop :=
  ∀ s i, m.ids s = some i → ∀ ds, I.fn i [] ds = S.fn s ds ∧ (I.pr i (predTys s) ds ↔ S.pr s ds)

/-- Every interpretation reads some structure: no hypothesis on `I` at all. -/
theorem reads1_of_interp {D : Type u} (m : Maker) (I : Interp D) : ∃ S : Str D, Reads1 m S I := by
  refine ⟨⟨fun s ds => I.fn ((m.ids s).getD 0) [] ds, fun s ds => I.pr ((m.ids s).getD 0) (predTys s) ds⟩, ?_⟩
  intro s i hs ds
  simp [hs]

theorem Reads.one {D : Type u} {m : Maker} {S : Str D} {I : Interp D} (h : Reads m S I) : Reads1 m S I :=
  fun s i hs ds => ⟨(h s i hs [] ds).1, (h s i hs _ ds).2⟩

theorem holds_reads1 {D : Type u} {m : Maker} {S : Str D} {I J : Interp D} {μ ρ : Nat → D} {f : Form}
    (ho : FormOcc (FunOcc m) (PredOcc m) f) (hI : Reads1 m S I) (hJ : Reads1 m S J) :
    Form.holds I μ ρ f ↔ Form.holds J μ ρ f := by
  refine holds_occ (Q := FunOcc m) (P := PredOcc m) ?_ ?_ f ρ ho
  · rintro i tys ⟨⟨s, hs⟩, rfl⟩
    funext ds
    rw [(hI s i hs ds).1, (hJ s i hs ds).1]
  · rintro i tys ⟨s, hs, rfl⟩
    funext ds
    exact propext ((hI s i hs ds).2.trans (hJ s i hs ds).2.symm)

/-- **C16, untyped formulas, both directions.** The internal formula has a model exactly when the
written formula has one, over every domain: every interpretation of the internal symbols gives a
structure in which the written formula has the same truth value, and conversely. -/
theorem C16_fof_satisfiable {V F : String → Prop} (fl : Bool) (con : Ctx) (m : Maker) (w : WForm)
    (L : Lex V F) (hw : w.Fof V F) (hI : w.AllI) (hc : FofCon V F con) (hi : ConI V con) (hm : MOK m)
    (hf : m.NamesFresh) :
    ∃ r, elabForm fl con m w.parse = some r ∧ FormOcc (FunOcc r.m) (PredOcc r.m) r.val ∧
    (∀ (D : Type u) (S : Str D) (I : Interp D) (v : String → D) (ρ μ : Nat → D),
      Reads1 r.m S I → VReads r.m v ρ → (Form.holds I μ ρ r.val ↔ w.sat S v)) ∧
    ∀ (D : Type u), (∃ (I : Interp D) (μ ρ : Nat → D), Form.holds I μ ρ r.val) ↔
      ∃ (S : Str D) (v : String → D), w.sat S v := by
  obtain ⟨r, hr, _, hmr, _, _, hsem⟩ := C16_fof.{u} fl con m w hw L.defined L.disj hc hm
  have ho := (elabN_occ fl L _ w.parse con m r ⟨parse_fof hw, parse_allI w hI⟩ hc hi hm hf hr).2
  have key : ∀ (D : Type u) (S : Str D) (I : Interp D) (v : String → D) (ρ μ : Nat → D),
      Reads1 r.m S I → VReads r.m v ρ → (Form.holds I μ ρ r.val ↔ w.sat S v) := by
    intro D S I v ρ μ h1 hv
    obtain ⟨J, hJ⟩ := reads_exists hmr S
    rw [holds_reads1 ho h1 hJ.one]
    exact hsem D S J v ρ μ hJ hv
  refine ⟨r, hr, ho, key, ?_⟩
  intro D
  constructor
  · rintro ⟨I, μ, ρ, h⟩
    obtain ⟨S, hS⟩ := reads1_of_interp r.m I
    refine ⟨S, fun n => ρ ((r.m.vars n).getD 0), ?_⟩
    refine (key D S I _ ρ μ hS ?_).1 h
    intro s i hs
    simp [hs]
  · rintro ⟨S, v, h⟩
    obtain ⟨I, hI⟩ := reads_exists hmr S
    obtain ⟨ρ, hρ⟩ := vreads_exists hmr v
    exact ⟨I, ρ, ρ, (key D S I v ρ ρ hI.one hρ).2 h⟩

end Verif.Engine
