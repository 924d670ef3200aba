import Verif.Whole.Closed
import Verif.Whole.Ground
import Verif.Search.MainDelta
/-!
# Problems whose quantifiers all assert the existence of something: the formula searched

In the axioms `∃` is positive and `∀` negative, in the conjecture the other way round; there is no equality. The formula searched is
then one for which the search decides (`Verif.Search.Main.Exist`).
-/

namespace Verif.Engine
open Verif.AST

/-! ### Problems (specification) -/

mutual
/-- The symbols have the arity `ar`. -/
def PTm.Ar (ar : String → Nat) : PTm → Prop
  | .var _ => True
  | .fn s args _ => args.length = ar s ∧ PTm.ArL ar args
def PTm.ArL (ar : String → Nat) : List PTm → Prop
  | [] => True
  | a :: l => PTm.Ar ar a ∧ PTm.ArL ar l
end

/-- Asserted (or denied, `false`), the formula has only quantifiers that say that something exists; it is without equality. -/
def WForm.Exi (ar : String → Nat) : Bool → WForm → Prop
  | _, .top => True
  | _, .bot => True
  | _, .atom s args => UserName s ∧ args.length = ar s ∧ PTm.ArL ar args
  | _, .eq _ _ => False
  | _, .neq _ _ => False
  | p, .not f => f.Exi ar (!p)
  | p, .and l r => l.Exi ar p ∧ r.Exi ar p
  | p, .or l r => l.Exi ar p ∧ r.Exi ar p
  | p, .imp l r => l.Exi ar (!p) ∧ r.Exi ar p
  | p, .rimp l r => l.Exi ar p ∧ r.Exi ar (!p)
  | _, .iff l r => (l.Exi ar true ∧ l.Exi ar false) ∧ r.Exi ar true ∧ r.Exi ar false
  | _, .xor l r => (l.Exi ar true ∧ l.Exi ar false) ∧ r.Exi ar true ∧ r.Exi ar false
  | p, .nor l r => l.Exi ar (!p) ∧ r.Exi ar (!p)
  | p, .nand l r => l.Exi ar (!p) ∧ r.Exi ar (!p)
  | p, .all _ f => p = false ∧ f.Exi ar p
  | p, .ex _ f => p = true ∧ f.Exi ar p

/-- The parsed counterpart. -/
def PForm.Exi (ar : String → Nat) : Bool → PForm → Prop
  | _, .top => True
  | _, .bot => True
  | _, .pred s args => UserName s ∧ args.length = ar s ∧ PTm.ArL ar args
  | p, .neg f => f.Exi ar (!p)
  | p, .bin .and l r => l.Exi ar p ∧ r.Exi ar p
  | p, .bin .or l r => l.Exi ar p ∧ r.Exi ar p
  | p, .bin .imp l r => l.Exi ar (!p) ∧ r.Exi ar p
  | _, .bin .equ l r => (l.Exi ar true ∧ l.Exi ar false) ∧ r.Exi ar true ∧ r.Exi ar false
  | p, .all _ f => p = false ∧ f.Exi ar p
  | p, .ex _ f => p = true ∧ f.Exi ar p

variable {ar : String → Nat} {V F : String → Prop}

theorem parse_exi (w : WForm) : ∀ {p : Bool}, w.Exi ar p → w.parse.Exi ar p := by
  induction w with
  | top => intro _ _; trivial
  | bot => intro _ _; trivial
  | atom => intro _ h; exact h
  | eq => intro _ h; exact h.elim
  | neq => intro _ h; exact h.elim
  | all _ f ih => intro p h; exact ⟨h.1, ih h.2⟩
  | ex _ f ih => intro p h; exact ⟨h.1, ih h.2⟩
  | not f ih => intro p h; exact ih h
  | and l r il ir => intro p h; exact ⟨il h.1, ir h.2⟩
  | or l r il ir => intro p h; exact ⟨il h.1, ir h.2⟩
  | imp l r il ir => intro p h; exact ⟨il h.1, ir h.2⟩
  | rimp l r il ir => intro p h; exact ⟨ir h.2, il h.1⟩
  | iff l r il ir => intro p h; exact ⟨⟨il h.1.1, il h.1.2⟩, ir h.2.1, ir h.2.2⟩
  | xor l r il ir =>
    intro p h
    cases p
    · exact ⟨⟨il h.1.2, ir h.2.2⟩, il h.1.1, ir h.2.1⟩
    · exact ⟨⟨il h.1.1, ir h.2.1⟩, il h.1.2, ir h.2.2⟩
  | nor l r il ir => intro p h; exact ⟨il h.1, ir h.2⟩
  | nand l r il ir => intro p h; exact ⟨il h.1, ir h.2⟩

/-! ### The elaborated formulas -/

mutual
/-- A term whose symbols have the arity of their names, without metavariables. -/
def ETm (ar : String → Nat) (m : Maker) : Term → Prop
  | .var _ => True
  | .mv _ => False
  | .fn p tys args => tys = [] ∧ (∃ s, m.ids s = some p ∧ args.length = ar s) ∧ ETmL ar m args
def ETmL (ar : String → Nat) (m : Maker) : List Term → Prop
  | [] => True
  | t :: l => ETm ar m t ∧ ETmL ar m l
end

mutual
/-- The same for formulas, asserted or denied; no predicate is the equality, no connective is empty, all quantifiers say that something
exists. -/
def EFm (ar : String → Nat) (m : Maker) : Bool → Form → Prop
  | _, .pred p tys args => tys = [] ∧ (∃ s, s ≠ "=" ∧ m.ids s = some p ∧ args.length = ar s) ∧ ETmL ar m args
  | _, .top => True
  | _, .bot => True
  | b, .neg f => EFm ar m (!b) f
  | b, .and fs => fs ≠ [] ∧ EFmL ar m b fs
  | b, .or fs => fs ≠ [] ∧ EFmL ar m b fs
  | b, .imp f g => EFm ar m (!b) f ∧ EFm ar m b g
  | _, .equ f g => (EFm ar m true f ∧ EFm ar m false f) ∧ EFm ar m true g ∧ EFm ar m false g
  | b, .all _ f => b = false ∧ EFm ar m b f
  | b, .ex _ f => b = true ∧ EFm ar m b f
def EFmL (ar : String → Nat) (m : Maker) : Bool → List Form → Prop
  | _, [] => True
  | b, f :: fs => EFm ar m b f ∧ EFmL ar m b fs
end

theorem EFmL_iff {m : Maker} {b : Bool} {l : List Form} : EFmL ar m b l ↔ ∀ f ∈ l, EFm ar m b f := by
  induction l with
  | nil => simp [EFmL]
  | cons a l ih => simp [EFmL, ih]

section
variable {m m' : Maker} (e : ∀ s i, m.ids s = some i → m'.ids s = some i)
include e

mutual
theorem ETm.ext : ∀ (t : Term), ETm ar m t → ETm ar m' t
  | .var _, h => h
  | .mv _, h => h
  | .fn p tys args, ⟨h1, ⟨s, h2, h3⟩, h4⟩ => ⟨h1, ⟨s, e _ _ h2, h3⟩, ETmL.ext args h4⟩
theorem ETmL.ext : ∀ (l : List Term), ETmL ar m l → ETmL ar m' l
  | [], _ => trivial
  | t :: l, h => ⟨ETm.ext t h.1, ETmL.ext l h.2⟩
end

mutual
theorem EFm.ext : ∀ (f : Form) (b : Bool), EFm ar m b f → EFm ar m' b f
  | .pred p tys args, _, h => by
    simp only [EFm] at h ⊢
    obtain ⟨h1, ⟨s, h0, h2, h3⟩, h4⟩ := h
    exact ⟨h1, ⟨s, h0, e _ _ h2, h3⟩, ETmL.ext e args h4⟩
  | .top, _, _ => by simp [EFm]
  | .bot, _, _ => by simp [EFm]
  | .neg f, b, h => by simp only [EFm] at h ⊢; exact EFm.ext f _ h
  | .and fs, b, h => by simp only [EFm] at h ⊢; exact ⟨h.1, EFmL.ext fs b h.2⟩
  | .or fs, b, h => by simp only [EFm] at h ⊢; exact ⟨h.1, EFmL.ext fs b h.2⟩
  | .imp f g, b, h => by simp only [EFm] at h ⊢; exact ⟨EFm.ext f _ h.1, EFm.ext g b h.2⟩
  | .equ f g, b, h => by
    simp only [EFm] at h ⊢
    exact ⟨⟨EFm.ext f _ h.1.1, EFm.ext f _ h.1.2⟩, EFm.ext g _ h.2.1, EFm.ext g _ h.2.2⟩
  | .all _ f, b, h => by simp only [EFm] at h ⊢; exact ⟨h.1, EFm.ext f b h.2⟩
  | .ex _ f, b, h => by simp only [EFm] at h ⊢; exact ⟨h.1, EFm.ext f b h.2⟩
theorem EFmL.ext : ∀ (l : List Form) (b : Bool), EFmL ar m b l → EFmL ar m' b l
  | [], _, _ => by simp [EFmL]
  | t :: l, b, h => by simp only [EFmL] at h ⊢; exact ⟨EFm.ext t b h.1, EFmL.ext l b h.2⟩
end
end

/-! ### Elaboration -/

mutual
theorem elabT_exi (L : Lex V F) : ∀ (t : PTm) (con : Ctx) (m : Maker) (r : Out Term), FofCon V F con →
    t.Fof V F → t.Ar ar → MOK m → m.NamesFresh → elabT con m t = some r → ETm ar r.m r.val
  | .var n, con, m, r, hc, ht, ha, hm, hf, h => by simp only [elabT] at h; cases h; trivial
  | .fn s args dt, con, m, r, hc, ht, ha, hm, hf, h => by
    cases ht with
    | fn hs ha' =>
    obtain ⟨hl, ha⟩ := ha
    obtain ⟨tys, h1, h2, h3⟩ := pretype_fof hc args ha'
    simp only [elabT, h1, Option.bind_some, Option.bind_eq_some_iff] at h
    obtain ⟨x, hx, targs, htargs, y, hy, h⟩ := h
    cases h
    have htargs' : targs = [] := by
      simp only [tyArgs, L.defined s hs, Bool.false_eq_true, if_false, splitTys_fof tys args h3,
        Option.some.injEq] at htargs
      exact htargs.symm
    subst htargs'
    simp only [elabTyL, Option.some.injEq] at hy
    subst hy
    obtain ⟨_, k1, _, _, _⟩ := elabL_syn L args con m tys x hc ha' hm hf h2 h3 hx
    obtain ⟨g1, g2⟩ := elabL_exi L args con m tys x hc ha' ha hm hf h2 h3 hx
    have h4 := id_ok k1 s
    exact ⟨rfl, ⟨s, h4.2.2, g2.trans hl⟩, ETmL.ext h4.1.ids _ g1⟩
theorem elabL_exi (L : Lex V F) : ∀ (l : List PTm) (con : Ctx) (m : Maker) (tys : List PTy)
    (r : Out (List Term)), FofCon V F con → (∀ a ∈ l, a.Fof V F) → PTm.ArL ar l → MOK m → m.NamesFresh →
    tys.length = l.length → (∀ ty ∈ tys, ∃ s, s ≠ "$tType" ∧ ty = .fn s []) →
    elabL con m tys l = some r → ETmL ar r.m r.val ∧ r.val.length = l.length
  | [], con, m, tys, r, _, _, _, hm, hf, _, _, h => by
    simp only [elabL] at h; cases h
    exact ⟨trivial, rfl⟩
  | a :: l, con, m, tys, r, hc, hl, har, hm, hf, hlen, htys, h => by
    cases tys with
    | nil => simp at hlen
    | cons ty tys =>
    obtain ⟨s, hs, rfl⟩ := htys ty (by simp)
    simp only [elabL, isTyConstr, beq_iff_eq, hs, if_false, Option.bind_eq_some_iff,
      Option.map_eq_some_iff] at h
    obtain ⟨x, hx, y, hy, rfl⟩ := h
    have ha' := hl a (by simp)
    have hl' : ∀ a ∈ l, a.Fof V F := fun a h => hl a (List.mem_cons_of_mem _ h)
    obtain ⟨e1, k1, f1, c1, t1⟩ := elabT_syn L a con m x hc ha' hm hf hx
    have htl : ∀ ty ∈ tys, ∃ s, s ≠ "$tType" ∧ ty = .fn s [] := fun ty hty => htys ty (List.mem_cons_of_mem _ hty)
    have hc1 : FofCon V F x.con := by rw [c1]; exact hc
    obtain ⟨e2, _, _, _, _⟩ := elabL_syn L l x.con x.m tys y hc1 hl' k1 f1 (by simpa using hlen) htl hy
    have g1 := elabT_exi L a con m x hc ha' har.1 hm hf hx
    obtain ⟨g2, g3⟩ := elabL_exi L l x.con x.m tys y hc1 hl' har.2 k1 f1 (by simpa using hlen) htl hy
    exact ⟨⟨ETm.ext e2.ids _ g1, g2⟩, by simp [g3]⟩
end

theorem flatten_exi {op : PBinOp} {p : Bool} (ho : op = .and ∨ op = .or) (f : PForm) (h : f.Exi ar p) :
    flatten op f ≠ [] ∧ ∀ g ∈ flatten op f, g.Exi ar p := by
  induction f with
  | bin o l r il ir =>
    simp only [flatten]
    split
    · next he =>
      subst he
      have h' : l.Exi ar p ∧ r.Exi ar p := by rcases ho with rfl | rfl <;> exact h
      refine ⟨by simp [(il h'.1).1], ?_⟩
      intro g hg
      rcases List.mem_append.1 hg with hg | hg
      · exact (il h'.1).2 g hg
      · exact (ir h'.2).2 g hg
    · simpa using h
  | _ => simpa [flatten] using h

theorem subForms_exi {fl : Bool} {op : PBinOp} {p : Bool} (ho : op = .and ∨ op = .or) {l r : PForm} (hl : l.Exi ar p) (hr : r.Exi ar p) :
    subForms fl op l r ≠ [] ∧ ∀ g ∈ subForms fl op l r, g.Exi ar p := by
  unfold subForms
  split
  · exact flatten_exi ho _ (by rcases ho with rfl | rfl <;> exact ⟨hl, hr⟩)
  · refine ⟨by simp, ?_⟩
    intro g hg
    simp only [List.mem_cons, List.not_mem_nil, or_false] at hg
    rcases hg with rfl | rfl
    · exact hl
    · exact hr

/-- What is shown of the elaboration of a formula. -/
def ExiSpec (V F : String → Prop) (ar : String → Nat) (g : Ctx → Maker → PForm → Option (Out Form)) : Prop :=
  ∀ (f : PForm) (con : Ctx) (m : Maker) (r : Out Form), f.Fof V F → FofCon V F con → MOK m → m.NamesFresh →
    g con m f = some r → ∀ p, f.Exi ar p → EFm ar r.m p r.val

theorem elabSeq_exi (L : Lex V F) {fl : Bool} {n : Nat} (hg : ExiSpec V F ar (elabN fl n)) : ∀ (fs : List PForm) (con : Ctx) (m : Maker)
    (r : Out (List Form)), (∀ f ∈ fs, f.Fof V F) → FofCon V F con → MOK m → m.NamesFresh →
    elabSeq (elabN fl n) con m fs = some r → r.val.length = fs.length ∧
      ∀ i (h : i < fs.length) (h' : i < r.val.length) p, (fs[i]).Exi ar p → EFm ar r.m p r.val[i]
  | [], con, m, r, _, hc, hm, hf, h => by
    simp only [elabSeq] at h; cases h
    exact ⟨rfl, by simp⟩
  | f :: fs, con, m, r, hp, hc, hm, hf, h => by
    simp only [elabSeq, Option.bind_eq_some_iff, Option.map_eq_some_iff] at h
    obtain ⟨x, hx, y, hy, rfl⟩ := h
    have hp' : ∀ f ∈ fs, f.Fof V F := fun f hf' => hp f (List.mem_cons_of_mem _ hf')
    obtain ⟨e1, k1, f1, c1, _⟩ := elabN_syn fl L n f con m x (hp f (by simp)) hc hm hf hx
    obtain ⟨e2, _, _, _, _⟩ := elabSeq_syn (elabN_syn fl L n) (fr := fs.flatMap PForm.fv) fs x.con x.m y
      (fun f hf' => ⟨hp' f hf', fun n hn => List.mem_flatMap.2 ⟨f, hf', hn⟩⟩) c1 k1 f1 hy
    have g1 := hg f con m x (hp f (by simp)) hc hm hf hx
    obtain ⟨g2, g3⟩ := elabSeq_exi L hg fs x.con x.m y hp' c1 k1 f1 hy
    refine ⟨by simp [g2], ?_⟩
    intro i hi hi' p hq
    cases i with
    | zero => exact EFm.ext e2.ids _ _ (g1 p hq)
    | succ i => exact g3 i (by simpa using hi) (by simpa using hi') p hq

theorem seq_all {fs : List PForm} {m : Maker} {l : List Form} {p : Bool} (hl : l.length = fs.length)
    (h : ∀ i (h : i < fs.length) (h' : i < l.length) p, (fs[i]).Exi ar p → EFm ar m p l[i]) (hp : ∀ f ∈ fs, f.Exi ar p) :
    EFmL ar m p l := by
  rw [EFmL_iff]
  intro g hg
  obtain ⟨i, hi, rfl⟩ := List.mem_iff_getElem.1 hg
  exact h i (by omega) hi p (hp _ (List.getElem_mem _))

theorem elabN_exi (fl : Bool) (L : Lex V F) : ∀ n, ExiSpec V F ar (elabN fl n) := by
  intro n
  induction n with
  | zero => intro f con m r _ _ _ _ h; simp [elabN] at h
  | succ n ih =>
    intro f con m r hw hc hm hf h p hp
    cases hw with
    | top => simp only [elabN] at h; cases h; simp [EFm]
    | bot => simp only [elabN] at h; cases h; simp [EFm]
    | @pred s args hd ha' =>
      simp only [PForm.Exi] at hp
      obtain ⟨hs, hl, ha⟩ := hp
      obtain ⟨tys, h1, h2, h3⟩ := pretype_fof hc args ha'
      simp only [elabN, h1, Option.bind_some, Option.bind_eq_some_iff, Option.map_eq_some_iff] at h
      obtain ⟨x, hx, targs, htargs, y, hy, rfl⟩ := h
      have htargs' : targs = [] := by
        simp only [tyArgs, hd, Bool.false_eq_true, if_false, splitTys_fof tys args h3,
          Option.some.injEq] at htargs
        exact htargs.symm
      subst htargs'
      simp only [elabTyL, Option.some.injEq] at hy
      subst hy
      obtain ⟨_, k1, _, _, _⟩ := elabL_syn L args con m tys x hc ha' hm hf h2 h3 hx
      obtain ⟨g1, g2⟩ := elabL_exi L args con m tys x hc ha' ha hm hf h2 h3 hx
      have h4 := id_ok k1 s
      simp only [EFm]
      exact ⟨trivial, ⟨s, user_ne_eq hs, h4.2.2, g2.trans hl⟩, ETmL.ext h4.1.ids _ g1⟩
    | eq _ _ =>
      simp only [PForm.Exi] at hp
      exact absurd rfl (user_ne_eq hp.1)
    | neg hw =>
      simp only [elabN, Option.map_eq_some_iff] at h
      obtain ⟨x, hx, rfl⟩ := h
      simp only [PForm.Exi] at hp
      simp only [EFm]
      exact ih _ con m x hw hc hm hf hx _ hp
    | @bin op l r' hl hr =>
      simp only [elabN, Option.bind_eq_some_iff, Option.map_eq_some_iff] at h
      obtain ⟨x, hx, f', hf', rfl⟩ := h
      obtain ⟨g1, g2⟩ := elabSeq_exi L ih _ con m x (fun g hg => (subForms_fof hl hr g hg).1) hc hm hf hx
      cases op with
      | and =>
        simp only [PForm.Exi] at hp
        obtain ⟨s1, s2⟩ := subForms_exi (fl := fl) (op := .and) (.inl rfl) hp.1 hp.2
        simp only [mkBin, Option.some.injEq] at hf'; subst hf'
        simp only [EFm]
        exact ⟨fun he => s1 (List.length_eq_zero_iff.1 (by rw [← g1, he]; rfl)), seq_all g1 g2 s2⟩
      | or =>
        simp only [PForm.Exi] at hp
        obtain ⟨s1, s2⟩ := subForms_exi (fl := fl) (op := .or) (.inr rfl) hp.1 hp.2
        simp only [mkBin, Option.some.injEq] at hf'; subst hf'
        simp only [EFm]
        exact ⟨fun he => s1 (List.length_eq_zero_iff.1 (by rw [← g1, he]; rfl)), seq_all g1 g2 s2⟩
      | imp =>
        simp only [PForm.Exi] at hp
        have hsub : subForms fl .imp l r' = [l, r'] := by simp [subForms]
        rw [hsub] at hx
        simp only [hsub] at g1 g2
        match hv : x.val, g1 with
        | [a, b], _ =>
          simp only [hv] at hf' g2
          simp only [mkBin, Option.some.injEq] at hf'; subst hf'
          simp only [EFm]
          exact ⟨g2 0 (by simp) (by simp) _ hp.1, g2 1 (by simp) (by simp) _ hp.2⟩
        | [], h => simp at h
        | [_], h => simp at h
        | _ :: _ :: _ :: _, h => simp at h
      | equ =>
        simp only [PForm.Exi] at hp
        have hsub : subForms fl .equ l r' = [l, r'] := by simp [subForms]
        rw [hsub] at hx
        simp only [hsub] at g1 g2
        match hv : x.val, g1 with
        | [a, b], _ =>
          simp only [hv] at hf' g2
          simp only [mkBin, Option.some.injEq] at hf'; subst hf'
          simp only [EFm]
          exact ⟨⟨g2 0 (by simp) (by simp) _ hp.1.1, g2 0 (by simp) (by simp) _ hp.1.2⟩, g2 1 (by simp) (by simp) _ hp.2.1,
            g2 1 (by simp) (by simp) _ hp.2.2⟩
        | [], h => simp at h
        | [_], h => simp at h
        | _ :: _ :: _ :: _, h => simp at h
    | @all vs f hv hw =>
      simp only [elabN, Option.bind_eq_some_iff, Option.map_eq_some_iff] at h
      obtain ⟨q, hq, x, hx, rfl⟩ := h
      simp only [PForm.Exi] at hp
      have hok := pretypeVars_ok vs m q hm hq
      have := ih _ _ _ x hw (hc.append L.disj hv) hok.2.1 (pretypeVars_syn L vs m q hv hf hq).1 hx p hp.2
      simp only [mkAll]
      split
      · exact this
      · simp only [EFm]; exact ⟨hp.1, this⟩
    | @ex vs f hv hw =>
      simp only [elabN, Option.bind_eq_some_iff] at h
      obtain ⟨q, hq, h⟩ := h
      split at h
      · cases h
      simp only [Option.map_eq_some_iff] at h
      obtain ⟨x, hx, rfl⟩ := h
      simp only [PForm.Exi] at hp
      have hok := pretypeVars_ok vs m q hm hq
      have := ih _ _ _ x hw (hc.append L.disj hv) hok.2.1 (pretypeVars_syn L vs m q hv hf hq).1 hx p hp.2
      simp only [mkEx]
      split
      · exact this
      · simp only [EFm]; exact ⟨hp.1, this⟩

/-! ### Renaming -/

mutual
theorem ETm.repl {m : Maker} {x y : Nat} : ∀ (t : Term), ETm ar m t → ETm ar m (replT (.var x) (.var y) t).1
  | .var i, _ => by simp only [replT]; split <;> simp [ETm]
  | .mv _, h => by simp [ETm] at h
  | .fn p tys args, h => by
    have h' := h
    simp only [ETm] at h'
    simp only [replT]; split
    · simp [ETm]
    · obtain ⟨a, b⟩ := ETmL.repl (x := x) (y := y) args h'.2.2
      simp only [ETm]
      exact ⟨h'.1, by rw [b]; exact h'.2.1, a⟩
theorem ETmL.repl {m : Maker} {x y : Nat} : ∀ (l : List Term), ETmL ar m l →
    ETmL ar m (replTL (.var x) (.var y) l).1 ∧ (replTL (.var x) (.var y) l).1.length = l.length
  | [], _ => by simp [replTL, ETmL]
  | t :: l, h => by
    simp only [ETmL] at h
    have := ETmL.repl (x := x) (y := y) l h.2
    simp [replTL, ETmL, ETm.repl t h.1, this]
end

mutual
theorem ETm.sub {m : Maker} {n s : String} : ∀ (t : Term), ETm ar m t → ETm ar m (t.substBound n (.bound s))
  | .var i, _ => by simp [Term.substBound, ETm]
  | .mv _, h => by simp [ETm] at h
  | .fn p tys args, h => by
    simp only [ETm] at h
    obtain ⟨a, b⟩ := ETmL.sub (n := n) (s := s) args h.2.2
    simp only [Term.substBound, ETm, h.1, Ty.substBoundL]
    exact ⟨trivial, by rw [b]; exact h.2.1, a⟩
theorem ETmL.sub {m : Maker} {n s : String} : ∀ (l : List Term), ETmL ar m l →
    ETmL ar m (Term.substBoundL n (.bound s) l) ∧ (Term.substBoundL n (.bound s) l).length = l.length
  | [], _ => by simp [Term.substBoundL, ETmL]
  | t :: l, h => by
    simp only [ETmL] at h
    have := ETmL.sub (n := n) (s := s) l h.2
    simp [Term.substBoundL, ETmL, ETm.sub t h.1, this]
end

theorem substBoundL_map {n : String} {t : Ty} (l : List Form) : Form.substBoundL n t l = l.map (Form.substBound n t) := by
  induction l with
  | nil => rfl
  | cons a l ih => simp [Form.substBoundL, ih]

theorem EFm.repl {m : Maker} {x y : Nat} {f : Form} : ∀ {b : Bool}, EFm ar m b f → EFm ar m b (f.replaceTermByTerm (.var x) (.var y)).1 := by
  induction f using Form.ind with
  | pred p tys args =>
    intro b h; simp only [EFm, Form.replaceTermByTerm] at h ⊢
    obtain ⟨a, c⟩ := ETmL.repl (x := x) (y := y) args h.2.2
    exact ⟨h.1, by rw [c]; exact h.2.1, a⟩
  | top => intro b h; simpa [EFm, Form.replaceTermByTerm] using h
  | bot => intro b h; simpa [EFm, Form.replaceTermByTerm] using h
  | neg f ih => intro b h; simp only [EFm, Form.replaceTermByTerm] at h ⊢; exact ih h
  | and fs ih =>
    intro b h
    simp only [EFm, Form.replaceTermByTerm, Form.replaceTermByTermL_fst, EFmL_iff, List.forall_mem_map, ne_eq, List.map_eq_nil_iff] at h ⊢
    exact ⟨h.1, fun f hf => ih f hf (h.2 f hf)⟩
  | or fs ih =>
    intro b h
    simp only [EFm, Form.replaceTermByTerm, Form.replaceTermByTermL_fst, EFmL_iff, List.forall_mem_map, ne_eq, List.map_eq_nil_iff] at h ⊢
    exact ⟨h.1, fun f hf => ih f hf (h.2 f hf)⟩
  | imp f g ihf ihg => intro b h; simp only [EFm, Form.replaceTermByTerm] at h ⊢; exact ⟨ihf h.1, ihg h.2⟩
  | equ f g ihf ihg =>
    intro b h; simp only [EFm, Form.replaceTermByTerm] at h ⊢
    exact ⟨⟨ihf h.1.1, ihf h.1.2⟩, ihg h.2.1, ihg h.2.2⟩
  | all vs f ih => intro b h; simp only [EFm, Form.replaceTermByTerm] at h ⊢; exact ⟨h.1, ih h.2⟩
  | ex vs f ih => intro b h; simp only [EFm, Form.replaceTermByTerm] at h ⊢; exact ⟨h.1, ih h.2⟩

theorem EFm.sub {m : Maker} {n s : String} {f : Form} : ∀ {b : Bool}, EFm ar m b f → EFm ar m b (f.substBound n (.bound s)) := by
  induction f using Form.ind with
  | pred p tys args =>
    intro b h; simp only [EFm, Form.substBound] at h ⊢
    obtain ⟨a, c⟩ := ETmL.sub (n := n) (s := s) args h.2.2
    exact ⟨by simp [h.1, Ty.substBoundL], by rw [c]; exact h.2.1, a⟩
  | top => intro b h; simpa [EFm, Form.substBound] using h
  | bot => intro b h; simpa [EFm, Form.substBound] using h
  | neg f ih => intro b h; simp only [EFm, Form.substBound] at h ⊢; exact ih h
  | and fs ih =>
    intro b h
    simp only [EFm, Form.substBound, substBoundL_map, EFmL_iff, List.forall_mem_map, ne_eq, List.map_eq_nil_iff] at h ⊢
    exact ⟨h.1, fun f hf => ih f hf (h.2 f hf)⟩
  | or fs ih =>
    intro b h
    simp only [EFm, Form.substBound, substBoundL_map, EFmL_iff, List.forall_mem_map, ne_eq, List.map_eq_nil_iff] at h ⊢
    exact ⟨h.1, fun f hf => ih f hf (h.2 f hf)⟩
  | imp f g ihf ihg => intro b h; simp only [EFm, Form.substBound] at h ⊢; exact ⟨ihf h.1, ihg h.2⟩
  | equ f g ihf ihg =>
    intro b h; simp only [EFm, Form.substBound] at h ⊢
    exact ⟨⟨ihf h.1.1, ihf h.1.2⟩, ihg h.2.1, ihg h.2.2⟩
  | all vs f ih => intro b h; simp only [EFm, Form.substBound] at h ⊢; exact ⟨h.1, ih h.2⟩
  | ex vs f ih => intro b h; simp only [EFm, Form.substBound] at h ⊢; exact ⟨h.1, ih h.2⟩

mutual
theorem EFm.rename {m : Maker} : ∀ (f : Form) (k : Maker) (b : Bool), EFm ar m b f → EFm ar m b (f.rename k).1
  | .pred _ _ _, k, b, h => by simpa only [Form.rename] using h
  | .top, k, b, h => by simpa only [Form.rename] using h
  | .bot, k, b, h => by simpa only [Form.rename] using h
  | .neg f, k, b, h => by simp only [EFm, Form.rename] at h ⊢; exact EFm.rename f k _ h
  | .and fs, k, b, h => by
    simp only [EFm, Form.rename] at h ⊢
    obtain ⟨h1, h2⟩ := EFmL.rename fs k b h.2
    exact ⟨fun e => h.1 (List.length_eq_zero_iff.1 (by rw [← h2, e]; rfl)), h1⟩
  | .or fs, k, b, h => by
    simp only [EFm, Form.rename] at h ⊢
    obtain ⟨h1, h2⟩ := EFmL.rename fs k b h.2
    exact ⟨fun e => h.1 (List.length_eq_zero_iff.1 (by rw [← h2, e]; rfl)), h1⟩
  | .imp f g, k, b, h => by simp only [EFm, Form.rename] at h ⊢; exact ⟨EFm.rename f _ _ h.1, EFm.rename g _ _ h.2⟩
  | .equ f g, k, b, h => by
    simp only [EFm, Form.rename] at h ⊢
    exact ⟨⟨EFm.rename f _ _ h.1.1, EFm.rename f _ _ h.1.2⟩, EFm.rename g _ _ h.2.1, EFm.rename g _ _ h.2.2⟩
  | .all vs f, k, b, h => by
    simp only [EFm, Form.rename] at h ⊢
    exact ⟨h.1, renameVarsLoop_keeps (fun _ _ _ h => EFm.repl h) (fun _ _ _ h => EFm.sub h) _ _ _ (EFm.rename f k b h.2)⟩
  | .ex vs f, k, b, h => by
    simp only [EFm, Form.rename] at h ⊢
    exact ⟨h.1, renameVarsLoop_keeps (fun _ _ _ h => EFm.repl h) (fun _ _ _ h => EFm.sub h) _ _ _ (EFm.rename f k b h.2)⟩
theorem EFmL.rename {m : Maker} : ∀ (l : List Form) (k : Maker) (b : Bool), EFmL ar m b l →
    EFmL ar m b (Form.renameL l k).1 ∧ (Form.renameL l k).1.length = l.length
  | [], k, b, _ => by simp [Form.renameL, EFmL]
  | f :: l, k, b, h => by
    simp only [EFmL, Form.renameL] at h ⊢
    have := EFmL.rename l (f.rename k).2 b h.2
    exact ⟨⟨EFm.rename f k b h.1, this.1⟩, by simp [this.2]⟩
end

/-- The formulas are a class. -/
theorem classExi (L : Lex V F) : Class V F (fun p w => w.Exi ar p) (fun m p f => EFm ar m p f) where
  made fl con m w r p hw hW hc hm h := elabN_exi fl L _ _ _ _ _ (parse_fof hw) hc hm.ok hm.fresh h p (parse_exi w hW)
  le hi h := EFm.ext hi.ids _ _ h
  ren k h := EFm.rename _ k _ h
  neg h := by simp only [EFm]; exact h
  and hl h := by simp only [EFm]; exact ⟨hl, EFmL_iff.2 h⟩
  parts h := by simp only [EFm] at h; exact EFmL_iff.1 h.2

/-! ### The formula searched -/

open Verif.Search.Main (TOk TOkL Exist ExistL ExistL_iff NoPred NoPredL)

mutual
theorem ETm.ok {m : Maker} (hm : MOK m) : ∀ (t : Term), ETm ar m t → TOk (arOf ar m) t
  | .var _, _ => by simp [TOk]
  | .mv _, h => by simp [ETm] at h
  | .fn p tys args, h => by
    simp only [ETm] at h
    obtain ⟨h1, ⟨s, h2, h3⟩, h4⟩ := h
    exact ⟨h1, h3.trans (arOf_eq hm h2).symm, ETmL.ok hm args h4⟩
theorem ETmL.ok {m : Maker} (hm : MOK m) : ∀ (l : List Term), ETmL ar m l → TOkL (arOf ar m) l
  | [], _ => trivial
  | t :: l, h => by simp only [ETmL] at h; exact ⟨ETm.ok hm t h.1, ETmL.ok hm l h.2⟩
end

theorem widthL_le {l : List Form} {B : Nat} : widthL l ≤ B ↔ ∀ f ∈ l, width f ≤ B := by
  induction l with
  | nil => simp [widthL]
  | cons a l ih => simp [widthL, Nat.max_le, ih]

theorem EFm.exist {m : Maker} (hm : MOK m) {B : Nat} {f : Form} : ∀ {b : Bool}, width f ≤ B → EFm ar m b f → Exist (arOf ar m) B b f := by
  induction f using Form.ind with
  | pred p tys args =>
    intro b _ h
    simp only [EFm] at h
    obtain ⟨h1, ⟨s, _, h2, h3⟩, h4⟩ := h
    simp only [Exist]
    exact ⟨h1, h3.trans (arOf_eq hm h2).symm, ETmL.ok hm args h4⟩
  | top => intro b _ _; simp [Exist]
  | bot => intro b _ _; simp [Exist]
  | neg f ih => intro b hB h; simp only [EFm, Exist, width] at hB h ⊢; exact ih hB h
  | and fs ih =>
    intro b hB h
    simp only [EFm, EFmL_iff, Exist, ExistL_iff, width, Nat.max_le, widthL_le] at hB h ⊢
    exact ⟨h.1, hB.1, fun f hf => ih f hf (hB.2 f hf) (h.2 f hf)⟩
  | or fs ih =>
    intro b hB h
    simp only [EFm, EFmL_iff, Exist, ExistL_iff, width, Nat.max_le, widthL_le] at hB h ⊢
    exact ⟨h.1, hB.1, fun f hf => ih f hf (hB.2 f hf) (h.2 f hf)⟩
  | imp f g ihf ihg => intro b hB h; simp only [EFm, Exist, width, Nat.max_le] at hB h ⊢; exact ⟨ihf hB.1 h.1, ihg hB.2 h.2⟩
  | equ f g ihf ihg =>
    intro b hB h; simp only [EFm, Exist, width, Nat.max_le] at hB h ⊢
    exact ⟨ihf hB.1 h.1.1, ihf hB.1 h.1.2, ihg hB.2 h.2.1, ihg hB.2 h.2.2⟩
  | all vs f ih => intro b hB h; simp only [EFm, Exist, width] at hB h ⊢; exact ⟨h.1, ih hB h.2⟩
  | ex vs f ih => intro b hB h; simp only [EFm, Exist, width] at hB h ⊢; exact ⟨h.1, ih hB h.2⟩

theorem NoPredL_iff {q : Nat} {l : List Form} : NoPredL q l ↔ ∀ f ∈ l, NoPred q f := by
  induction l with
  | nil => simp [NoPredL]
  | cons a l ih => simp [NoPredL, ih]

theorem EFm.noEq {m : Maker} (hm : MOK m) {q : Nat} (hq : m.ids "=" = some q) {f : Form} : ∀ {b : Bool}, EFm ar m b f → NoPred q f := by
  induction f using Form.ind with
  | pred p tys args =>
    intro b h
    simp only [EFm] at h
    obtain ⟨_, ⟨s, h0, h2, _⟩, _⟩ := h
    simp only [NoPred]
    rintro rfl
    exact h0 (hm.ids_inj _ _ _ h2 hq)
  | top => intro b _; simp [NoPred]
  | bot => intro b _; simp [NoPred]
  | neg f ih => intro b h; simp only [EFm, NoPred] at h ⊢; exact ih h
  | and fs ih => intro b h; simp only [EFm, EFmL_iff, NoPred, NoPredL_iff] at h ⊢; exact fun f hf => ih f hf (h.2 f hf)
  | or fs ih => intro b h; simp only [EFm, EFmL_iff, NoPred, NoPredL_iff] at h ⊢; exact fun f hf => ih f hf (h.2 f hf)
  | imp f g ihf ihg => intro b h; simp only [EFm, NoPred] at h ⊢; exact ⟨ihf h.1, ihg h.2⟩
  | equ f g ihf ihg => intro b h; simp only [EFm, NoPred] at h ⊢; exact ⟨ihf h.1.1, ihg h.2.1⟩
  | all vs f ih => intro b h; simp only [EFm, NoPred] at h ⊢; exact ih h.2
  | ex vs f ih => intro b h; simp only [EFm, NoPred] at h ⊢; exact ih h.2

/-- A number that is not given to a symbol has no arguments. -/
theorem arOf_fresh {m : Maker} (hm : MOK m) {i : Nat} (hi : m.cpt ≤ i) : arOf ar m i = 0 := by
  unfold arOf
  rw [dif_neg]
  rintro ⟨s, hs⟩
  have := hm.ids_lt _ _ hs
  omega

/-- The formula made of a problem whose quantifiers all assert the existence of something. -/
theorem presearch_exi (L : Lex V F) (hV : ∀ s, V s → UserName s) (hF : ∀ s, F s → UserName s) (fl : Bool) (typeOk : Form → Bool)
    (file : List PStmt) (hf : ∀ s ∈ file, PStmt.In V F (fun p w => w.Exi ar p) s) (f : Form) (c : Bool) (m : Maker)
    (h : presearch fl (fun _ => false) typeOk initMaker file = .search f c m) :
    Exist (arOf ar m) (width f) true f ∧ Verif.Search.WF f m.cpt ∧ NoPred eqId f ∧ ∀ i, m.cpt ≤ i → arOf ar m i = 0 := by
  obtain ⟨h1, _, h3, h4, h5⟩ := presearch_in (classExi L) fl typeOk L hV hF initMaker Inv_init file hf f c m h
  have hq : m.ids "=" = some eqId := h3.ids _ _ (id_ok MOK_reset "=").2.2
  exact ⟨EFm.exist h4.ok (Nat.le_refl _) h5, h1, EFm.noEq h4.ok hq h5, fun i hi => arOf_fresh h4.ok hi⟩

end Verif.Engine
