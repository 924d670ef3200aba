import Verif.Engine.ElabProps
import Verif.AST.RenameProps
/-!
# Shape of elaborated formulas

Symbols, variables and types of the formulas made from untyped input: what renaming needs.
-/

namespace Verif.Engine
open Verif.AST

/-! ### Free variables of written formulas (specification) -/

mutual
def PTm.fv : PTm → List String
  | .var n => [n]
  | .fn _ args _ => PTm.fvL args
def PTm.fvL : List PTm → List String
  | [] => []
  | a :: l => PTm.fv a ++ PTm.fvL l
end

def WForm.fv : WForm → List String
  | .top => []
  | .bot => []
  | .atom _ args => PTm.fvL args
  | .eq l r => l.fv ++ r.fv
  | .neq l r => l.fv ++ r.fv
  | .not f => f.fv
  | .and l r => l.fv ++ r.fv
  | .or l r => l.fv ++ r.fv
  | .imp l r => l.fv ++ r.fv
  | .rimp l r => l.fv ++ r.fv
  | .iff l r => l.fv ++ r.fv
  | .xor l r => l.fv ++ r.fv
  | .nor l r => l.fv ++ r.fv
  | .nand l r => l.fv ++ r.fv
  | .all vs f => f.fv.filter fun n => !(vs.map (·.1)).contains n
  | .ex vs f => f.fv.filter fun n => !(vs.map (·.1)).contains n

def PForm.fv : PForm → List String
  | .top => []
  | .bot => []
  | .pred _ args => PTm.fvL args
  | .neg f => f.fv
  | .bin _ l r => l.fv ++ r.fv
  | .all vs f => f.fv.filter fun n => !(vs.map (·.1)).contains n
  | .ex vs f => f.fv.filter fun n => !(vs.map (·.1)).contains n

theorem parse_fv (w : WForm) : ∀ n, n ∈ w.parse.fv → n ∈ w.fv := by
  induction w with
  | top => simp [WForm.parse, PForm.fv]
  | bot => simp [WForm.parse, PForm.fv]
  | atom s args => simp [WForm.parse, PForm.fv, WForm.fv]
  | eq l r => simp [WForm.parse, PForm.fv, WForm.fv, PTm.fvL]
  | neq l r => simp [WForm.parse, PForm.fv, WForm.fv, PTm.fvL]
  | not f ih => simpa [WForm.parse, PForm.fv, WForm.fv] using ih
  | all vs f ih =>
    intro n hn
    simp only [WForm.parse, PForm.fv, WForm.fv, List.mem_filter] at hn ⊢
    exact ⟨ih n hn.1, hn.2⟩
  | ex vs f ih =>
    intro n hn
    simp only [WForm.parse, PForm.fv, WForm.fv, List.mem_filter] at hn ⊢
    exact ⟨ih n hn.1, hn.2⟩
  | _ l r il ir =>
    intro n hn
    simp only [WForm.parse, PForm.fv, WForm.fv, mkPRevImp, mkPXor, mkPNotOr, mkPNotAnd,
      List.mem_append] at hn ⊢
    have h1 := il n
    have h2 := ir n
    grind

/-! ### Tables with fresh names -/

section
variable {V F : String → Prop}

theorem var_fresh {m : Maker} {n : String} (h : m.NamesFresh) (hn : NoDigitEnd n) :
    (m.var n).2.NamesFresh := by
  unfold Maker.var
  split
  · exact h
  · intro s i hs hi
    simp only [Maker.newVar, setKey] at hi ⊢
    rw [if_neg (Ne.symm (noDigitEnd_ne_number hn))]
    exact h s i hs (by omega)

theorem id_fresh {m : Maker} {n : String} (h : m.NamesFresh) : (m.id n).2.NamesFresh := by
  unfold Maker.id
  split
  · exact h
  · intro s i hs hi
    simp only [Maker.newId] at hi ⊢
    exact h s i hs (by omega)

/-- Symbols of an elaborated term. -/
structure TSyn (fr : List String) (m : Maker) (ts : List Term) : Prop where
  mono : Term.monoL ts
  vars : ∀ i ∈ Term.varsL ts, ∃ n ∈ fr, m.vars n = some i
  funs : ∀ i ∈ Term.funsL ts, ∃ s, m.ids s = some i

/-- Symbols of an elaborated formula. -/
structure FSyn (V : String → Prop) (fr : List String) (m : Maker) (f : Form) : Prop where
  mono : f.mono
  names : ∀ s ∈ f.bnames, V s
  binders : ∀ i ∈ f.binders, ∃ n, m.vars n = some i
  fvs : ∀ i ∈ f.fvs, ∃ n ∈ fr, m.vars n = some i
  funs : ∀ i ∈ f.funs, ∃ s, m.ids s = some i

theorem TSyn.ext {fr : List String} {m m' : Maker} {ts : List Term} (e : Ext m m') (h : TSyn fr m ts) :
    TSyn fr m' ts :=
  ⟨h.mono, fun i hi => by obtain ⟨n, h1, h2⟩ := h.vars i hi; exact ⟨n, h1, e.vars _ _ h2⟩,
    fun i hi => by obtain ⟨s, h1⟩ := h.funs i hi; exact ⟨s, e.ids _ _ h1⟩⟩

theorem TSyn.cons {fr fr' : List String} {m : Maker} {t : Term} {ts : List Term} (h : TSyn fr m [t])
    (h' : TSyn fr' m ts) : TSyn (fr ++ fr') m (t :: ts) := by
  have h1 := h.mono; have h2 := h.vars; have h3 := h.funs
  simp only [Term.monoL, and_true, Term.varsL, List.append_nil, Term.funsL] at h1 h2 h3
  refine ⟨⟨h1, h'.mono⟩, ?_, ?_⟩
  · intro i hi
    simp only [Term.varsL, List.mem_append] at hi
    rcases hi with hi | hi
    · obtain ⟨n, a, b⟩ := h2 i hi; exact ⟨n, by simp [a], b⟩
    · obtain ⟨n, a, b⟩ := h'.vars i hi; exact ⟨n, by simp [a], b⟩
  · intro i hi
    simp only [Term.funsL, List.mem_append] at hi
    rcases hi with hi | hi
    · exact h3 i hi
    · exact h'.funs i hi

theorem FSyn.ext {fr : List String} {m m' : Maker} {f : Form} (e : Ext m m') (h : FSyn V fr m f) :
    FSyn V fr m' f :=
  ⟨h.mono, h.names, fun i hi => by obtain ⟨n, h1⟩ := h.binders i hi; exact ⟨n, e.vars _ _ h1⟩,
    fun i hi => by obtain ⟨n, h1, h2⟩ := h.fvs i hi; exact ⟨n, h1, e.vars _ _ h2⟩,
    fun i hi => by obtain ⟨s, h1⟩ := h.funs i hi; exact ⟨s, e.ids _ _ h1⟩⟩

/-- The lexical conditions on names used below. -/
structure Lex (V F : String → Prop) : Prop where
  defined : ∀ s, F s → isDefined s = false
  disj : ∀ s, V s → ¬ F s
  digits : ∀ s, V s → NoDigitEnd s

mutual
theorem elabT_syn (L : Lex V F) : ∀ (t : PTm) (con : Ctx) (m : Maker) (r : Out Term), FofCon V F con →
    t.Fof V F → MOK m → m.NamesFresh → elabT con m t = some r →
    Ext m r.m ∧ MOK r.m ∧ r.m.NamesFresh ∧ r.con = con ∧ TSyn t.fv r.m [r.val]
  | .var n, con, m, r, hc, ht, hm, hf, h => by
    cases ht with
    | var hn =>
    simp only [elabT] at h
    cases h
    have := var_ok hm n
    refine ⟨this.1, this.2.1, var_fresh hf (L.digits n hn), rfl, by simp [Term.monoL, Term.mono], ?_,
      by simp [Term.funsL, Term.funs]⟩
    intro i hi
    simp only [Term.varsL, Term.vars, List.append_nil, List.mem_singleton] at hi
    subst hi
    exact ⟨n, by simp [PTm.fv], this.2.2⟩
  | .fn s args dt, con, m, r, hc, ht, hm, hf, h => by
    cases ht with
    | fn hs ha =>
    obtain ⟨tys, h1, h2, h3⟩ := pretype_fof hc args ha
    simp only [elabT, h1, Option.bind_some, Option.bind_eq_some_iff] at h
    obtain ⟨x, hx, targs, htargs, y, hy, h⟩ := h
    cases h
    have htargs' : targs = [] := by
      simp only [tyArgs, L.defined s hs, Bool.false_eq_true, if_false, splitTys_fof tys args h3,
        Option.some.injEq] at htargs
      exact htargs.symm
    subst htargs'
    simp only [elabTyL, Option.some.injEq] at hy
    subst hy
    obtain ⟨e1, k1, f1, c1, t1⟩ := elabL_syn L args con m tys x hc ha hm hf h2 h3 hx
    have h4 := id_ok k1 s
    refine ⟨e1.trans h4.1, h4.2.1, id_fresh f1, c1, ?_, ?_, ?_⟩
    · simpa [Term.monoL, Term.mono, Ty.monoL] using t1.mono
    · intro i hi
      simp only [Term.varsL, Term.vars, List.append_nil] at hi
      obtain ⟨n, a, b⟩ := t1.vars i hi
      exact ⟨n, by simpa [PTm.fv] using a, h4.1.vars _ _ b⟩
    · intro i hi
      simp only [Term.funsL, Term.funs, List.append_nil, List.mem_cons] at hi
      rcases hi with rfl | hi
      · exact ⟨s, h4.2.2⟩
      · obtain ⟨s', b⟩ := t1.funs i hi
        exact ⟨s', h4.1.ids _ _ b⟩
theorem elabL_syn (L : Lex V F) : ∀ (l : List PTm) (con : Ctx) (m : Maker) (tys : List PTy)
    (r : Out (List Term)), FofCon V F con → (∀ a ∈ l, PTm.Fof V F a) → MOK m → m.NamesFresh →
    tys.length = l.length → (∀ ty ∈ tys, ∃ s, s ≠ "$tType" ∧ ty = .fn s []) →
    elabL con m tys l = some r →
    Ext m r.m ∧ MOK r.m ∧ r.m.NamesFresh ∧ r.con = con ∧ TSyn (PTm.fvL l) r.m r.val
  | [], con, m, tys, r, _, _, hm, hf, _, _, h => by
    simp only [elabL] at h; cases h
    exact ⟨Ext.refl m, hm, hf, rfl, by simp [Term.monoL], by simp [Term.varsL], by simp [Term.funsL]⟩
  | a :: l, con, m, tys, r, hc, hl, hm, hf, hlen, htys, h => by
    cases tys with
    | nil => simp at hlen
    | cons ty tys =>
    obtain ⟨s, hs, rfl⟩ := htys ty (by simp)
    simp only [elabL, isTyConstr, beq_iff_eq, hs, if_false, Option.bind_eq_some_iff,
      Option.map_eq_some_iff] at h
    obtain ⟨x, hx, y, hy, rfl⟩ := h
    obtain ⟨e1, k1, f1, c1, t1⟩ := elabT_syn L a con m x hc (hl a (by simp)) hm hf hx
    obtain ⟨e2, k2, f2, c2, t2⟩ := elabL_syn L l x.con x.m tys y (by rw [c1]; exact hc)
      (fun a ha => hl a (List.mem_cons_of_mem _ ha)) k1 f1 (by simpa using hlen)
      (fun ty hty => htys ty (List.mem_cons_of_mem _ hty)) hy
    exact ⟨e1.trans e2, k2, f2, by rw [c2, c1], (t1.ext e2).cons t2⟩
end

/-- Lists of formulas. -/
structure FSynL (V : String → Prop) (fr : List String) (m : Maker) (fs : List Form) : Prop where
  each : ∀ f ∈ fs, FSyn V fr m f

theorem FSyn.weaken {fr fr' : List String} {m : Maker} {f : Form} (h : FSyn V fr m f)
    (hs : ∀ n ∈ fr, n ∈ fr') : FSyn V fr' m f :=
  ⟨h.mono, h.names, h.binders, fun i hi => by obtain ⟨n, a, b⟩ := h.fvs i hi; exact ⟨n, hs n a, b⟩,
    h.funs⟩

theorem FSyn.and {fr : List String} {m : Maker} {fs : List Form} (h : ∀ f ∈ fs, FSyn V fr m f) :
    FSyn V fr m (.and fs) := by
  refine ⟨?_, ?_, ?_, ?_, ?_⟩
  · simp only [Form.mono, Form.monoL_iff]; exact fun f hf => (h f hf).mono
  · intro s hs
    simp only [Form.bnames] at hs
    have : ∃ f ∈ fs, s ∈ f.bnames := by
      clear h
      induction fs with
      | nil => simp [Form.bnamesL] at hs
      | cons f fs ih =>
        simp only [Form.bnamesL, List.mem_append] at hs
        rcases hs with hs | hs
        · exact ⟨f, by simp, hs⟩
        · obtain ⟨g, a, b⟩ := ih hs; exact ⟨g, by simp [a], b⟩
    obtain ⟨f, hf, hs⟩ := this
    exact (h f hf).names s hs
  · intro i hi
    simp only [Form.binders, Form.mem_bindersL] at hi
    obtain ⟨f, hf, hi⟩ := hi
    exact (h f hf).binders i hi
  · intro i hi
    simp only [Form.fvs, Form.mem_fvsL] at hi
    obtain ⟨f, hf, hi⟩ := hi
    exact (h f hf).fvs i hi
  · intro i hi
    simp only [Form.funs, Form.mem_funsL] at hi
    obtain ⟨f, hf, hi⟩ := hi
    exact (h f hf).funs i hi

theorem FSyn.or {fr : List String} {m : Maker} {fs : List Form} (h : ∀ f ∈ fs, FSyn V fr m f) :
    FSyn V fr m (.or fs) := by
  have := FSyn.and h
  exact ⟨by simpa [Form.mono] using this.mono, by simpa [Form.bnames] using this.names,
    by simpa [Form.binders] using this.binders, by simpa [Form.fvs] using this.fvs,
    by simpa [Form.funs] using this.funs⟩

theorem FSyn.imp {fr : List String} {m : Maker} {f g : Form} (h : FSyn V fr m f) (h' : FSyn V fr m g) :
    FSyn V fr m (.imp f g) := by
  have := FSyn.and (V := V) (fr := fr) (m := m) (fs := [f, g]) (by
    intro x hx; simp only [List.mem_cons, List.not_mem_nil, or_false] at hx
    rcases hx with rfl | rfl
    · exact h
    · exact h')
  exact ⟨by simpa [Form.mono, Form.monoL] using this.mono,
    by simpa [Form.bnames, Form.bnamesL] using this.names,
    by simpa [Form.binders, Form.bindersL] using this.binders,
    by simpa [Form.fvs, Form.fvsL] using this.fvs, by simpa [Form.funs, Form.funsL] using this.funs⟩

theorem FSyn.equ {fr : List String} {m : Maker} {f g : Form} (h : FSyn V fr m f) (h' : FSyn V fr m g) :
    FSyn V fr m (.equ f g) := by
  have := FSyn.imp h h'
  exact ⟨by simpa [Form.mono] using this.mono, by simpa [Form.bnames] using this.names,
    by simpa [Form.binders] using this.binders, by simpa [Form.fvs] using this.fvs,
    by simpa [Form.funs] using this.funs⟩

theorem mkBin_syn {fr : List String} {m : Maker} {op : PBinOp} {fs : List Form} {f : Form}
    (h : ∀ g ∈ fs, FSyn V fr m g) (hf : mkBin op fs = some f) : FSyn V fr m f := by
  match op, fs, h, hf with
  | .or, fs, h, hf => simp only [mkBin, Option.some.injEq] at hf; subst hf; exact .or h
  | .and, fs, h, hf => simp only [mkBin, Option.some.injEq] at hf; subst hf; exact .and h
  | .imp, [a, b], h, hf =>
    simp only [mkBin, Option.some.injEq] at hf; subst hf; exact .imp (h a (by simp)) (h b (by simp))
  | .equ, [a, b], h, hf =>
    simp only [mkBin, Option.some.injEq] at hf; subst hf; exact .equ (h a (by simp)) (h b (by simp))
  | .imp, [], _, hf => simp [mkBin] at hf
  | .imp, [_], _, hf => simp [mkBin] at hf
  | .imp, _ :: _ :: _ :: _, _, hf => simp [mkBin] at hf
  | .equ, [], _, hf => simp [mkBin] at hf
  | .equ, [_], _, hf => simp [mkBin] at hf
  | .equ, _ :: _ :: _ :: _, _, hf => simp [mkBin] at hf

theorem flatten_fv {op : PBinOp} (f : PForm) : ∀ g ∈ flatten op f, ∀ n ∈ g.fv, n ∈ f.fv := by
  induction f with
  | bin o l r il ir =>
    intro g hg n hn
    simp only [flatten] at hg
    split at hg
    · simp only [PForm.fv, List.mem_append]
      rcases List.mem_append.1 hg with hg | hg
      · exact Or.inl (il g hg n hn)
      · exact Or.inr (ir g hg n hn)
    · simp only [List.mem_singleton] at hg; subst hg; exact hn
  | _ => intro g hg n hn; simp only [flatten, List.mem_singleton] at hg; subst hg; exact hn

theorem subForms_fv {fl : Bool} {op : PBinOp} {l r : PForm} :
    ∀ g ∈ subForms fl op l r, ∀ n ∈ g.fv, n ∈ (PForm.bin op l r).fv := by
  unfold subForms
  split
  · exact flatten_fv _
  · intro g hg n hn
    simp only [List.mem_cons, List.not_mem_nil, or_false] at hg
    simp only [PForm.fv, List.mem_append]
    rcases hg with rfl | rfl
    · exact Or.inl hn
    · exact Or.inr hn

/-- What is shown of the elaboration of a formula. -/
def SynSpec (V F : String → Prop) (P : PForm → Prop)
    (g : Ctx → Maker → PForm → Option (Out Form)) : Prop :=
  ∀ (f : PForm) (con : Ctx) (m : Maker) (r : Out Form), P f → FofCon V F con → MOK m → m.NamesFresh →
    g con m f = some r → Ext m r.m ∧ MOK r.m ∧ r.m.NamesFresh ∧ FofCon V F r.con ∧ FSyn V f.fv r.m r.val

theorem elabSeq_syn {g : Ctx → Maker → PForm → Option (Out Form)} {P : PForm → Prop}
    (hg : SynSpec V F P g) {fr : List String} : ∀ (fs : List PForm) (con : Ctx) (m : Maker)
    (r : Out (List Form)),
    (∀ f ∈ fs, P f ∧ ∀ n ∈ f.fv, n ∈ fr) → FofCon V F con → MOK m → m.NamesFresh →
    elabSeq g con m fs = some r →
    Ext m r.m ∧ MOK r.m ∧ r.m.NamesFresh ∧ FofCon V F r.con ∧ ∀ f ∈ r.val, FSyn V fr r.m f
  | [], con, m, r, _, hc, hm, hf, h => by
    simp only [elabSeq] at h; cases h
    exact ⟨Ext.refl m, hm, hf, hc, by simp⟩
  | f :: fs, con, m, r, hp, hc, hm, hf, h => by
    simp only [elabSeq, Option.bind_eq_some_iff, Option.map_eq_some_iff] at h
    obtain ⟨x, hx, y, hy, rfl⟩ := h
    obtain ⟨e1, k1, f1, c1, t1⟩ := hg f con m x (hp f (by simp)).1 hc hm hf hx
    obtain ⟨e2, k2, f2, c2, t2⟩ := elabSeq_syn hg fs x.con x.m y
      (fun f hf' => hp f (List.mem_cons_of_mem _ hf')) c1 k1 f1 hy
    refine ⟨e1.trans e2, k2, f2, c2, ?_⟩
    intro z hz
    rcases List.mem_cons.1 hz with rfl | hz
    · exact (t1.ext e2).weaken (hp f (by simp)).2
    · exact t2 z hz

theorem pretypeVars_syn (L : Lex V F) : ∀ (vs : List (String × PTy)) (m : Maker) (r : List TVar × Maker),
    (∀ e ∈ vs, V e.1 ∧ ∃ s, s ≠ "$tType" ∧ e.2 = .fn s []) → m.NamesFresh → pretypeVars m vs = some r →
    r.2.NamesFresh ∧ (∀ v ∈ r.1, V v.name ∧ v.ty.mono)
  | [], m, r, _, hf, h => by simp only [pretypeVars] at h; cases h; exact ⟨hf, by simp⟩
  | e :: vs, m, r, hv, hf, h => by
    obtain ⟨hV, s, hs, he⟩ := hv e (by simp)
    simp only [pretypeVars, he, elabTy, elabTyL, Option.map_some, Option.bind_some,
      Option.map_eq_some_iff] at h
    obtain ⟨y, hy, rfl⟩ := h
    have := pretypeVars_syn L vs _ y (fun e he => hv e (List.mem_cons_of_mem _ he))
      (var_fresh hf (L.digits _ hV)) hy
    refine ⟨this.1, ?_⟩
    intro v hv'
    rcases List.mem_cons.1 hv' with rfl | hv'
    · exact ⟨hV, by simp [Ty.mono, Ty.monoL]⟩
    · exact this.2 v hv'

theorem FSyn.quant {fr : List String} {m0 m : Maker} {vs : List (String × PTy)} {ts : List TVar}
    {f : Form} (hts : ts.map (fun v => some v.index) = vs.map (fun v => m0.vars v.1)) (e : Ext m0 m)
    (hn : ∀ v ∈ ts, V v.name ∧ v.ty.mono) (h : FSyn V fr m f) :
    FSyn V (fr.filter fun n => !(vs.map (·.1)).contains n) m (mkAll ts f) ∧
    FSyn V (fr.filter fun n => !(vs.map (·.1)).contains n) m (mkEx ts f) := by
  have hfv : ∀ i ∈ f.fvs, i ∉ ts.map TVar.index →
      ∃ n ∈ fr.filter (fun n => !(vs.map (·.1)).contains n), m.vars n = some i := by
    intro i hi hni
    obtain ⟨n, a, b⟩ := h.fvs i hi
    refine ⟨n, ?_, b⟩
    simp only [List.mem_filter, Bool.not_eq_true', List.contains_eq_mem, decide_eq_false_iff_not]
    refine ⟨a, ?_⟩
    intro hmem
    simp only [List.mem_map] at hmem
    obtain ⟨v, hv, rfl⟩ := hmem
    have : m0.vars v.1 ∈ ts.map (fun v => some v.index) := by
      rw [hts]; exact List.mem_map.2 ⟨v, hv, rfl⟩
    simp only [List.mem_map] at this
    obtain ⟨t, ht, hte⟩ := this
    have := e.vars _ _ hte.symm
    rw [b] at this
    cases this
    exact hni (List.mem_map.2 ⟨t, ht, rfl⟩)
  have hbind : ∀ i ∈ ts.map TVar.index, ∃ n, m.vars n = some i := by
    intro i hi
    simp only [List.mem_map] at hi
    obtain ⟨t, ht, rfl⟩ := hi
    have : some t.index ∈ vs.map (fun v => m0.vars v.1) := by
      rw [← hts]; exact List.mem_map.2 ⟨t, ht, rfl⟩
    simp only [List.mem_map] at this
    obtain ⟨v, _, hv⟩ := this
    exact ⟨v.1, e.vars _ _ hv⟩
  cases hts' : ts with
  | nil =>
    subst hts'
    simp only [mkAll, mkEx, List.isEmpty_nil, if_true]
    have : FSyn V (fr.filter fun n => !(vs.map (·.1)).contains n) m f :=
      ⟨h.mono, h.names, h.binders, fun i hi => hfv i hi (by simp), h.funs⟩
    exact ⟨this, this⟩
  | cons t ts' =>
    rw [← hts']
    have ne : ts.isEmpty = false := by rw [hts']; rfl
    simp only [mkAll, mkEx, ne, Bool.false_eq_true, if_false]
    have mono : (∀ v ∈ ts, v.ty.mono) ∧ f.mono := ⟨fun v hv => (hn v hv).2, h.mono⟩
    have names : ∀ s ∈ ts.map TVar.name ++ f.bnames, V s := by
      intro s hs
      rcases List.mem_append.1 hs with hs | hs
      · simp only [List.mem_map] at hs; obtain ⟨v, hv, rfl⟩ := hs; exact (hn v hv).1
      · exact h.names s hs
    have binders : ∀ i ∈ ts.map TVar.index ++ f.binders, ∃ n, m.vars n = some i := by
      intro i hi
      rcases List.mem_append.1 hi with hi | hi
      · exact hbind i hi
      · exact h.binders i hi
    constructor
    · refine ⟨by simpa [Form.mono] using mono, by simpa only [Form.bnames] using names,
        by simpa only [Form.binders] using binders, ?_, by simpa only [Form.funs] using h.funs⟩
      intro i hi
      simp only [Form.fvs, mem_fvs_quant] at hi
      exact hfv i hi.1 hi.2
    · refine ⟨by simpa [Form.mono] using mono, by simpa only [Form.bnames] using names,
        by simpa only [Form.binders] using binders, ?_, by simpa only [Form.funs] using h.funs⟩
      intro i hi
      simp only [Form.fvs, mem_fvs_quant] at hi
      exact hfv i hi.1 hi.2

/-- The type argument of an equality is a constant. -/
theorem tyArgs_eq {con : Ctx} (hc : FofCon V F con) {l r : PTm} {as : List Term} {tys targs : List PTy}
    (ha : ∀ a ∈ [l, r], PTm.Fof V F a) (hu : UntypedHeads [l, r] as) (h2 : tys.length = 2)
    (h3 : ∀ ty ∈ tys, ∃ s, s ≠ "$tType" ∧ ty = .fn s [])
    (h : tyArgs con "=" tys [l, r] as = some targs) : ∃ s, targs = [.fn s []] := by
  have e1 : isDefined "=" = true := by decide
  simp only [tyArgs, e1, if_true, splitTys_fof tys _ h3, splitTms_fof tys [l, r] (by simpa using h2) h3, elabDefined,
    List.length_nil, List.drop_zero] at h
  split at h
  · cases h
  obtain ⟨q, hq, _, hq2⟩ := definedTys_fof hc _ as tys ha hu h2 h3
  rw [hq, Option.bind_some] at h
  split at h
  · next ty hty =>
    cases h
    obtain ⟨s, _, rfl⟩ := hq2 ty (List.mem_of_find?_eq_some hty)
    exact ⟨s, rfl⟩
  · cases h

theorem elabN_syn (fl : Bool) (L : Lex V F) : ∀ n, SynSpec V F (fun f => f.Fof V F) (elabN fl n) := by
  intro n
  induction n with
  | zero => intro f con m r _ _ _ _ h; simp [elabN] at h
  | succ n ih =>
    intro f con m r hp hc hm hf h
    have predCase : ∀ (s : String) (args : List PTm) (tys : List PTy) (x : Out (List Term))
        (targs : List PTy) (y : List Ty × Maker),
        Ext m x.m ∧ MOK x.m ∧ x.m.NamesFresh ∧ x.con = con ∧ TSyn (PTm.fvL args) x.m x.val →
        Ty.monoL y.1 → y.2 = (x.m.id s).2 → ∀ b,
        Ext m y.2 ∧ MOK y.2 ∧ y.2.NamesFresh ∧ FofCon V F x.con ∧
          FSyn V (PForm.pred s args).fv (Out.mk x.con y.2 (Form.pred (x.m.id s).1 y.1 x.val) b).m
            (Out.mk x.con y.2 (Form.pred (x.m.id s).1 y.1 x.val) b).val := by
      rintro s args tys x targs y ⟨e1, k1, f1, c1, t1⟩ hy1 hy2 b
      have h4 := id_ok k1 s
      rw [hy2]
      refine ⟨e1.trans h4.1, h4.2.1, id_fresh f1, by rw [c1]; exact hc, ?_, ?_, ?_, ?_, ?_⟩
      · exact ⟨hy1, t1.mono⟩
      · simp [Form.bnames]
      · simp [Form.binders]
      · intro i hi
        obtain ⟨n, a, b⟩ := t1.vars i (by simpa [Form.fvs] using hi)
        exact ⟨n, by simpa [PForm.fv] using a, h4.1.vars _ _ b⟩
      · intro i hi
        obtain ⟨s', b⟩ := t1.funs i (by simpa [Form.funs] using hi)
        exact ⟨s', h4.1.ids _ _ b⟩
    cases hp with
    | top =>
      simp only [elabN] at h; cases h
      exact ⟨Ext.refl m, hm, hf, hc, by simp [Form.mono], by simp [Form.bnames], by simp [Form.binders],
        by simp [Form.fvs], by simp [Form.funs]⟩
    | bot =>
      simp only [elabN] at h; cases h
      exact ⟨Ext.refl m, hm, hf, hc, by simp [Form.mono], by simp [Form.bnames], by simp [Form.binders],
        by simp [Form.fvs], by simp [Form.funs]⟩
    | @pred s args hs ha =>
      obtain ⟨tys, h1, h2, h3⟩ := pretype_fof hc args ha
      simp only [elabN, h1, Option.bind_some, Option.bind_eq_some_iff, Option.map_eq_some_iff] at h
      obtain ⟨x, hx, targs, htargs, y, hy, rfl⟩ := h
      have htargs' : targs = [] := by
        simp only [tyArgs, hs, Bool.false_eq_true, if_false, splitTys_fof tys args h3,
          Option.some.injEq] at htargs
        exact htargs.symm
      subst htargs'
      simp only [elabTyL, Option.some.injEq] at hy
      subst hy
      exact predCase s args tys x [] ([], (x.m.id s).2)
        (elabL_syn L args con m tys x hc ha hm hf h2 h3 hx) (by simp [Ty.monoL]) rfl _
    | @eq l r' hl hr =>
      have ha : ∀ a ∈ [l, r'], PTm.Fof V F a := by
        intro a h
        simp only [List.mem_cons, List.not_mem_nil, or_false] at h
        rcases h with rfl | rfl
        · exact hl
        · exact hr
      obtain ⟨tys, h1, h2, h3⟩ := pretype_fof hc _ ha
      obtain ⟨x', hx', hxc', _, hu⟩ := elabL_total L.defined _ con m tys hc ha h2 h3
      simp only [elabN, h1, Option.bind_some, Option.bind_eq_some_iff, Option.map_eq_some_iff] at h
      obtain ⟨x, hx, targs, htargs, y, hy, rfl⟩ := h
      rw [hx'] at hx
      cases hx
      obtain ⟨s, rfl⟩ := tyArgs_eq (by rw [hxc']; exact hc) ha hu h2 h3 htargs
      simp only [elabTyL, elabTy, Option.map_some, Option.bind_some, Option.some.injEq] at hy
      subst hy
      exact predCase "=" [l, r'] tys x' [.fn s []] ([.constr s []], (x'.m.id "=").2)
        (elabL_syn L _ con m tys x' hc ha hm hf h2 h3 hx') (by simp [Ty.monoL, Ty.mono]) rfl _
    | neg hp =>
      simp only [elabN, Option.map_eq_some_iff] at h
      obtain ⟨x, hx, rfl⟩ := h
      obtain ⟨e1, k1, f1, c1, t1⟩ := ih _ con m x hp hc hm hf hx
      exact ⟨e1, k1, f1, c1, by simpa [Form.mono] using t1.mono, by simpa [Form.bnames] using t1.names,
        by simpa [Form.binders] using t1.binders, by simpa [Form.fvs, PForm.fv] using t1.fvs,
        by simpa [Form.funs] using t1.funs⟩
    | @bin op l r' hl hr =>
      simp only [elabN, Option.bind_eq_some_iff, Option.map_eq_some_iff] at h
      obtain ⟨x, hx, f', hf', rfl⟩ := h
      obtain ⟨e1, k1, f1, c1, t1⟩ := elabSeq_syn ih (fr := (PForm.bin op l r').fv) _ con m x
        (fun g hg => ⟨(subForms_fof hl hr g hg).1, subForms_fv g hg⟩) hc hm hf hx
      exact ⟨e1, k1, f1, c1, mkBin_syn t1 hf'⟩
    | @all vs f hv hp =>
      simp only [elabN, Option.bind_eq_some_iff, Option.map_eq_some_iff] at h
      obtain ⟨q, hq, x, hx, rfl⟩ := h
      have h0 := pretypeVars_ok vs m q hm hq
      have h0' := pretypeVars_syn L vs m q hv hf hq
      obtain ⟨e1, k1, f1, c1, t1⟩ := ih _ _ _ x hp (hc.append L.disj hv) h0.2.1 h0'.1 hx
      exact ⟨h0.1.trans e1, k1, f1, c1, (FSyn.quant h0.2.2 e1 h0'.2 t1).1⟩
    | @ex vs f hv hp =>
      simp only [elabN, Option.bind_eq_some_iff] at h
      obtain ⟨q, hq, h⟩ := h
      split at h
      · cases h
      simp only [Option.map_eq_some_iff] at h
      obtain ⟨x, hx, rfl⟩ := h
      have h0 := pretypeVars_ok vs m q hm hq
      have h0' := pretypeVars_syn L vs m q hv hf hq
      obtain ⟨e1, k1, f1, c1, t1⟩ := ih _ _ _ x hp (hc.append L.disj hv) h0.2.1 h0'.1 hx
      exact ⟨h0.1.trans e1, k1, f1, c1, (FSyn.quant h0.2.2 e1 h0'.2 t1).2⟩

end

/-! ### Renaming and the tables -/

theorem renameVarsLoop_maker (vs : List TVar) (f : Form) (m : Maker) (hm : MOK m) :
    (renameVarsLoop vs f m).2.2.2.ids = m.ids ∧ MOK (renameVarsLoop vs f m).2.2.2 ∧
      m.cpt ≤ (renameVarsLoop vs f m).2.2.2.cpt := by
  induction vs generalizing f m with
  | nil => exact ⟨rfl, hm, Nat.le_refl _⟩
  | cons v vs ih =>
    simp only [renameVarsLoop]
    have h1 := newVar_ok hm v.name
    have h2 := var_ok h1 (v.name ++ toString (m.newVar v.name).1)
    have hids : ∀ (m : Maker) n, (m.var n).2.ids = m.ids := by
      intro m n; unfold Maker.var; split <;> rfl
    have hcpt : ∀ (m : Maker) n, m.cpt ≤ (m.var n).2.cpt := by
      intro m n; unfold Maker.var; split
      · exact Nat.le_refl _
      · exact Nat.le_succ _
    obtain ⟨a, b, c⟩ := ih _ _ h2.2.1
    refine ⟨a.trans ((hids _ _).trans rfl), b, ?_⟩
    refine Nat.le_trans ?_ c
    refine Nat.le_trans ?_ (hcpt _ _)
    exact Nat.le_succ _

mutual
theorem rename_maker : ∀ (f : Form) (m : Maker), MOK m →
    (f.rename m).2.ids = m.ids ∧ MOK (f.rename m).2 ∧ m.cpt ≤ (f.rename m).2.cpt
  | .pred _ _ _, m, hm => ⟨rfl, hm, Nat.le_refl _⟩
  | .top, m, hm => ⟨rfl, hm, Nat.le_refl _⟩
  | .bot, m, hm => ⟨rfl, hm, Nat.le_refl _⟩
  | .neg f, m, hm => by simp only [Form.rename]; exact rename_maker f m hm
  | .and fs, m, hm => by simp only [Form.rename]; exact renameL_maker fs m hm
  | .or fs, m, hm => by simp only [Form.rename]; exact renameL_maker fs m hm
  | .imp f g, m, hm => by
    simp only [Form.rename]
    have h1 := rename_maker f m hm
    have h2 := rename_maker g _ h1.2.1
    exact ⟨h2.1.trans h1.1, h2.2.1, Nat.le_trans h1.2.2 h2.2.2⟩
  | .equ f g, m, hm => by
    simp only [Form.rename]
    have h1 := rename_maker f m hm
    have h2 := rename_maker g _ h1.2.1
    exact ⟨h2.1.trans h1.1, h2.2.1, Nat.le_trans h1.2.2 h2.2.2⟩
  | .all vs f, m, hm => by
    simp only [Form.rename]
    have h1 := rename_maker f m hm
    have h2 := renameVarsLoop_maker vs (f.rename m).1 _ h1.2.1
    exact ⟨h2.1.trans h1.1, h2.2.1, Nat.le_trans h1.2.2 h2.2.2⟩
  | .ex vs f, m, hm => by
    simp only [Form.rename]
    have h1 := rename_maker f m hm
    have h2 := renameVarsLoop_maker vs (f.rename m).1 _ h1.2.1
    exact ⟨h2.1.trans h1.1, h2.2.1, Nat.le_trans h1.2.2 h2.2.2⟩
theorem renameL_maker : ∀ (fs : List Form) (m : Maker), MOK m →
    (Form.renameL fs m).2.ids = m.ids ∧ MOK (Form.renameL fs m).2 ∧ m.cpt ≤ (Form.renameL fs m).2.cpt
  | [], m, hm => ⟨rfl, hm, Nat.le_refl _⟩
  | f :: fs, m, hm => by
    simp only [Form.renameL]
    have h1 := rename_maker f m hm
    have h2 := renameL_maker fs _ h1.2.1
    exact ⟨h2.1.trans h1.1, h2.2.1, Nat.le_trans h1.2.2 h2.2.2⟩
end

end Verif.Engine
