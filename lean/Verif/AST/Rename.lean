import Verif.AST.ReplaceLemmas
import Verif.AST.Maker
/-!
# C17: renaming of bound variables (`RenameVariables`)
-/
set_option linter.unusedSimpArgs false

namespace Verif.AST

/-! ### Model -/

/-- Loop of `quantifier.renameVariables` (src/AST/quantifiers.go:159-170): new variables, pairs of
type variables, formula, maker. -/
def renameVarsLoop : List TVar → Form → Maker → List TVar × List (String × String) × Form × Maker
  | [], f, m => ([], [], f, m)
  | v :: vs, f, m =>
    let r1 := m.newVar v.name
    let name := v.name ++ toString r1.1
    let r2 := r1.2.var name
    let r := Form.replaceTermByTerm (.var v.index) (.var r2.1) f
    let f' := if r.2 then r.1 else r.1.substBound v.name (.bound name)
    let rest := renameVarsLoop vs f' r2.2
    (⟨name, r2.1, v.ty⟩ :: rest.1,
      (if r.2 then rest.2.1 else (v.name, name) :: rest.2.1), rest.2.2.1, rest.2.2.2)

/-- The final mapping of the types of the new variables (src/AST/quantifiers.go:174-181). -/
def substTVars (ps : List (String × String)) (vs : List TVar) : List TVar :=
  vs.map fun v => { v with ty := ps.foldl (fun t p => Ty.substBound p.1 (.bound p.2) t) v.ty }

mutual
/-- `RenameVariables` (src/AST/formsDef.go:116,171,275,399,504,619,732,845,1018,1046 and
quantifiers.go:154). -/
def Form.rename : Form → Maker → Form × Maker
  | .pred p tys args, m => (.pred p tys args, m)
  | .top, m => (.top, m)
  | .bot, m => (.bot, m)
  | .neg f, m => let r := Form.rename f m; (.neg r.1, r.2)
  | .and fs, m => let r := Form.renameL fs m; (.and r.1, r.2)
  | .or fs, m => let r := Form.renameL fs m; (.or r.1, r.2)
  | .imp f g, m =>
    let r := Form.rename f m
    let s := Form.rename g r.2
    (.imp r.1 s.1, s.2)
  | .equ f g, m =>
    let r := Form.rename f m
    let s := Form.rename g r.2
    (.equ r.1 s.1, s.2)
  | .all vs f, m =>
    let r := Form.rename f m
    let l := renameVarsLoop vs r.1 r.2
    (.all (substTVars l.2.1 l.1) l.2.2.1, l.2.2.2)
  | .ex vs f, m =>
    let r := Form.rename f m
    let l := renameVarsLoop vs r.1 r.2
    (.ex (substTVars l.2.1 l.1) l.2.2.1, l.2.2.2)
/-- `renameFormList` (src/AST/formula.go:147). -/
def Form.renameL : List Form → Maker → List Form × Maker
  | [], m => ([], m)
  | f :: fs, m =>
    let r := Form.rename f m
    let s := Form.renameL fs r.2
    (r.1 :: s.1, s.2)
end

/-! ### Formulas without type variables -/

mutual
/-- No bound type variable occurs in the type. -/
def Ty.mono : Ty → Prop
  | .var _ => True
  | .bound _ => False
  | .mv _ _ => True
  | .constr _ l => Ty.monoL l
  | .prod l => Ty.monoL l
  | .func a b => Ty.mono a ∧ Ty.mono b
  | .pi _ t => Ty.mono t
def Ty.monoL : List Ty → Prop
  | [] => True
  | a :: l => Ty.mono a ∧ Ty.monoL l
end

mutual
/-- No bound type variable occurs in the term. -/
def Term.mono : Term → Prop
  | .var _ => True
  | .mv _ => True
  | .fn _ tys args => Ty.monoL tys ∧ Term.monoL args
def Term.monoL : List Term → Prop
  | [] => True
  | a :: l => Term.mono a ∧ Term.monoL l
end

mutual
/-- No bound type variable occurs in the atoms of the formula. -/
def Form.mono : Form → Prop
  | .pred _ tys args => Ty.monoL tys ∧ Term.monoL args
  | .top => True
  | .bot => True
  | .neg f => Form.mono f
  | .and fs => Form.monoL fs
  | .or fs => Form.monoL fs
  | .imp f g => Form.mono f ∧ Form.mono g
  | .equ f g => Form.mono f ∧ Form.mono g
  | .all vs f => (∀ v ∈ vs, v.ty.mono) ∧ Form.mono f
  | .ex vs f => (∀ v ∈ vs, v.ty.mono) ∧ Form.mono f
def Form.monoL : List Form → Prop
  | [] => True
  | a :: l => Form.mono a ∧ Form.monoL l
end

theorem Ty.monoL_iff {l : List Ty} : Ty.monoL l ↔ ∀ a ∈ l, a.mono := by
  induction l with
  | nil => simp [Ty.monoL]
  | cons a l ih => simp [Ty.monoL, ih]
theorem Term.monoL_iff {l : List Term} : Term.monoL l ↔ ∀ a ∈ l, a.mono := by
  induction l with
  | nil => simp [Term.monoL]
  | cons a l ih => simp [Term.monoL, ih]
theorem Form.monoL_iff {l : List Form} : Form.monoL l ↔ ∀ a ∈ l, a.mono := by
  induction l with
  | nil => simp [Form.monoL]
  | cons a l ih => simp [Form.monoL, ih]

mutual
theorem Ty.substBound_mono (n : String) (new : Ty) : ∀ t : Ty, t.mono → Ty.substBound n new t = t
  | .var _, _ => rfl
  | .bound _, h => absurd h (by simp [Ty.mono])
  | .mv _ _, _ => rfl
  | .constr _ l, h => by simp only [Ty.substBound]; rw [Ty.substBoundL_mono n new l h]
  | .prod l, h => by simp only [Ty.substBound]; rw [Ty.substBoundL_mono n new l h]
  | .func a b, h => by
    simp only [Ty.substBound]; rw [Ty.substBound_mono n new a h.1, Ty.substBound_mono n new b h.2]
  | .pi _ t, h => by simp only [Ty.substBound]; rw [Ty.substBound_mono n new t h]
theorem Ty.substBoundL_mono (n : String) (new : Ty) : ∀ l : List Ty, Ty.monoL l → Ty.substBoundL n new l = l
  | [], _ => rfl
  | a :: l, h => by
    simp only [Ty.substBoundL]; rw [Ty.substBound_mono n new a h.1, Ty.substBoundL_mono n new l h.2]
end

mutual
theorem Term.substBound_mono (n : String) (new : Ty) : ∀ t : Term, t.mono → t.substBound n new = t
  | .var _, _ => rfl
  | .mv _, _ => rfl
  | .fn _ tys l, h => by
    simp only [Term.substBound]; rw [Ty.substBoundL_mono n new tys h.1, Term.substBoundL_mono n new l h.2]
theorem Term.substBoundL_mono (n : String) (new : Ty) :
    ∀ l : List Term, Term.monoL l → Term.substBoundL n new l = l
  | [], _ => rfl
  | a :: l, h => by
    simp only [Term.substBoundL]
    rw [Term.substBound_mono n new a h.1, Term.substBoundL_mono n new l h.2]
end

theorem tvars_mono {n : String} {new : Ty} {vs : List TVar} (h : ∀ v ∈ vs, v.ty.mono) :
    (vs.map fun v => { v with ty := Ty.substBound n new v.ty }) = vs := by
  conv => rhs; rw [← List.map_id vs]
  apply List.map_congr_left
  intro v hv
  simp [Ty.substBound_mono n new v.ty (h v hv)]

mutual
theorem Form.substBound_mono (n : String) (new : Ty) : ∀ f : Form, f.mono → f.substBound n new = f
  | .pred _ tys l, h => by
    simp only [Form.substBound]; rw [Ty.substBoundL_mono n new tys h.1, Term.substBoundL_mono n new l h.2]
  | .top, _ => rfl
  | .bot, _ => rfl
  | .neg f, h => by simp only [Form.substBound]; rw [Form.substBound_mono n new f h]
  | .and l, h => by simp only [Form.substBound]; rw [Form.substBoundL_mono n new l h]
  | .or l, h => by simp only [Form.substBound]; rw [Form.substBoundL_mono n new l h]
  | .imp a b, h => by
    simp only [Form.substBound]; rw [Form.substBound_mono n new a h.1, Form.substBound_mono n new b h.2]
  | .equ a b, h => by
    simp only [Form.substBound]; rw [Form.substBound_mono n new a h.1, Form.substBound_mono n new b h.2]
  | .all vs f, h => by
    simp only [Form.substBound]; rw [Form.substBound_mono n new f h.2, tvars_mono h.1]
  | .ex vs f, h => by
    simp only [Form.substBound]; rw [Form.substBound_mono n new f h.2, tvars_mono h.1]
theorem Form.substBoundL_mono (n : String) (new : Ty) :
    ∀ l : List Form, Form.monoL l → Form.substBoundL n new l = l
  | [], _ => rfl
  | a :: l, h => by
    simp only [Form.substBoundL]
    rw [Form.substBound_mono n new a h.1, Form.substBoundL_mono n new l h.2]
end

theorem replT_mono {x y : Nat} {t : Term} (h : t.mono) : (replT (.var x) (.var y) t).1.mono := by
  induction t using Term.ind with
  | var j => rw [replT_var_fst]; split <;> simp [Term.mono]
  | mv j => by_cases e : Term.var x = .var y <;> simp [replT, e, Term.mono]
  | fn p tys args ih =>
    rw [replT_fn_fst]
    split
    · simp [Term.mono]
    · simp only [Term.mono, Term.monoL_iff, List.forall_mem_map] at h ⊢
      exact ⟨h.1, fun a ha => ih a ha (h.2 a ha)⟩

theorem Form.replaceTermByTerm_mono {x y : Nat} {f : Form} (h : f.mono) :
    (Form.replaceTermByTerm (.var x) (.var y) f).1.mono := by
  induction f using Form.ind with
  | pred p tys args =>
    simp only [Form.mono, Form.replaceTermByTerm, replTL_fst, Term.monoL_iff, List.forall_mem_map] at h ⊢
    exact ⟨h.1, fun a ha => replT_mono (h.2 a ha)⟩
  | top => trivial
  | bot => trivial
  | neg f ih => exact ih h
  | and fs ih =>
    simp only [Form.mono, Form.replaceTermByTerm, Form.replaceTermByTermL_fst, Form.monoL_iff,
      List.forall_mem_map] at h ⊢
    exact fun f hf => ih f hf (h f hf)
  | or fs ih =>
    simp only [Form.mono, Form.replaceTermByTerm, Form.replaceTermByTermL_fst, Form.monoL_iff,
      List.forall_mem_map] at h ⊢
    exact fun f hf => ih f hf (h f hf)
  | imp f g ihf ihg => exact ⟨ihf h.1, ihg h.2⟩
  | equ f g ihf ihg => exact ⟨ihf h.1, ihg h.2⟩
  | all vs f ih => exact ⟨h.1, ih h.2⟩
  | ex vs f ih => exact ⟨h.1, ih h.2⟩

/-! ### Quantification over a list of variables, in one go -/

section
variable {D : Type u}

theorem forallVars_iff {P : (Nat → D) → Prop} {vs : List TVar} {ρ : Nat → D} :
    forallVars P vs ρ ↔ ∀ ρ', (∀ i, i ∉ vs.map TVar.index → ρ' i = ρ i) → P ρ' := by
  induction vs generalizing ρ with
  | nil =>
    simp only [forallVars, List.map_nil, List.not_mem_nil, not_false_eq_true, true_imp_iff]
    constructor
    · intro h ρ' e; rw [show ρ' = ρ from funext e]; exact h
    · intro h; exact h ρ (fun _ => rfl)
  | cons v vs ih =>
    simp only [forallVars, ih, List.map_cons, List.mem_cons, not_or]
    constructor
    · intro h ρ' e
      refine h (ρ' v.index) ρ' (fun i hi => ?_)
      by_cases hv : i = v.index
      · subst hv; simp [upd]
      · simp [upd, hv, e i ⟨hv, hi⟩]
    · intro h d ρ' e
      refine h ρ' (fun i hi => ?_)
      rw [e i hi.2]; simp [upd, hi.1]

theorem existsVars_iff {P : (Nat → D) → Prop} {vs : List TVar} {ρ : Nat → D} :
    existsVars P vs ρ ↔ ∃ ρ', (∀ i, i ∉ vs.map TVar.index → ρ' i = ρ i) ∧ P ρ' := by
  have h := @existsVars_not D P vs ρ
  rw [forallVars_iff] at h
  constructor
  · intro hp
    apply Classical.byContradiction
    intro hn
    exact h.2 (fun ρ' e hP => hn ⟨ρ', e, hP⟩) hp
  · rintro ⟨ρ', e, hP⟩
    apply Classical.byContradiction
    intro hn
    exact h.1 hn ρ' e hP

end

/-! ### Freshness of generated names -/

/-- The name does not end with a digit. -/
def NoDigitEnd (s : String) : Prop := ∀ c, s.toList.getLast? = some c → c.isDigit = false

/-- No name made of a digit-free-ending prefix followed by a number at least `cpt` is taken. -/
def Maker.NamesFresh (m : Maker) : Prop :=
  ∀ s i, NoDigitEnd s → m.cpt ≤ i → m.vars (s ++ toString i) = none

theorem takeWhile_reverse_append {A D : List Char} (hA : ∀ c, A.getLast? = some c → c.isDigit = false)
    (hD : ∀ c ∈ D, c.isDigit = true) : (A ++ D).reverse.takeWhile Char.isDigit = D.reverse := by
  rw [List.reverse_append, List.takeWhile_append_of_pos (by simpa using hD)]
  cases h : A.reverse with
  | nil => simp
  | cons c l =>
    have : A.getLast? = some c := by
      rw [← List.head?_reverse, h]; rfl
    simp [List.takeWhile, hA c this]

theorem name_number_inj {a b : String} {i j : Nat} (ha : NoDigitEnd a) (hb : NoDigitEnd b)
    (h : a ++ toString i = b ++ toString j) : i = j := by
  have h' := congrArg String.toList h
  simp only [String.toList_append] at h'
  have hd : ∀ n : Nat, (toString n).toList = Nat.toDigits 10 n := fun n => Nat.toList_repr
  rw [hd, hd] at h'
  have hdig : ∀ n, ∀ c ∈ Nat.toDigits 10 n, c.isDigit = true := fun n c hc =>
    Nat.isDigit_of_mem_toDigits (by omega) (by omega) hc
  have := congrArg (fun l => (l.reverse.takeWhile Char.isDigit).reverse) h'
  simp only [takeWhile_reverse_append ha (hdig i), takeWhile_reverse_append hb (hdig j),
    List.reverse_reverse] at this
  rw [← Nat.ofDigitChars_ten_toDigits (n := i), ← Nat.ofDigitChars_ten_toDigits (n := j), this]

theorem noDigitEnd_ne_number {a b : String} {i : Nat} (ha : NoDigitEnd a) : a ≠ b ++ toString i := by
  intro h
  have h' := congrArg (fun s : String => s.toList.getLast?) h
  simp only [String.toList_append] at h'
  have hd : (toString i).toList = Nat.toDigits 10 i := Nat.toList_repr
  rw [hd, List.getLast?_append] at h'
  cases hl : (Nat.toDigits 10 i).getLast? with
  | none => exact Nat.toDigits_ne_nil (List.getLast?_eq_none_iff.1 hl)
  | some c =>
    have hc : c.isDigit = true :=
      Nat.isDigit_of_mem_toDigits (by omega) (by omega) (List.mem_of_getLast? hl)
    rw [hl] at h'
    rw [ha c (by simpa using h')] at hc
    cases hc

/-- The two calls made for one variable. -/
theorem makeFresh {m : Maker} {s : String} (hm : m.NamesFresh) (hs : NoDigitEnd s) :
    (m.newVar s).1 = m.cpt ∧
    ((m.newVar s).2.var (s ++ toString (m.newVar s).1)).1 = m.cpt + 1 ∧
    ((m.newVar s).2.var (s ++ toString (m.newVar s).1)).2.cpt = m.cpt + 2 ∧
    ((m.newVar s).2.var (s ++ toString (m.newVar s).1)).2.NamesFresh := by
  have h0 : (m.newVar s).2.vars (s ++ toString m.cpt) = none := by
    simp only [Maker.newVar, setKey]
    rw [if_neg (Ne.symm (noDigitEnd_ne_number hs))]
    exact hm s m.cpt hs (Nat.le_refl _)
  have h1 : (m.newVar s).2.var (s ++ toString (m.newVar s).1) =
      (m.newVar s).2.newVar (s ++ toString m.cpt) := by
    rw [Maker.var]
    show (match (m.newVar s).2.vars (s ++ toString m.cpt) with
      | some i => (i, (m.newVar s).2)
      | none => (m.newVar s).2.newVar (s ++ toString m.cpt)) = _
    rw [h0]
  refine ⟨rfl, ?_, ?_, ?_⟩
  · rw [h1]; rfl
  · rw [h1]; rfl
  · rw [h1]
    intro a i ha hi
    simp only [Maker.newVar, setKey] at hi ⊢
    have e1 : a ++ toString i ≠ s ++ toString m.cpt := by
      intro e; have := name_number_inj ha hs e; omega
    have e2 : a ++ toString i ≠ s := Ne.symm (noDigitEnd_ne_number hs)
    rw [if_neg e1, if_neg e2]
    exact hm a i ha (by omega)

/-! ### The loop over the variables of one quantifier -/

theorem mono_ite {f : Form} {b : Bool} {n : String} {new : Ty} (h : f.mono) :
    (if b then f else f.substBound n new) = f := by
  cases b
  · simp [Form.substBound_mono n new f h]
  · rfl

theorem renameVarsLoop_cons {v : TVar} {vs : List TVar} {f : Form} {m : Maker} (hf : f.mono)
    (hm : m.NamesFresh) (hs : NoDigitEnd v.name) :
    ∃ m', m'.cpt = m.cpt + 2 ∧ m'.NamesFresh ∧
      (renameVarsLoop (v :: vs) f m).1 =
        ⟨v.name ++ toString m.cpt, m.cpt + 1, v.ty⟩ ::
          (renameVarsLoop vs (Form.replaceTermByTerm (.var v.index) (.var (m.cpt + 1)) f).1 m').1 ∧
      (renameVarsLoop (v :: vs) f m).2.2 =
        (renameVarsLoop vs (Form.replaceTermByTerm (.var v.index) (.var (m.cpt + 1)) f).1 m').2.2 := by
  obtain ⟨h1, h2, h3, h4⟩ := makeFresh hm hs
  refine ⟨_, h3, h4, ?_, ?_⟩
  · simp only [renameVarsLoop]
    rw [mono_ite (Form.replaceTermByTerm_mono hf), h2, h1]
  · simp only [renameVarsLoop]
    rw [mono_ite (Form.replaceTermByTerm_mono hf), h2]

/-- What is known after renaming. -/
structure LoopSpec (vs : List TVar) (f : Form) (m : Maker) (vs' : List TVar) (f' : Form) (m' : Maker) :
    Prop where
  mono : f'.mono
  names : m'.NamesFresh
  cpt : m.cpt ≤ m'.cpt
  range : ∀ i ∈ vs'.map TVar.index, m.cpt ≤ i ∧ i < m'.cpt
  nodup : (vs'.map TVar.index).Nodup
  tys : vs'.map TVar.ty = vs.map TVar.ty
  binders : f'.binders = f.binders
  funs : ∀ i ∈ f'.funs, i ∈ f.funs
  metas : ∀ i ∈ f'.metas, i ∈ f.metas
  fvs : ∀ i ∈ f'.fvs, (i ∈ f.fvs ∧ i ∉ vs.map TVar.index) ∨ i ∈ vs'.map TVar.index
  all : ∀ {D : Type u} (I : Interp D) (ρ μ : Nat → D),
    Form.holds I μ ρ (.all vs' f') ↔ Form.holds I μ ρ (.all vs f)
  ex : ∀ {D : Type u} (I : Interp D) (ρ μ : Nat → D),
    Form.holds I μ ρ (.ex vs' f') ↔ Form.holds I μ ρ (.ex vs f)

theorem renameVarsLoop_spec (vs : List TVar) (f : Form) (m : Maker) (hf : f.mono)
    (hm : m.NamesFresh) (hs : ∀ v ∈ vs, NoDigitEnd v.name)
    (hb : ∀ i ∈ f.binders, i < m.cpt) (hv : ∀ i ∈ f.fvs, i < m.cpt)
    (hvs : ∀ v ∈ vs, v.index < m.cpt ∧ v.index ∉ f.binders ∧ v.index ∉ f.funs) :
    LoopSpec.{u} vs f m (renameVarsLoop vs f m).1 (renameVarsLoop vs f m).2.2.1
      (renameVarsLoop vs f m).2.2.2 := by
  induction vs generalizing f m with
  | nil =>
    exact ⟨hf, hm, Nat.le_refl _, by simp [renameVarsLoop], by simp [renameVarsLoop], rfl, rfl,
      fun _ h => h, fun _ h => h, fun i h => Or.inl ⟨h, by simp⟩, fun _ _ _ => Iff.rfl,
      fun _ _ _ => Iff.rfl⟩
  | cons v vs ih =>
    obtain ⟨m1, hc, hn, e1, e2⟩ := renameVarsLoop_cons (vs := vs) hf hm (hs v (by simp))
    obtain ⟨hv1, hv2, hv3⟩ := hvs v (by simp)
    have hne : (Term.var (m.cpt + 1)) ≠ .var v.index := by simp; omega
    have hvars : ∀ i ∈ (Form.replaceTermByTerm (.var v.index) (.var (m.cpt + 1)) f).1.fvs,
        (i ∈ f.fvs ∧ i ≠ v.index) ∨ i = m.cpt + 1 := by
      intro i hi
      rcases Form.replaceTermByTerm_fvs _ _ hne hi with h | h
      · exact Or.inl h
      · exact Or.inr (by simpa [Term.vars] using h)
    have hfuns : ∀ i ∈ (Form.replaceTermByTerm (.var v.index) (.var (m.cpt + 1)) f).1.funs,
        i ∈ f.funs := by
      intro i hi
      rcases Form.replaceTermByTerm_funs _ _ hne hi with h | h
      · exact h
      · simp [Term.funs] at h
    have hmetas : ∀ i ∈ (Form.replaceTermByTerm (.var v.index) (.var (m.cpt + 1)) f).1.metas,
        i ∈ f.metas := by
      intro i hi
      rcases Form.replaceTermByTerm_metas _ _ hne hi with h | h
      · exact h
      · simp [Term.metas] at h
    have IH := ih (Form.replaceTermByTerm (.var v.index) (.var (m.cpt + 1)) f).1 m1
      (Form.replaceTermByTerm_mono hf) hn (fun w hw => hs w (by simp [hw]))
      (fun i hi => by rw [Form.binders_replaceTermByTerm] at hi; have := hb i hi; omega)
      (fun i hi => by rcases hvars i hi with h | h
                      · have := hv i h.1; omega
                      · omega)
      (fun w hw => by
        obtain ⟨a, b, c⟩ := hvs w (by simp [hw])
        refine ⟨by omega, by rw [Form.binders_replaceTermByTerm]; exact b, fun h => c (hfuns _ h)⟩)
    have hyfvs : m.cpt + 1 ∉ f.fvs := fun h => by have := hv _ h; omega
    have hyb : ∀ i ∈ (Term.var (m.cpt + 1)).vars, i ∉ f.binders := by
      intro i hi h
      simp [Term.vars] at hi
      have := hb _ h; omega
    have hyvs : m.cpt + 1 ∉ vs.map TVar.index := by
      intro h
      obtain ⟨w, hw, e⟩ := List.mem_map.1 h
      have := (hvs w (by simp [hw])).1; omega
    have hyv : m.cpt + 1 ≠ v.index := by omega
    have key : ∀ {D : Type u} (I : Interp D) (ρ μ : Nat → D),
        Form.holds I μ ρ (Form.replaceTermByTerm (.var v.index) (.var (m.cpt + 1)) f).1 ↔
          Form.holds I μ (upd ρ v.index (ρ (m.cpt + 1))) f := by
      intro D I ρ μ
      rw [holds_replaceTermByTerm hv3 hv2 hne hyb]
      simp [Term.eval]
    refine ⟨by rw [e2]; exact IH.mono, by rw [e2]; exact IH.names, by rw [e2]; have := IH.cpt; omega,
      ?_, ?_, ?_, ?_, ?_, ?_, ?_, ?_, ?_⟩
    · rw [e1, e2]
      intro i hi
      simp only [List.map_cons, List.mem_cons] at hi
      have hcc := IH.cpt
      rcases hi with rfl | hi
      · exact ⟨by omega, by omega⟩
      · have := IH.range i hi; omega
    · rw [e1]
      simp only [List.map_cons, List.nodup_cons]
      refine ⟨fun h => ?_, IH.nodup⟩
      have := (IH.range _ h).1; omega
    · rw [e1]; simp [IH.tys]
    · rw [e2, IH.binders, Form.binders_replaceTermByTerm]
    · rw [e2]; exact fun i hi => hfuns i (IH.funs i hi)
    · rw [e2]; exact fun i hi => hmetas i (IH.metas i hi)
    · rw [e1, e2]
      intro i hi
      simp only [List.map_cons, List.mem_cons, not_or]
      rcases IH.fvs i hi with ⟨h1, h2⟩ | h
      · rcases hvars i h1 with h | h
        · exact Or.inl ⟨h.1, h.2, h2⟩
        · exact Or.inr (Or.inl h)
      · exact Or.inr (Or.inr h)
    · intro D I ρ μ
      rw [e1, e2, Form.holds_all_cons, Form.holds_all_cons]
      simp only [IH.all]
      simp only [Form.holds_all, forallVars_iff, key]
      constructor
      · intro h d ρ' e
        have := h (ρ' v.index) (upd (upd ρ' v.index (ρ v.index)) (m.cpt + 1) (ρ' v.index)) ?_
        · refine (Form.holds_congr (fun i hi => ?_) (fun _ _ => rfl) (fun _ _ => rfl) rfl).1 this
          have hiy : i ≠ m.cpt + 1 := fun e => hyfvs (e ▸ hi)
          by_cases hiv : i = v.index
          · subst hiv; simp [upd]
          · simp [upd, hiv, hiy]
        · intro i hi
          by_cases hiy : i = m.cpt + 1
          · subst hiy; simp [upd]
          · by_cases hiv : i = v.index
            · subst hiv; simp [upd, Ne.symm hyv]
            · rw [upd_other _ _ hiy, upd_other _ _ hiv, upd_other _ _ hiy, e i hi, upd_other _ _ hiv]
      · intro h d ρ' e
        have hy : ρ' (m.cpt + 1) = d := by rw [e _ hyvs]; simp [upd]
        have := h d (upd (upd ρ' v.index d) (m.cpt + 1) (ρ (m.cpt + 1))) ?_
        · refine (Form.holds_congr (fun i hi => ?_) (fun _ _ => rfl) (fun _ _ => rfl) rfl).1 this
          have hiy : i ≠ m.cpt + 1 := fun e => hyfvs (e ▸ hi)
          simp [upd, hiy, hy]
        · intro i hi
          by_cases hiy : i = m.cpt + 1
          · subst hiy; simp [upd, hyv]
          · by_cases hiv : i = v.index
            · subst hiv; simp [upd, Ne.symm hyv]
            · rw [upd_other _ _ hiy, upd_other _ _ hiv, upd_other _ _ hiv, e i hi, upd_other _ _ hiy]
    · intro D I ρ μ
      rw [e1, e2, Form.holds_ex_cons, Form.holds_ex_cons]
      simp only [IH.ex]
      simp only [Form.holds_ex, existsVars_iff, key]
      constructor
      · rintro ⟨d, ρ', e, h⟩
        have hy : ρ' (m.cpt + 1) = d := by rw [e _ hyvs]; simp [upd]
        refine ⟨d, upd (upd ρ' v.index d) (m.cpt + 1) (ρ (m.cpt + 1)), ?_, ?_⟩
        · intro i hi
          by_cases hiy : i = m.cpt + 1
          · subst hiy; simp [upd, hyv]
          · by_cases hiv : i = v.index
            · subst hiv; simp [upd, Ne.symm hyv]
            · rw [upd_other _ _ hiy, upd_other _ _ hiv, upd_other _ _ hiv, e i hi, upd_other _ _ hiy]
        · refine (Form.holds_congr (fun i hi => ?_) (fun _ _ => rfl) (fun _ _ => rfl) rfl).1 h
          have hiy : i ≠ m.cpt + 1 := fun e => hyfvs (e ▸ hi)
          simp [upd, hiy, hy]
      · rintro ⟨d, ρ', e, h⟩
        refine ⟨ρ' v.index, upd (upd ρ' v.index (ρ v.index)) (m.cpt + 1) (ρ' v.index), ?_, ?_⟩
        · intro i hi
          by_cases hiy : i = m.cpt + 1
          · subst hiy; simp [upd]
          · by_cases hiv : i = v.index
            · subst hiv; simp [upd, Ne.symm hyv]
            · rw [upd_other _ _ hiy, upd_other _ _ hiv, upd_other _ _ hiy, e i hi, upd_other _ _ hiv]
        · refine (Form.holds_congr (fun i hi => ?_) (fun _ _ => rfl) (fun _ _ => rfl) rfl).1 h
          have hiy : i ≠ m.cpt + 1 := fun e => hyfvs (e ▸ hi)
          by_cases hiv : i = v.index
          · subst hiv; simp [upd]
          · simp [upd, hiv, hiy]

end Verif.AST
