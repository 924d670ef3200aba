import Verif.Engine.ProblemProps
import Verif.Search.MainGround
/-!
# Problems without variables and equality: the formula searched

The formula that is made of a problem without quantifiers, variables and equality, in which each symbol has one
arity, is one for which the search decides (`Verif.Search.Main`): the elaboration adds no types, keeps the arities and
makes no empty connective.
-/

namespace Verif.Engine
open Verif.AST

/-! ### Problems (specification) -/

mutual
/-- A term without variables whose symbols are the user's and have the arity `ar`. -/
def PTm.Ground (ar : String → Nat) : PTm → Prop
  | .var _ => False
  | .fn s args ty => UserName s ∧ ty = none ∧ args.length = ar s ∧ PTm.GroundL ar args
def PTm.GroundL (ar : String → Nat) : List PTm → Prop
  | [] => True
  | a :: l => PTm.Ground ar a ∧ PTm.GroundL ar l
end

/-- A formula without quantifiers, variables and equality. -/
def WForm.Ground (ar : String → Nat) : WForm → Prop
  | .top => True
  | .bot => True
  | .atom s args => UserName s ∧ args.length = ar s ∧ PTm.GroundL ar args
  | .eq _ _ => False
  | .neq _ _ => False
  | .not f => f.Ground ar
  | .and l r => l.Ground ar ∧ r.Ground ar
  | .or l r => l.Ground ar ∧ r.Ground ar
  | .imp l r => l.Ground ar ∧ r.Ground ar
  | .rimp l r => l.Ground ar ∧ r.Ground ar
  | .iff l r => l.Ground ar ∧ r.Ground ar
  | .xor l r => l.Ground ar ∧ r.Ground ar
  | .nor l r => l.Ground ar ∧ r.Ground ar
  | .nand l r => l.Ground ar ∧ r.Ground ar
  | .all _ _ => False
  | .ex _ _ => False

/-- A problem of such formulas, spread over files included as a whole. -/
inductive PStmt.Ground (ar : String → Nat) : PStmt → Prop
  | incl {file} : (∀ s ∈ file, PStmt.Ground ar s) → PStmt.Ground ar (.incl none file)
  | form {n role w} : (role = .ax ∨ role = .conj ∨ role = .negConj) → WForm.Ground ar w → PStmt.Ground ar (.form n role w)

/-! ### They are untyped problems -/

abbrev NoVar : String → Prop := fun _ => False

theorem user_defined {s : String} (h : UserName s) : isDefined s = false := by
  cases hd : isDefined s with
  | false => rfl
  | true =>
    refine absurd ?_ h
    simp only [isDefined, List.any_eq_true, beq_iff_eq] at hd
    obtain ⟨e, he, rfl⟩ := hd
    simp only [initialContext, List.map_append, List.map_map, List.mem_append]
    exact .inr (List.mem_map.2 ⟨e, he, rfl⟩)

theorem user_ne_eq {s : String} (h : UserName s) : s ≠ "=" := by
  rintro rfl
  exact absurd h (by unfold UserName; decide)

theorem lexNone : Lex NoVar UserName := ⟨fun _ h => user_defined h, fun _ h => h.elim, fun _ h => h.elim⟩

variable {ar : String → Nat}

theorem PTm.groundL_iff {l : List PTm} : PTm.GroundL ar l ↔ ∀ a ∈ l, PTm.Ground ar a := by
  induction l with
  | nil => simp [PTm.GroundL]
  | cons a l ih => simp [PTm.GroundL, ih]

mutual
theorem PTm.ground_fof : ∀ (t : PTm), t.Ground ar → t.Fof NoVar UserName ∧ t.fv = []
  | .var _, h => h.elim
  | .fn s args ty, h => by
    obtain ⟨h1, rfl, _, h3⟩ := h
    have := PTm.groundL_fof args h3
    exact ⟨.fn h1 this.1, this.2⟩
theorem PTm.groundL_fof : ∀ (l : List PTm), PTm.GroundL ar l → (∀ a ∈ l, a.Fof NoVar UserName) ∧ PTm.fvL l = []
  | [], _ => ⟨by simp, rfl⟩
  | a :: l, h => by
    have h1 := PTm.ground_fof a h.1
    have h2 := PTm.groundL_fof l h.2
    refine ⟨?_, by simp [PTm.fvL, h1.2, h2.2]⟩
    intro b hb
    rcases List.mem_cons.1 hb with rfl | hb
    · exact h1.1
    · exact h2.1 b hb
end

theorem WForm.ground_fof (w : WForm) (h : w.Ground ar) : w.Fof NoVar UserName ∧ w.AllI ∧ w.fv = [] := by
  induction w with
  | top => exact ⟨.top, trivial, rfl⟩
  | bot => exact ⟨.bot, trivial, rfl⟩
  | atom s args =>
    have := PTm.groundL_fof args h.2.2
    exact ⟨.atom (user_defined h.1) this.1, trivial, this.2⟩
  | eq => exact h.elim
  | neq => exact h.elim
  | all => exact h.elim
  | ex => exact h.elim
  | not f ih => exact ⟨.not (ih h).1, (ih h).2.1, (ih h).2.2⟩
  | and l r il ir =>
    exact ⟨.and (il h.1).1 (ir h.2).1, ⟨(il h.1).2.1, (ir h.2).2.1⟩, by simp [WForm.fv, (il h.1).2.2, (ir h.2).2.2]⟩
  | or l r il ir =>
    exact ⟨.or (il h.1).1 (ir h.2).1, ⟨(il h.1).2.1, (ir h.2).2.1⟩, by simp [WForm.fv, (il h.1).2.2, (ir h.2).2.2]⟩
  | imp l r il ir =>
    exact ⟨.imp (il h.1).1 (ir h.2).1, ⟨(il h.1).2.1, (ir h.2).2.1⟩, by simp [WForm.fv, (il h.1).2.2, (ir h.2).2.2]⟩
  | rimp l r il ir =>
    exact ⟨.rimp (il h.1).1 (ir h.2).1, ⟨(il h.1).2.1, (ir h.2).2.1⟩, by simp [WForm.fv, (il h.1).2.2, (ir h.2).2.2]⟩
  | iff l r il ir =>
    exact ⟨.iff (il h.1).1 (ir h.2).1, ⟨(il h.1).2.1, (ir h.2).2.1⟩, by simp [WForm.fv, (il h.1).2.2, (ir h.2).2.2]⟩
  | xor l r il ir =>
    exact ⟨.xor (il h.1).1 (ir h.2).1, ⟨(il h.1).2.1, (ir h.2).2.1⟩, by simp [WForm.fv, (il h.1).2.2, (ir h.2).2.2]⟩
  | nor l r il ir =>
    exact ⟨.nor (il h.1).1 (ir h.2).1, ⟨(il h.1).2.1, (ir h.2).2.1⟩, by simp [WForm.fv, (il h.1).2.2, (ir h.2).2.2]⟩
  | nand l r il ir =>
    exact ⟨.nand (il h.1).1 (ir h.2).1, ⟨(il h.1).2.1, (ir h.2).2.1⟩, by simp [WForm.fv, (il h.1).2.2, (ir h.2).2.2]⟩

theorem PStmt.ground_fof {s : PStmt} (h : PStmt.Ground ar s) : PStmt.Fof NoVar UserName s := by
  induction h with
  | incl _ ih => exact .incl ih
  | form hr hw =>
    have := WForm.ground_fof _ hw
    exact .form hr this.1 this.2.1 (by simp [this.2.2])

/-- The parsed counterpart. -/
def PForm.Ground (ar : String → Nat) : PForm → Prop
  | .top => True
  | .bot => True
  | .pred s args => UserName s ∧ args.length = ar s ∧ PTm.GroundL ar args
  | .neg f => f.Ground ar
  | .bin _ l r => l.Ground ar ∧ r.Ground ar
  | .all _ _ => False
  | .ex _ _ => False

theorem parse_ground (w : WForm) (h : w.Ground ar) : w.parse.Ground ar := by
  induction w with
  | top => trivial
  | bot => trivial
  | atom => exact h
  | eq => exact h.elim
  | neq => exact h.elim
  | all => exact h.elim
  | ex => exact h.elim
  | not f ih => exact ih h
  | _ l r il ir =>
    have h1 := il h.1
    have h2 := ir h.2
    simp [WForm.parse, mkPRevImp, mkPXor, mkPNotOr, mkPNotAnd, PForm.Ground, h1, h2]

theorem PForm.ground_fof (f : PForm) (h : f.Ground ar) : f.Fof NoVar UserName := by
  induction f with
  | top => exact .top
  | bot => exact .bot
  | pred s args => exact .pred (user_defined h.1) (PTm.groundL_fof args h.2.2).1
  | neg f ih => exact .neg (ih h)
  | bin op l r il ir => exact .bin (il h.1) (ir h.2)
  | all => exact h.elim
  | ex => exact h.elim

/-! ### The elaborated formulas -/

mutual
/-- A term without variables whose symbols have the arity of their names. -/
def GTm (ar : String → Nat) (m : Maker) : Term → Prop
  | .var _ => False
  | .mv _ => False
  | .fn p tys args => tys = [] ∧ (∃ s, m.ids s = some p ∧ args.length = ar s) ∧ GTmL ar m args
def GTmL (ar : String → Nat) (m : Maker) : List Term → Prop
  | [] => True
  | t :: l => GTm ar m t ∧ GTmL ar m l
end

mutual
/-- The same for formulas; no predicate is the equality, no connective is empty. -/
def GFm (ar : String → Nat) (m : Maker) : Form → Prop
  | .pred p tys args => tys = [] ∧ (∃ s, s ≠ "=" ∧ m.ids s = some p ∧ args.length = ar s) ∧ GTmL ar m args
  | .top => True
  | .bot => True
  | .neg f => GFm ar m f
  | .and fs => fs ≠ [] ∧ GFmL ar m fs
  | .or fs => fs ≠ [] ∧ GFmL ar m fs
  | .imp f g => GFm ar m f ∧ GFm ar m g
  | .equ f g => GFm ar m f ∧ GFm ar m g
  | .all _ _ => False
  | .ex _ _ => False
def GFmL (ar : String → Nat) (m : Maker) : List Form → Prop
  | [] => True
  | f :: fs => GFm ar m f ∧ GFmL ar m fs
end

theorem GFmL_iff {m : Maker} {l : List Form} : GFmL ar m l ↔ ∀ f ∈ l, GFm ar m f := by
  induction l with
  | nil => simp [GFmL]
  | cons a l ih => simp [GFmL, ih]

section
variable {m m' : Maker} (e : ∀ s i, m.ids s = some i → m'.ids s = some i)
include e

mutual
theorem GTm.ext : ∀ (t : Term), GTm ar m t → GTm ar m' t
  | .var _, h => h
  | .mv _, h => h
  | .fn p tys args, ⟨h1, ⟨s, h2, h3⟩, h4⟩ => ⟨h1, ⟨s, e _ _ h2, h3⟩, GTmL.ext args h4⟩
theorem GTmL.ext : ∀ (l : List Term), GTmL ar m l → GTmL ar m' l
  | [], _ => trivial
  | t :: l, h => ⟨GTm.ext t h.1, GTmL.ext l h.2⟩
end

mutual
theorem GFm.ext : ∀ (f : Form), GFm ar m f → GFm ar m' f
  | .pred p tys args, ⟨h1, ⟨s, h0, h2, h3⟩, h4⟩ => ⟨h1, ⟨s, h0, e _ _ h2, h3⟩, GTmL.ext e args h4⟩
  | .top, _ => trivial
  | .bot, _ => trivial
  | .neg f, h => GFm.ext f h
  | .and fs, h => ⟨h.1, GFmL.ext fs h.2⟩
  | .or fs, h => ⟨h.1, GFmL.ext fs h.2⟩
  | .imp f g, h => ⟨GFm.ext f h.1, GFm.ext g h.2⟩
  | .equ f g, h => ⟨GFm.ext f h.1, GFm.ext g h.2⟩
  | .all _ _, h => h
  | .ex _ _, h => h
theorem GFmL.ext : ∀ (l : List Form), GFmL ar m l → GFmL ar m' l
  | [], _ => trivial
  | t :: l, h => ⟨GFm.ext t h.1, GFmL.ext l h.2⟩
end
end

mutual
theorem elabT_ground : ∀ (t : PTm) (con : Ctx) (m : Maker) (r : Out Term), FofCon NoVar UserName con →
    t.Ground ar → MOK m → m.NamesFresh → elabT con m t = some r → GTm ar r.m r.val
  | .var n, con, m, r, hc, ht, hm, hf, h => ht.elim
  | .fn s args dt, con, m, r, hc, ht, hm, hf, h => by
    obtain ⟨hs, rfl, hl, ha⟩ := ht
    have ha' := (PTm.groundL_fof args ha).1
    obtain ⟨tys, h1, h2, h3⟩ := pretype_fof hc args ha'
    simp only [elabT, h1, Option.bind_some, Option.bind_eq_some_iff] at h
    obtain ⟨x, hx, targs, htargs, y, hy, h⟩ := h
    cases h
    have htargs' : targs = [] := by
      simp only [tyArgs, user_defined hs, Bool.false_eq_true, if_false, splitTys_fof tys args h3,
        Option.some.injEq] at htargs
      exact htargs.symm
    subst htargs'
    simp only [elabTyL, Option.some.injEq] at hy
    subst hy
    obtain ⟨_, k1, _, _, _⟩ := elabL_syn lexNone args con m tys x hc ha' hm hf h2 h3 hx
    obtain ⟨g1, g2⟩ := elabL_ground args con m tys x hc ha hm hf h2 h3 hx
    have h4 := id_ok k1 s
    exact ⟨rfl, ⟨s, h4.2.2, g2.trans hl⟩, GTmL.ext h4.1.ids _ g1⟩
theorem elabL_ground : ∀ (l : List PTm) (con : Ctx) (m : Maker) (tys : List PTy)
    (r : Out (List Term)), FofCon NoVar UserName con → PTm.GroundL ar l → MOK m → m.NamesFresh →
    tys.length = l.length → (∀ ty ∈ tys, ∃ s, s ≠ "$tType" ∧ ty = .fn s []) →
    elabL con m tys l = some r → GTmL ar r.m r.val ∧ r.val.length = l.length
  | [], con, m, tys, r, _, _, hm, hf, _, _, h => by
    simp only [elabL] at h; cases h
    exact ⟨trivial, rfl⟩
  | a :: l, con, m, tys, r, hc, hl, hm, hf, hlen, htys, h => by
    cases tys with
    | nil => simp at hlen
    | cons ty tys =>
    obtain ⟨s, hs, rfl⟩ := htys ty (by simp)
    simp only [elabL, isTyConstr, beq_iff_eq, hs, if_false, Option.bind_eq_some_iff,
      Option.map_eq_some_iff] at h
    obtain ⟨x, hx, y, hy, rfl⟩ := h
    have ha' := (PTm.ground_fof a hl.1).1
    have hl' := (PTm.groundL_fof l hl.2).1
    obtain ⟨e1, k1, f1, c1, t1⟩ := elabT_syn lexNone a con m x hc ha' hm hf hx
    have htl : ∀ ty ∈ tys, ∃ s, s ≠ "$tType" ∧ ty = .fn s [] := fun ty hty => htys ty (List.mem_cons_of_mem _ hty)
    have hc1 : FofCon NoVar UserName x.con := by rw [c1]; exact hc
    obtain ⟨e2, _, _, _, _⟩ := elabL_syn lexNone l x.con x.m tys y hc1 hl' k1 f1 (by simpa using hlen) htl hy
    have g1 := elabT_ground a con m x hc hl.1 hm hf hx
    obtain ⟨g2, g3⟩ := elabL_ground l x.con x.m tys y hc1 hl.2 k1 f1 (by simpa using hlen) htl hy
    exact ⟨⟨GTm.ext e2.ids _ g1, g2⟩, by simp [g3]⟩
end

theorem flatten_ground {op : PBinOp} (f : PForm) (h : f.Ground ar) : flatten op f ≠ [] ∧ ∀ g ∈ flatten op f, g.Ground ar := by
  induction f with
  | bin o l r il ir =>
    simp only [flatten]
    split
    · refine ⟨by simp [(il h.1).1], ?_⟩
      intro g hg
      rcases List.mem_append.1 hg with hg | hg
      · exact (il h.1).2 g hg
      · exact (ir h.2).2 g hg
    · simpa using h
  | _ => simpa [flatten] using h

theorem subForms_ground {fl : Bool} {op : PBinOp} {l r : PForm} (hl : l.Ground ar) (hr : r.Ground ar) :
    subForms fl op l r ≠ [] ∧ ∀ g ∈ subForms fl op l r, g.Ground ar := by
  unfold subForms
  split
  · exact flatten_ground _ ⟨hl, hr⟩
  · refine ⟨by simp, ?_⟩
    intro g hg
    simp only [List.mem_cons, List.not_mem_nil, or_false] at hg
    rcases hg with rfl | rfl
    · exact hl
    · exact hr

/-- What is shown of the elaboration of a formula. -/
def GroundSpec (ar : String → Nat) (g : Ctx → Maker → PForm → Option (Out Form)) : Prop :=
  ∀ (f : PForm) (con : Ctx) (m : Maker) (r : Out Form), f.Ground ar → FofCon NoVar UserName con → MOK m → m.NamesFresh →
    g con m f = some r → GFm ar r.m r.val

theorem elabSeq_ground {fl : Bool} {n : Nat} (hg : GroundSpec ar (elabN fl n)) : ∀ (fs : List PForm) (con : Ctx) (m : Maker)
    (r : Out (List Form)), (∀ f ∈ fs, f.Ground ar) → FofCon NoVar UserName con → MOK m → m.NamesFresh →
    elabSeq (elabN fl n) con m fs = some r → (∀ f ∈ r.val, GFm ar r.m f) ∧ r.val.length = fs.length
  | [], con, m, r, _, hc, hm, hf, h => by
    simp only [elabSeq] at h; cases h
    exact ⟨by simp, rfl⟩
  | f :: fs, con, m, r, hp, hc, hm, hf, h => by
    simp only [elabSeq, Option.bind_eq_some_iff, Option.map_eq_some_iff] at h
    obtain ⟨x, hx, y, hy, rfl⟩ := h
    obtain ⟨e1, k1, f1, c1, _⟩ := elabN_syn fl lexNone n f con m x (f.ground_fof (hp f (by simp))) hc hm hf hx
    obtain ⟨e2, _, _, _, _⟩ := elabSeq_syn (elabN_syn fl lexNone n) (fr := fs.flatMap PForm.fv) fs x.con x.m y
      (fun f hf' => ⟨f.ground_fof (hp f (List.mem_cons_of_mem _ hf')), fun n hn => List.mem_flatMap.2 ⟨f, hf', hn⟩⟩) c1 k1 f1 hy
    have g1 := hg f con m x (hp f (by simp)) hc hm hf hx
    obtain ⟨g2, g3⟩ := elabSeq_ground hg fs x.con x.m y (fun f hf' => hp f (List.mem_cons_of_mem _ hf')) c1 k1 f1 hy
    refine ⟨?_, by simp [g3]⟩
    intro z hz
    rcases List.mem_cons.1 hz with rfl | hz
    · exact GFm.ext e2.ids _ g1
    · exact g2 z hz

theorem mkBin_ground {m : Maker} {op : PBinOp} {fs : List Form} {f : Form}
    (h : ∀ g ∈ fs, GFm ar m g) (hne : fs ≠ []) (hf : mkBin op fs = some f) : GFm ar m f := by
  match op, fs, h, hf with
  | .or, fs, h, hf => simp only [mkBin, Option.some.injEq] at hf; subst hf; exact ⟨hne, GFmL_iff.2 h⟩
  | .and, fs, h, hf => simp only [mkBin, Option.some.injEq] at hf; subst hf; exact ⟨hne, GFmL_iff.2 h⟩
  | .imp, [a, b], h, hf =>
    simp only [mkBin, Option.some.injEq] at hf; subst hf; exact ⟨h a (by simp), h b (by simp)⟩
  | .equ, [a, b], h, hf =>
    simp only [mkBin, Option.some.injEq] at hf; subst hf; exact ⟨h a (by simp), h b (by simp)⟩
  | .imp, [], _, hf => simp [mkBin] at hf
  | .imp, [_], _, hf => simp [mkBin] at hf
  | .imp, _ :: _ :: _ :: _, _, hf => simp [mkBin] at hf
  | .equ, [], _, hf => simp [mkBin] at hf
  | .equ, [_], _, hf => simp [mkBin] at hf
  | .equ, _ :: _ :: _ :: _, _, hf => simp [mkBin] at hf

theorem elabN_ground (fl : Bool) : ∀ n, GroundSpec ar (elabN fl n) := by
  intro n
  induction n with
  | zero => intro f con m r _ _ _ _ h; simp [elabN] at h
  | succ n ih =>
    intro f con m r hp hc hm hf h
    cases f with
    | top => simp only [elabN] at h; cases h; trivial
    | bot => simp only [elabN] at h; cases h; trivial
    | pred s args =>
      obtain ⟨hs, hl, ha⟩ := hp
      have ha' := (PTm.groundL_fof args ha).1
      obtain ⟨tys, h1, h2, h3⟩ := pretype_fof hc args ha'
      simp only [elabN, h1, Option.bind_some, Option.bind_eq_some_iff, Option.map_eq_some_iff] at h
      obtain ⟨x, hx, targs, htargs, y, hy, rfl⟩ := h
      have htargs' : targs = [] := by
        simp only [tyArgs, user_defined hs, Bool.false_eq_true, if_false, splitTys_fof tys args h3,
          Option.some.injEq] at htargs
        exact htargs.symm
      subst htargs'
      simp only [elabTyL, Option.some.injEq] at hy
      subst hy
      obtain ⟨_, k1, _, _, _⟩ := elabL_syn lexNone args con m tys x hc ha' hm hf h2 h3 hx
      obtain ⟨g1, g2⟩ := elabL_ground args con m tys x hc ha hm hf h2 h3 hx
      have h4 := id_ok k1 s
      exact ⟨rfl, ⟨s, user_ne_eq hs, h4.2.2, g2.trans hl⟩, GTmL.ext h4.1.ids _ g1⟩
    | neg f =>
      simp only [elabN, Option.map_eq_some_iff] at h
      obtain ⟨x, hx, rfl⟩ := h
      exact ih f con m x hp hc hm hf hx
    | bin op l r' =>
      simp only [elabN, Option.bind_eq_some_iff, Option.map_eq_some_iff] at h
      obtain ⟨x, hx, f', hf', rfl⟩ := h
      obtain ⟨s1, s2⟩ := subForms_ground (fl := fl) (op := op) hp.1 hp.2
      obtain ⟨g1, g2⟩ := elabSeq_ground ih _ con m x s2 hc hm hf hx
      refine mkBin_ground g1 ?_ hf'
      intro he
      rw [he] at g2
      exact s1 (List.length_eq_zero_iff.1 g2.symm)
    | all => exact hp.elim
    | ex => exact hp.elim

/-! ### Renaming, flattening -/

mutual
theorem GFm.rename {m : Maker} : ∀ (f : Form) (k : Maker), GFm ar m f → f.rename k = (f, k)
  | .pred _ _ _, _, _ => rfl
  | .top, _, _ => rfl
  | .bot, _, _ => rfl
  | .neg f, k, h => by simp [Form.rename, GFm.rename f k h]
  | .and fs, k, h => by simp [Form.rename, GFmL.rename fs k h.2]
  | .or fs, k, h => by simp [Form.rename, GFmL.rename fs k h.2]
  | .imp f g, k, h => by simp [Form.rename, GFm.rename f k h.1, GFm.rename g k h.2]
  | .equ f g, k, h => by simp [Form.rename, GFm.rename f k h.1, GFm.rename g k h.2]
  | .all _ _, _, h => h.elim
  | .ex _ _, _, h => h.elim
theorem GFmL.rename {m : Maker} : ∀ (l : List Form) (k : Maker), GFmL ar m l → Form.renameL l k = (l, k)
  | [], _, _ => rfl
  | f :: l, k, h => by simp [Form.renameL, GFm.rename f k h.1, GFmL.rename l k h.2]
end

mutual
theorem flattenAnd1_ground {m : Maker} : ∀ (f : Form), GFm ar m f → ∀ g ∈ flattenAnd1 f, GFm ar m g
  | .and fs, h => by simp only [flattenAnd1]; exact flattenAnd_ground fs h.2
  | .top, h => by simpa [flattenAnd1] using h
  | .bot, h => by simpa [flattenAnd1] using h
  | .pred _ _ _, h => by simpa only [flattenAnd1, List.mem_singleton, forall_eq] using h
  | .neg _, h => by simpa [flattenAnd1] using h
  | .or _, h => by simpa only [flattenAnd1, List.mem_singleton, forall_eq] using h
  | .imp _ _, h => by simpa only [flattenAnd1, List.mem_singleton, forall_eq] using h
  | .equ _ _, h => by simpa only [flattenAnd1, List.mem_singleton, forall_eq] using h
  | .all _ _, h => h.elim
  | .ex _ _, h => h.elim
theorem flattenAnd_ground {m : Maker} : ∀ (l : List Form), GFmL ar m l → ∀ g ∈ flattenAnd l, GFm ar m g
  | [], _ => by simp [flattenAnd]
  | f :: l, h => by
    intro g hg
    simp only [flattenAnd, List.mem_append] at hg
    rcases hg with hg | hg
    · exact flattenAnd1_ground f h.1 g hg
    · exact flattenAnd_ground l h.2 g hg
end

/-! ### Files -/

/-- A statement after elaboration. -/
def CG (ar : String → Nat) (m : Maker) : CStmt → Prop
  | .incl file => ∀ s ∈ file, PStmt.Ground ar s
  | .missing => True
  | .form _ f => GFm ar m f
  | .typ _ _ _ => True

theorem toInternal_ground (fl : Bool) : ∀ (l : List PStmt) (con : Ctx) (m : Maker) (cs : List CStmt) (b : Bool) (m' : Maker),
    (∀ s ∈ l, PStmt.Ground ar s) → FofCon NoVar UserName con → Inv m → toInternal fl con m l = some (cs, b, m') →
    IdsLe m m' ∧ Inv m' ∧ ∀ c ∈ cs, CG ar m' c
  | [], con, m, cs, b, m', _, _, hm, h => by
    simp only [toInternal, Option.some.injEq, Prod.mk.injEq] at h
    obtain ⟨rfl, _, rfl⟩ := h
    exact ⟨IdsLe.refl m, hm, by simp⟩
  | s :: l, con, m, cs, b, m', hl, hc, hm, h => by
    have hl' : ∀ s ∈ l, PStmt.Ground ar s := fun s hs => hl s (List.mem_cons_of_mem _ hs)
    cases hl s (by simp) with
    | @incl file hfile =>
      simp only [toInternal, Option.map_eq_some_iff] at h
      obtain ⟨⟨cs', b', m''⟩, hy, h⟩ := h
      cases h
      obtain ⟨a1, a2, a3⟩ := toInternal_ground fl l con m _ _ _ hl' hc hm hy
      refine ⟨a1, a2, ?_⟩
      intro c hcs
      rcases List.mem_cons.1 hcs with rfl | hcs
      · exact hfile
      · exact a3 c hcs
    | @form n role w hrole hw =>
      simp only [toInternal, Option.bind_eq_some_iff, Option.map_eq_some_iff] at h
      obtain ⟨x, hx, ⟨cs', b', m''⟩, hy, h⟩ := h
      cases h
      have hpg := parse_ground w hw
      obtain ⟨e1, k1, f1, c1, _⟩ := elabN_syn fl lexNone _ w.parse con m x (PForm.ground_fof _ hpg) hc hm.ok hm.fresh hx
      have hcpt : IdsLe m x.m := by
        have hw' := WForm.ground_fof w hw
        obtain ⟨r, hr, a1, a2, _⟩ := elabForm_ready.{0} fl lexNone con m w hw'.1 hw'.2.1 (by simp [hw'.2.2]) hc
          (fun _ _ h => h.elim) hm
        rw [hx] at hr
        cases hr
        assumption
      obtain ⟨a1, a2, a3⟩ := toInternal_ground fl l x.con x.m _ _ _ hl' c1 ⟨k1, f1⟩ hy
      have g1 := elabN_ground fl _ w.parse con m x hpg hc hm.ok hm.fresh hx
      refine ⟨hcpt.trans a1, a2, ?_⟩
      intro c hcs
      rcases List.mem_cons.1 hcs with rfl | hcs
      · exact GFm.ext a1.ids _ g1
      · exact a3 c hcs

/-- What is shown of reading a file. -/
def FileG (ar : String → Nat) (m : Maker) (r : FileOut) : Prop :=
  IdsLe m r.m ∧ Inv r.m ∧ ∀ f, r.form = some f → GFm ar r.m f

theorem CG.le {m m' : Maker} (h : IdsLe m m') : ∀ {c : CStmt}, CG ar m c → CG ar m' c
  | .incl _, hc => hc
  | .missing, _ => trivial
  | .form _ _, hc => GFm.ext h.ids _ hc
  | .typ _ _ _, _ => trivial

theorem loop_ground {g : Maker → List PStmt → Option FileOut}
    (hg : ∀ m file r, (∀ s ∈ file, PStmt.Ground ar s) → Inv m → g m file = some r → FileG ar m r) :
    ∀ (cs : List CStmt) (st st' : LState), (∀ c ∈ cs, CG ar st.m c) → Inv st.m →
    (∀ f ∈ st.ands, GFm ar st.m f) → (∀ f, st.conj = some f → GFm ar st.m f) →
    loop (fun _ => false) g cs st = some st' →
    IdsLe st.m st'.m ∧ Inv st'.m ∧ (∀ f ∈ st'.ands, GFm ar st'.m f) ∧ ∀ f, st'.conj = some f → GFm ar st'.m f
  | [], st, st', _, hi, ha, hc, h => by
    simp only [loop, Option.some.injEq] at h
    subst h
    exact ⟨IdsLe.refl _, hi, ha, hc⟩
  | c :: cs, st, st', hcs, hi, ha, hc, h => by
    have hh := hcs c (by simp)
    have ht : ∀ c ∈ cs, CG ar st.m c := fun c h => hcs c (List.mem_cons_of_mem _ h)
    cases c with
    | incl file =>
      simp only [loop, Option.bind_eq_some_iff] at h
      obtain ⟨r, hr, h⟩ := h
      obtain ⟨b1, b2, b3⟩ := hg _ _ _ hh hi hr
      have := loop_ground hg cs _ st' (fun c h => (ht c h).le b1) b2 ?_ ?_ h
      · exact ⟨b1.trans this.1, this.2⟩
      · intro f hf
        cases hrf : r.form with
        | none => simp only [hrf] at hf; exact GFm.ext b1.ids _ (ha f hf)
        | some g =>
          simp only [hrf, List.mem_append, List.mem_singleton] at hf
          rcases hf with hf | rfl
          · exact GFm.ext b1.ids _ (ha f hf)
          · exact b3 f hrf
      · intro f hf; exact GFm.ext b1.ids _ (hc f hf)
    | missing => simp [loop] at h
    | form role f =>
      have hr : f.rename st.m = (f, st.m) := GFm.rename f st.m hh
      cases role with
      | ax =>
        simp only [loop, hr, Bool.false_eq_true, if_false] at h
        exact loop_ground hg cs ⟨st.ands ++ [f], st.conj, st.typed, st.m⟩ st' ht hi (by
          intro x hx
          rcases List.mem_append.1 hx with hx | hx
          · exact ha x hx
          · rw [List.mem_singleton.1 hx]; exact hh) hc h
      | conj =>
        simp only [loop, hr] at h
        split at h
        · cases h
        · exact loop_ground hg cs ⟨st.ands, some (.neg f), st.typed, st.m⟩ st' ht hi ha (by intro x hx; cases hx; exact hh) h
      | negConj =>
        simp only [loop, hr] at h
        split at h
        · cases h
        · exact loop_ground hg cs ⟨st.ands, some f, st.typed, st.m⟩ st' ht hi ha (by intro x hx; cases hx; exact hh) h
      | type => simp [loop] at h
      | unknown => simp [loop] at h
    | typ role s ty =>
      cases role with
      | type => simp only [loop] at h; exact loop_ground hg cs _ st' ht hi ha hc h
      | _ => simp [loop] at h

theorem finish_ground {m : Maker} {ands : List Form} {conj : Option Form} {f : Form} (ha : ∀ f ∈ ands, GFm ar m f)
    (hc : ∀ f, conj = some f → GFm ar m f) (h : finish ands conj = some f) : GFm ar m f := by
  simp only [finish, List.isEmpty_iff] at h
  cases conj with
  | none =>
    simp only at h
    split at h
    · cases h
    · next hne => cases h; exact ⟨hne, GFmL_iff.2 ha⟩
  | some c =>
    simp only at h
    split at h
    · cases h; exact hc _ rfl
    · cases h
      refine ⟨by simp, GFmL_iff.2 ?_⟩
      intro x hx
      rcases List.mem_append.1 hx with hx | hx
      · exact flattenAnd_ground ands (GFmL_iff.2 ha) x hx
      · rw [List.mem_singleton.1 hx]; exact hc _ rfl

theorem readFile_ground (fl : Bool) : ∀ (n : Nat) (m : Maker) (file : List PStmt) (r : FileOut),
    (∀ s ∈ file, PStmt.Ground ar s) → Inv m → readFile fl (fun _ => false) n m file = some r → FileG ar m r := by
  intro n
  induction n with
  | zero => intro m file r _ _ h; simp [readFile] at h
  | succ n ih =>
    intro m file r hf hi h
    simp only [readFile, Option.bind_eq_some_iff, Option.map_eq_some_iff] at h
    obtain ⟨t, ht, st, hst, rfl⟩ := h
    obtain ⟨a1, a2, a3⟩ := toInternal_ground fl file _ m t.1 t.2.1 t.2.2 hf
      (initialContext_fof (fun _ h => h.elim) (fun _ h => h)) hi ht
    obtain ⟨b1, b2, b3, b4⟩ := loop_ground ih t.1 _ st a3 a2 (by simp) (by simp) hst
    exact ⟨a1.trans b1, b2, fun f hf => finish_ground b3 b4 hf⟩

/-! ### The formula searched -/

open Verif.Search.Incr (Plain PlainL TPlain TPlainL) in
/-- The arity of a number. -/
noncomputable def arOf (ar : String → Nat) (m : Maker) (p : Nat) : Nat :=
  open Classical in if h : ∃ s, m.ids s = some p then ar h.choose else 0

theorem arOf_eq {m : Maker} (hm : MOK m) {s : String} {p : Nat} (h : m.ids s = some p) : arOf ar m p = ar s := by
  unfold arOf
  have hx : ∃ s, m.ids s = some p := ⟨s, h⟩
  rw [dif_pos hx]
  exact congrArg ar (hm.ids_inj _ _ _ hx.choose_spec h)

open Verif.Search.Incr (Plain PlainL TPlain TPlainL)

mutual
theorem GTm.plain {m : Maker} (hm : MOK m) : ∀ (t : Term), GTm ar m t → TPlain (arOf ar m) t
  | .var _, h => h
  | .mv _, h => h
  | .fn p tys args, ⟨h1, ⟨s, h2, h3⟩, h4⟩ => ⟨h1, h3.trans (arOf_eq hm h2).symm, GTmL.plain hm args h4⟩
theorem GTmL.plain {m : Maker} (hm : MOK m) : ∀ (l : List Term), GTmL ar m l → TPlainL (arOf ar m) l
  | [], _ => trivial
  | t :: l, h => ⟨GTm.plain hm t h.1, GTmL.plain hm l h.2⟩
end

mutual
/-- The largest number of arguments of a connective. -/
def width : Form → Nat
  | .neg f => width f
  | .and fs => max fs.length (widthL fs)
  | .or fs => max fs.length (widthL fs)
  | .imp f g => max (width f) (width g)
  | .equ f g => max (width f) (width g)
  | .all _ f => width f
  | .ex _ f => width f
  | _ => 0
def widthL : List Form → Nat
  | [] => 0
  | f :: fs => max (width f) (widthL fs)
end

mutual
theorem GFm.plain {m : Maker} (hm : MOK m) : ∀ (f : Form) (B : Nat), width f ≤ B → GFm ar m f → Plain (arOf ar m) B f
  | .pred p tys args, _, _, ⟨h1, ⟨s, _, h2, h3⟩, h4⟩ => ⟨h1, h3.trans (arOf_eq hm h2).symm, GTmL.plain hm args h4⟩
  | .top, _, _, _ => trivial
  | .bot, _, _, _ => trivial
  | .neg f, B, hB, h => GFm.plain hm f B hB h
  | .and fs, B, hB, h => by
    simp only [width] at hB
    exact ⟨h.1, by omega, GFmL.plain hm fs B (by omega) h.2⟩
  | .or fs, B, hB, h => by
    simp only [width] at hB
    exact ⟨h.1, by omega, GFmL.plain hm fs B (by omega) h.2⟩
  | .imp f g, B, hB, h => by
    simp only [width] at hB
    exact ⟨GFm.plain hm f B (by omega) h.1, GFm.plain hm g B (by omega) h.2⟩
  | .equ f g, B, hB, h => by
    simp only [width] at hB
    exact ⟨GFm.plain hm f B (by omega) h.1, GFm.plain hm g B (by omega) h.2⟩
  | .all _ _, _, _, h => h.elim
  | .ex _ _, _, _, h => h.elim
theorem GFmL.plain {m : Maker} (hm : MOK m) : ∀ (l : List Form) (B : Nat), widthL l ≤ B → GFmL ar m l → PlainL (arOf ar m) B l
  | [], _, _, _ => trivial
  | f :: l, B, hB, h => by
    simp only [widthL] at hB
    exact ⟨GFm.plain hm f B (by omega) h.1, GFmL.plain hm l B (by omega) h.2⟩
end

open Verif.Search.Main (NoPred NoPredL)

mutual
theorem GFm.noEq {m : Maker} (hm : MOK m) {q : Nat} (hq : m.ids "=" = some q) : ∀ (f : Form), GFm ar m f → NoPred q f
  | .pred p tys args, ⟨_, ⟨s, h0, h2, _⟩, _⟩ => by
    rintro rfl
    exact h0 (hm.ids_inj _ _ _ h2 hq)
  | .top, _ => trivial
  | .bot, _ => trivial
  | .neg f, h => GFm.noEq hm hq f h
  | .and fs, h => GFmL.noEq hm hq fs h.2
  | .or fs, h => GFmL.noEq hm hq fs h.2
  | .imp f g, h => ⟨GFm.noEq hm hq f h.1, GFm.noEq hm hq g h.2⟩
  | .equ f g, h => ⟨GFm.noEq hm hq f h.1, GFm.noEq hm hq g h.2⟩
  | .all _ _, h => h.elim
  | .ex _ _, h => h.elim
theorem GFmL.noEq {m : Maker} (hm : MOK m) {q : Nat} (hq : m.ids "=" = some q) : ∀ (l : List Form), GFmL ar m l → NoPredL q l
  | [], _ => trivial
  | f :: l, h => ⟨GFm.noEq hm hq f h.1, GFmL.noEq hm hq l h.2⟩
end

/-- The number of the equality sign (src/AST/maker.go:67). -/
def eqId : Nat := (Maker.reset.id "=").1

/-- The formula made of a problem without variables and equality. -/
theorem presearch_ground (fl : Bool) (typeOk : Form → Bool) (file : List PStmt) (hf : ∀ s ∈ file, PStmt.Ground ar s)
    (f : Form) (c : Bool) (m : Maker) (h : presearch fl (fun _ => false) typeOk initMaker file = .search f c m) :
    Plain (arOf ar m) (width f) f ∧ NoPred eqId f := by
  have key : ∃ r, readFile fl (fun _ => false) (PStmt.depthL file + 1) initMaker file = some r ∧ r.form = some f ∧ r.m = m := by
    unfold presearch at h
    split at h
    · cases h
    · next r hr =>
      refine ⟨r, hr, ?_⟩
      split at h
      · cases h
      · next f' hf' =>
        rw [hf']
        split at h
        · split at h
          · cases h; exact ⟨rfl, rfl⟩
          · cases h
        · cases h; exact ⟨rfl, rfl⟩
  obtain ⟨r, hr, hrf, rfl⟩ := key
  obtain ⟨a1, a2, a3⟩ := readFile_ground fl _ initMaker file r hf Inv_init hr
  have hg := a3 f hrf
  have hq : r.m.ids "=" = some eqId := a1.ids _ _ (id_ok MOK_reset "=").2.2
  exact ⟨GFm.plain a2.ok f _ (Nat.le_refl _) hg, GFm.noEq a2.ok hq f hg⟩

end Verif.Engine
