import Verif.Unif.MixedProps
/-!
# C103: without type arguments merging mixed substitutions is merging substitutions

The procedures for terms with type arguments (`Verif.Unif.Mixed`) do the same as those of `Verif.Unif.Machine` on terms that have none, so that what is
known about these (C28) holds for `MergeMixedSubstitutions` when no symbol is polymorphic; substitutions of types are included.
-/

namespace Verif.Unif.Mixed
open Verif.Unif
open Ex (A B)

def _root_.Verif.Unif.Res.map {α : Type u} {β : Type v} (f : α → β) : Res α → Res β
  | .ok a => .ok (f a)
  | .fail => .fail
  | .panic => .panic
  | .out => .out

theorem map_bind {α : Type u} {β : Type v} {γ : Type w} (x : Res α) (f : α → β) (g : β → Res γ) : (x.map f).bind g = x.bind fun a => g (f a) := by
  cases x <;> rfl

theorem bind_map {α : Type u} {β : Type v} {γ : Type w} (x : Res α) (f : α → Res β) (g : β → γ) : (x.bind f).map g = x.bind fun a => (f a).map g := by
  cases x <;> rfl

theorem bind_congr {α : Type u} {β : Type v} {x : Res α} {f g : α → Res β} (h : ∀ a, f a = g a) : x.bind f = x.bind g := by
  cases x <;> simp [Res.bind, h]

/-! ### Terms -/

theorem embL_eq (l : List UT) : embL l = l.map emb := by
  induction l with
  | nil => rfl
  | cons a l ih => simp [embL, ih]

theorem emb_inj {a b : UT} : emb a = emb b ↔ a = b :=
  ⟨fun h => by rw [← toTy_emb a, h, toTy_emb], fun h => by rw [h]⟩

theorem occL_emb {l : List UT} (h : ∀ a ∈ l, (emb a).occ = a.occ) : PT.occL (embL l) = UT.occL l := by
  induction l with
  | nil => rfl
  | cons a l ih => simp only [embL, PT.occL, UT.occL, h a (by simp), ih fun b hb => h b (by simp [hb])]

theorem occ_emb (t : UT) : (emb t).occ = t.occ := by
  induction t using UT.ind with
  | mv i => rfl
  | fn p args ih => simp only [emb, PT.occ, UT.occ, occL_emb ih]

theorem subL_emb {k : Nat} {v : UT} {l : List UT} (h : ∀ a ∈ l, (emb a).sub k (emb v) = emb (a.sub k v)) :
    PT.subL (embL l) k (emb v) = embL (UT.subL l k v) := by
  induction l with
  | nil => rfl
  | cons a l ih => simp only [embL, PT.subL, UT.subL, h a (by simp), ih fun b hb => h b (by simp [hb])]

theorem sub_emb (k : Nat) (v t : UT) : (emb t).sub k (emb v) = emb (t.sub k v) := by
  induction t using UT.ind with
  | mv i => simp only [emb, PT.sub, UT.sub]; split <;> rfl
  | fn p args ih => simp only [emb, PT.sub, UT.sub, subL_emb ih]

theorem encL_emb {l : List UT} (h : ∀ a ∈ l, (emb a).enc = emb a) : PT.encL (embL l) = embL l := by
  induction l with
  | nil => rfl
  | cons a l ih => simp only [embL, PT.encL, h a (by simp), ih fun b hb => h b (by simp [hb])]

theorem enc_emb (t : UT) : (emb t).enc = emb t := by
  induction t using UT.ind with
  | mv i => rfl
  | fn p args ih => simp [emb, PT.enc, embL, encL_emb ih]

theorem valL_emb {l : List UT} (h : ∀ a ∈ l, (emb a).val = a) : PT.valL (embL l) = l := by
  induction l with
  | nil => rfl
  | cons a l ih => simp only [embL, PT.valL, h a (by simp), ih fun b hb => h b (by simp [hb])]

theorem val_emb (t : UT) : (emb t).val = t := by
  induction t using UT.ind with
  | mv i => rfl
  | fn p args ih => simp [emb, PT.val, valL_emb ih]

/-! ### Substitutions -/

def embB (b : Nat × UT) : Nat × PT := (b.1, emb b.2)
def embS (s : Subst) : PSub := s.map embB

theorem get_emb (s : Subst) (k : Nat) : PSub.get (embS s) k = (s.get k).map emb := by
  simp only [PSub.get, Subst.get, embS, List.find?_map, Option.map_map]
  rfl

theorem has_emb (s : Subst) (k : Nat) : PSub.has (embS s) k = s.has k := by
  simp only [PSub.has, Subst.has, embS, List.any_map]
  rfl

theorem set_emb (s : Subst) (k : Nat) (v : UT) : PSub.set (embS s) k (emb v) = embS (s.set k v) := by
  simp only [PSub.set, Subst.set, has_emb]
  split <;> simp [embS, embB]

theorem removeKey_emb (s : Subst) (k : Nat) : PSub.removeKey (embS s) k = embS (s.removeKey k) := by
  have h : (embS s).findIdx? (fun p => decide (p.1 = k)) = s.findIdx? (fun p => decide (p.1 = k)) := by
    simp only [embS, List.findIdx?_map]; rfl
  simp only [PSub.removeKey, Subst.removeKey, h]
  cases s.findIdx? (fun p => decide (p.1 = k)) with
  | none => rfl
  | some i =>
    have : (embS s).getLast? = s.getLast?.map embB := by simp [embS]
    simp only [this]
    cases s.getLast? with
    | none => rfl
    | some l => simp [embS, List.map_set, List.map_dropLast]

theorem occurValid_emb (k : Nat) (v : UT) : occurValid k (emb v) = Unif.occurValid k v := by
  simp [occurValid, Unif.occurValid, occ_emb]

def embP (r : Subst × Bool) : PSub × Bool := (embS r.1, r.2)

theorem elimPass_emb (key : Nat) (value : UT) : ∀ (s : Subst) (acc : Subst × Bool),
    elimPass key (emb value) (embS s) (embP acc) = (Unif.elimPass key value s acc).map embP
  | [], acc => rfl
  | (k2, .mv i) :: rest, (tmp, ch) => by
    have ih := elimPass_emb key value rest
    show elimPass key (emb value) ((k2, .mv i) :: embS rest) (embS tmp, ch) = _
    simp only [elimPass, Unif.elimPass]
    split
    · rw [set_emb]; exact ih (tmp.set k2 value, true)
    · have := set_emb tmp k2 (.mv i)
      simp only [emb] at this
      rw [this]; exact ih (tmp.set k2 (.mv i), ch)
  | (k2, .fn p args) :: rest, (tmp, ch) => by
    have ih := elimPass_emb key value rest
    show elimPass key (emb value) ((k2, .fn p [] (embL args)) :: embS rest) (embS tmp, ch) = _
    have h1 : PT.sub (.fn p [] (embL args)) key (emb value) = emb ((UT.fn p args).sub key value) := sub_emb key value (.fn p args)
    have h2 : PT.occ (.fn p [] (embL args)) = (UT.fn p args).occ := occ_emb (.fn p args)
    simp only [elimPass, Unif.elimPass, h1, h2, occurValid_emb]
    split
    · rw [set_emb]; exact ih (_, _)
    · rfl

theorem elimInside_emb (key : Nat) (value : UT) : ∀ (n : Nat) (s : Subst) (top : Bool),
    elimInside key (emb value) n (embS s) top = (Unif.elimInside key value n s top).map embP
  | 0, _, _ => rfl
  | n + 1, s, top => by
    have h := elimPass_emb key value s ([], false)
    have h' : elimPass key (emb value) (embS s) ([], false) = (Unif.elimPass key value s ([], false)).map embP := h
    simp only [elimInside, Unif.elimInside, h', map_bind, bind_map]
    refine bind_congr fun r => ?_
    obtain ⟨r, b⟩ := r
    cases b
    · rfl
    · exact elimInside_emb key value n r true

theorem elimRound_emb (fuel : Nat) : ∀ (s : Subst) (acc : Subst × Bool),
    elimRound fuel (embS s) (embP acc) = (Unif.elimRound fuel s acc).map embP
  | [], acc => rfl
  | (k, v) :: rest, acc => by
    show elimRound fuel ((k, emb v) :: embS rest) (embP acc) = _
    simp only [elimRound, Unif.elimRound, occurValid_emb]
    split
    · have h : elimInside k (emb v) fuel (embP acc).1 (embP acc).2 = _ := elimInside_emb k v fuel acc.1 acc.2
      rw [h, map_bind, bind_map]
      exact bind_congr fun r => elimRound_emb fuel rest r
    · rfl

theorem eliminate_emb : ∀ (n : Nat) (s : Subst), eliminate n (embS s) = (Unif.eliminate n s).map embS
  | 0, _ => rfl
  | n + 1, s => by
    have h : elimRound (n + 2) (embS s) (embS s, false) = _ := elimRound_emb (n + 2) s (s, false)
    simp only [eliminate, Unif.eliminate, h, map_bind, bind_map]
    refine bind_congr fun r => ?_
    obtain ⟨r, b⟩ := r
    cases b
    · rfl
    · exact eliminate_emb n r

theorem elimMetaLoop_emb (s : Subst) : ∀ l acc : Subst, elimMetaLoop (embS s) (embS l) (embS acc) = embS (Unif.elimMetaLoop s l acc)
  | [], acc => rfl
  | (k, .mv i) :: rest, acc => by
    have ih := elimMetaLoop_emb s rest
    show elimMetaLoop (embS s) ((k, .mv i) :: embS rest) (embS acc) = _
    have h : (PSub.get (embS s) i = some (.mv k)) ↔ (s.get i = some (.mv k)) := by
      rw [get_emb]
      cases s.get i with
      | none => simp
      | some v => simp only [Option.map_some, Option.some.injEq]; exact emb_inj (b := .mv k)
    simp only [elimMetaLoop, Unif.elimMetaLoop, has_emb, h]
    split
    · exact ih acc
    · have := set_emb acc k (.mv i)
      simp only [emb] at this
      rw [this]; exact ih _
  | (k, .fn p args) :: rest, acc => by
    have ih := elimMetaLoop_emb s rest
    show elimMetaLoop (embS s) ((k, emb (.fn p args)) :: embS rest) (embS acc) = _
    simp only [emb, elimMetaLoop, Unif.elimMetaLoop]
    have := set_emb acc k (.fn p args)
    simp only [emb] at this
    rw [this]; exact ih _

theorem elimBoth_emb (n : Nat) (s : Subst) : elimBoth n (embS s) = (Unif.elimBoth n s).map embS := by
  have : elimMeta (embS s) = embS (Unif.elimMeta s) := elimMetaLoop_emb s s []
  simp only [elimBoth, Unif.elimBoth, this, eliminate_emb]

/-! ### The machine -/

def embI : Instr → PInstr
  | .begin => .begin
  | .fin t => .fin (t.map emb)
  | .right => .right
  | .down => .down
  | .check p => .check p
  | .push i => .push i
  | .pop i => .pop i
  | .put i => .put i
  | .compare i j => .compare i j

theorem compares_emb (seen : List Nat) (m : Nat) : compares seen m = (Unif.compares seen m).map embI := by
  simp [compares, Unif.compares, embI]

theorem isEmpty_embL (l : List UT) : (embL l).isEmpty = l.isEmpty := by cases l <;> rfl

mutual
theorem parseT_emb : ∀ (t : UT) (pc : Nat) (seen : List Nat) (rd : Bool), parseT pc seen rd (emb t) = (Unif.parseT pc seen rd t).map embI
  | .mv m, pc, seen, rd => by
    simp only [emb, parseT, Unif.parseT, compares_emb]
    cases rd <;> simp [embI]
  | .fn p args, pc, seen, rd => by
    simp only [emb, parseT, Unif.parseT, isEmpty_embL, parseL_emb args]
    cases rd <;> split <;> simp [embI, emb]
theorem parseL_emb : ∀ (l : List UT) (pc : Nat) (seen : List Nat), parseL pc seen (embL l) = (Unif.parseL pc seen l).map embI
  | [], _, _ => rfl
  | t :: rest, pc, seen => by
    simp only [embL, parseL, Unif.parseL, isEmpty_embL, occ_emb, parseT_emb t, parseL_emb rest, List.map_append]
end

theorem parseTerm_emb (t : UT) : parseTerm (emb t) = (Unif.parseTerm t).map embI := by
  cases t with
  | mv m => exact parseL_emb [.mv m] 0 []
  | fn p args =>
    have h := parseL_emb [.fn p args] 0 []
    simp only [Unif.parseTerm, ← h]
    simp only [emb, parseTerm, embL, parseL, parseT, List.nil_append, encL_emb fun a _ => enc_emb a]
    split <;> simp

def embM (m : Unif.M) : M :=
  { q := m.q, beginCount := m.beginCount, beginLock := m.beginLock, hasPushed := m.hasPushed, hasPoped := m.hasPoped,
    post := m.post.map fun x => (x.1, embL x.2), subst := embS m.subst, terms := embL m.terms, mt := embS m.mt, tot := m.tot, cnt := m.cnt }

theorem getElem_embL (l : List UT) (i : Nat) : (embL l)[i]? = l[i]?.map emb := by rw [embL_eq]; simp

theorem unwrap_emb (s : Subst) : ∀ (n : Nat) (seen : List Nat) (t : UT), unwrap (embS s) n seen (emb t) = emb (Unif.unwrap s n seen t)
  | 0, _, _ => by simp [unwrap, Unif.unwrap]
  | n + 1, seen, .mv i => by
    simp only [emb, unwrap, Unif.unwrap, get_emb]
    cases s.get i with
    | none => rfl
    | some v =>
      simp only [Option.map_some]
      split
      · rfl
      · exact unwrap_emb s n _ v
  | n + 1, seen, .fn p args => rfl

theorem getAt_emb (l : Subst) (i : Nat) : getAt (embS l) i = (Unif.getAt l i).map emb := get_emb l i

theorem length_embS (s : Subst) : (embS s).length = s.length := by simp [embS]

/-- The two procedures for adding an equation agree. -/
def Agree (au : Unif.AU) (au' : AU) : Prop := ∀ a b s, au' (emb a) (emb b) (embS s) = (au a b s).map embS

theorem right_emb (m : Unif.M) : (embM m).right = m.right.map embM := by
  obtain ⟨q, bc, bl, hp, hpp, post, sub, ts, mt, tot, cnt⟩ := m
  cases bl with
  | none => simp only [M.right, Unif.M.right, embM, embL_length]; split <;> rfl
  | some b => rfl

theorem lockedRight_emb (m : Unif.M) : (embM m).lockedRight = m.lockedRight.map embM := by
  have h := right_emb { m with hasPushed := false, hasPoped := false }
  simp only [M.lockedRight, Unif.M.lockedRight]
  have e1 : (embM m).hasPushed = m.hasPushed := rfl
  have e2 : (embM m).hasPoped = m.hasPoped := rfl
  have e3 : (embM m).terms.length = m.terms.length := embL_length _
  have e4 : (embM m).q = m.q := rfl
  rw [e1, e2]
  split
  · simp only [e3, e4]
    split
    · exact h
    · rfl
  · rfl

theorem checkEnd_emb (m : Unif.M) : (embM m).checkEnd = m.checkEnd.map embM := by
  simp only [M.checkEnd, Unif.M.checkEnd]
  have e1 : (embM m).beginCount = m.beginCount := rfl
  have e2 : (embM m).cnt = m.cnt := rfl
  have e3 : (embM m).tot = m.tot := rfl
  rw [e1, e2, e3]
  split <;> rfl

theorem fin_emb {au : Unif.AU} {au' : AU} (h : Agree au au') (m : Unif.M) (t : Option UT) :
    (embM m).fin au' (t.map emb) = (m.fin au t).map embM := by
  obtain ⟨q, bc, bl, hp, hpp, post, sub, ts, mt, tot, cnt⟩ := m
  cases bl with
  | none => exact checkEnd_emb ⟨q, bc - 1, none, hp, hpp, post, sub, ts, mt, tot, cnt⟩
  | some b =>
    simp only [M.fin, Unif.M.fin, embM, getElem_embL]
    split
    · cases ts[q]? with
      | none => rfl
      | some u =>
        cases u with
        | fn p args => rfl
        | mv x =>
          cases t with
          | none => rfl
          | some t =>
            simp only [Option.map_some, emb]
            have hx := h (.mv x) t mt
            simp only [emb] at hx
            rw [hx, map_bind, bind_map]
            refine bind_congr fun s => ?_
            have := lockedRight_emb ⟨q, bc - 1, none, hp, hpp, post, sub, ts, s, tot, cnt⟩
            simp only [embM] at this
            rw [this, map_bind, bind_map]
            exact bind_congr fun m => checkEnd_emb m
    · exact checkEnd_emb ⟨q, bc - 1, some b, hp, hpp, post, sub, ts, mt, tot, cnt⟩

theorem eraseIdx_map {α : Type u} {β : Type v} (f : α → β) : ∀ (l : List α) (i : Nat), (l.map f).eraseIdx i = (l.eraseIdx i).map f
  | [], _ => rfl
  | _ :: _, 0 => rfl
  | a :: l, i + 1 => by simp [eraseIdx_map f l i]

theorem step_emb {au : Unif.AU} {au' : AU} (h : Agree au au') (m : Unif.M) (i : Instr) : (embM m).step au' (embI i) = (m.step au i).map embM := by
  obtain ⟨q, bc, bl, hp, hpp, post, sub, ts, mt, tot, cnt⟩ := m
  cases i with
  | fin t => exact fin_emb h _ t
  | right => exact right_emb _
  | begin =>
    simp only [embI, M.step, Unif.M.step, embM, getElem_embL]
    cases ts[q]? with
    | none => rfl
    | some u => cases u <;> rfl
  | down =>
    cases bl with
    | some b => rfl
    | none =>
      simp only [embI, M.step, Unif.M.step, embM, getElem_embL]
      cases ts[q]? with
      | none => rfl
      | some u => cases u <;> simp [emb, Res.map, embM, embL_length]
  | check p =>
    cases bl with
    | some b => rfl
    | none =>
      simp only [embI, M.step, Unif.M.step, embM, getElem_embL]
      cases ts[q]? with
      | none => rfl
      | some u =>
        cases u with
        | fn p' args => simp only [Option.map_some, emb]; split <;> rfl
        | mv x =>
          simp only [Option.map_some, emb, get_emb, length_embS]
          cases mt.get x with
          | none => rfl
          | some v =>
            simp only [Option.map_some, unwrap_emb]
            cases Unif.unwrap mt (mt.length + 1) [] v with
            | mv y => rfl
            | fn p' args => simp only [emb]; split <;> rfl
  | push i =>
    cases bl with
    | some b => rfl
    | none => simp [embI, M.step, Unif.M.step, embM, Res.map]
  | pop i =>
    cases bl with
    | some b => rfl
    | none =>
      simp only [embI, M.step, Unif.M.step, embM, List.getElem?_map]
      cases post[i]? with
      | none => rfl
      | some x =>
        simp only [Option.map_some, embL_length]
        split
        · rfl
        · simp [Res.map, embM, eraseIdx_map]
  | put i =>
    cases bl with
    | some b => rfl
    | none =>
      simp only [embI, M.step, Unif.M.step, embM, getElem_embL]
      cases ts[q]? with
      | none => rfl
      | some u => simp [Res.map, embM, embS, embB]
  | compare i j =>
    cases bl with
    | some b => rfl
    | none =>
      simp only [embI, M.step, Unif.M.step, embM, getAt_emb]
      cases Unif.getAt sub i with
      | none => rfl
      | some a =>
        cases Unif.getAt sub j with
        | none => rfl
        | some b =>
          simp only [Option.map_some, unwrap_emb, length_embS, emb_inj]
          split
          · rfl
          · rw [h, map_bind, bind_map]; rfl

theorem exec_emb {au : Unif.AU} {au' : AU} (h : Agree au au') : ∀ (l : List Instr) (m : Unif.M),
    exec au' (l.map embI) (embM m) = (Unif.exec au l m).map embM
  | [], _ => rfl
  | i :: l, m => by
    simp only [List.map_cons, exec, Unif.exec, step_emb h, map_bind, bind_map]
    exact bind_congr fun m => exec_emb h l m

/-! ### Merging -/

def embSS (r : Subst × Subst) : PSub × PSub := (embS r.1, embS r.2)

theorem computeLoop_emb {au : Unif.AU} {au' : AU} (h : Agree au au') (metas : List Nat) : ∀ (l : Subst) (d : List Nat) (T E : Subst),
    computeLoop au' metas (embS l) (embS T) (embS E) = (Unif.computeLoop false au metas l d T E).map embSS
  | [], _, _, _ => rfl
  | (i, u) :: rest, d, T, E => by
    have ih := computeLoop_emb h metas rest
    show computeLoop au' metas ((i, emb u) :: embS rest) (embS T) (embS E) = _
    simp only [computeLoop, Unif.computeLoop]
    cases metas[i]? with
    | none => rfl
    | some m =>
      have e : (PT.mv m = emb u) ↔ (UT.mv m = u) := emb_inj (a := .mv m)
      simp only [e, Bool.false_and, Bool.false_eq_true, if_false, get_emb, set_emb]
      split
      · exact ih d T E
      · cases E.get m with
        | none => exact ih _ _ _
        | some v =>
          simp only [Option.map_some, emb_inj]
          split
          · exact ih _ _ _
          · rw [h, map_bind, bind_map, removeKey_emb]
            exact bind_congr fun T' => ih _ _ _

theorem mergeLoop_emb {au : Unif.AU} {au' : AU} (h : Agree au au') (n : Nat) : ∀ l r : Subst,
    mergeLoop au' n (embS l) (embS r) = (Unif.mergeLoop au n l r).map embS
  | [], _ => rfl
  | (k, v) :: rest, r => by
    show mergeLoop au' n ((k, emb v) :: embS rest) (embS r) = _
    simp only [mergeLoop, Unif.mergeLoop, has_emb, set_emb, elimBoth_emb]
    have hk := h (.mv k) v r
    simp only [emb] at hk
    split
    · rw [hk, map_bind, bind_map]
      exact bind_congr fun s => mergeLoop_emb h n rest s
    · rw [map_bind, bind_map]
      exact bind_congr fun s => mergeLoop_emb h n rest s

theorem foldl_emb : ∀ s r : Subst, (embS s).foldl (fun r p => PSub.set r p.1 p.2) (embS r) = embS (s.foldl (fun r p => r.set p.1 p.2) r)
  | [], _ => rfl
  | (k, v) :: s, r => by
    show (embS s).foldl _ (PSub.set (embS r) k (emb v)) = _
    rw [set_emb]
    exact foldl_emb s _

theorem merge_emb {au : Unif.AU} {au' : AU} (h : Agree au au') (n : Nat) (s1 s2 : Subst) :
    merge au' n (embS s1) (embS s2) = (Unif.merge au n s1 s2).map embS := by
  have e : ∀ s : Subst, (embS s).isEmpty = s.isEmpty := fun s => by cases s <;> rfl
  simp only [merge, Unif.merge, e]
  split
  · rfl
  · split
    · rfl
    · have := foldl_emb s1 []
      rw [show embS [] = [] from rfl] at this
      rw [this]
      exact mergeLoop_emb h n s2 _

theorem tryUnif_emb {au : Unif.AU} {au' : AU} (h : Agree au au') (n : Nat) (a b : UT) (s : Subst) :
    tryUnif au' n (emb a) (emb b) (embS s) = (Unif.tryUnif false au n a b s).map embS := by
  have he := exec_emb h (Unif.parseTerm a) { terms := [b], mt := s }
  simp only [embM, embL, embS, List.map_nil] at he
  simp only [tryUnif, Unif.tryUnif, parseTerm_emb, enc_emb, occ_emb]
  rw [show (embS s : PSub) = s.map embB from rfl, he, map_bind, bind_map]
  refine bind_congr fun m => ?_
  show compute au' n a.occ (embS m.subst) (embS m.mt) = _
  have hc := computeLoop_emb h a.occ m.subst [] [] m.mt
  rw [show embS [] = [] from rfl] at hc
  simp only [compute, Unif.compute, hc, map_bind, bind_map, embSS, elimBoth_emb, merge_emb h]

theorem boundElse_emb (s : Subst) (a b : UT) : boundElse (embS s) (emb a) (emb b) = Unif.boundElse s a b := by
  cases a with
  | fn p l => rfl
  | mv x =>
    simp only [emb, boundElse, Unif.boundElse, get_emb]
    cases s.get x with
    | none => rfl
    | some v => simp [emb_inj]

theorem addUnifBody_emb {au : Unif.AU} {au' : AU} (h : Agree au au') (n : Nat) : Agree (Unif.addUnifBody false au n) (addUnifBody au' n) := by
  intro a b s
  have ht := tryUnif_emb h n a b s
  have h1 := boundElse_emb s a b
  have h2 := boundElse_emb s b a
  cases a with
  | fn p l =>
    cases b with
    | fn q m =>
      simp only [emb] at ht ⊢
      simp only [addUnifBody, Unif.addUnifBody, ht, map_bind, bind_map, elimBoth_emb]
    | mv y =>
      have hs := set_emb s y (.fn p l)
      simp only [emb] at ht h2 hs ⊢
      simp only [addUnifBody, Unif.addUnifBody, ht, h2, hs]
      split
      · simp only [map_bind, bind_map, elimBoth_emb]
      · exact elimBoth_emb n _
  | mv x =>
    have hs := set_emb s x b
    simp only [emb] at ht h1 h2 ⊢
    simp only [addUnifBody, Unif.addUnifBody, ht, h1, h2, hs]
    split
    · simp only [map_bind, bind_map, elimBoth_emb]
    · exact elimBoth_emb n _

theorem addUnif_emb : ∀ n : Nat, Agree (Unif.addUnif false n) (addUnif n)
  | 0 => fun _ _ _ => rfl
  | n + 1 => addUnifBody_emb (addUnif_emb n) n

/-! ### Mixed substitutions without polymorphic symbols -/

variable {pi : Nat → Nat} {isTy : Nat → Bool}

mutual
theorem emb_val (hp : ∀ p, pi p = 0) : ∀ t : PT, Typed pi t → emb t.val = t
  | .mv i, _ => rfl
  | .fn p tys args, h => by
    have : tys = [] := by have := h.1; rw [hp] at this; exact List.length_eq_zero_iff.1 this
    subst this
    simp only [PT.val, List.nil_append, emb, embL_valL hp args h.2]
theorem embL_valL (hp : ∀ p, pi p = 0) : ∀ l : List PT, TypedL pi l → embL (PT.valL l) = l
  | [], _ => rfl
  | a :: l, h => by simp only [PT.valL, embL, emb_val hp a h.1, embL_valL hp l h.2]
end

theorem typedL_emb {l : List UT} (h : ∀ a ∈ l, Typed pi (emb a)) : TypedL pi (embL l) := by
  induction l with
  | nil => trivial
  | cons a l ih => exact ⟨h a (by simp), ih fun b hb => h b (by simp [hb])⟩

theorem typed_emb (hp : ∀ p, pi p = 0) (t : UT) : Typed pi (emb t) := by
  induction t using UT.ind with
  | mv i => trivial
  | fn p args ih => exact ⟨(hp p).symm, typedL_emb ih⟩

/-- The bindings of a substitution. -/
def plain (s : List Mix) : Subst := s.map Mix.binding

/-- A binding of a type or of a term. -/
def back (isTy : Nat → Bool) (b : Nat × UT) : Mix := if isTy b.1 then .ty b.1 b.2 else .tm b.1 (emb b.2)

theorem binding_back (b : Nat × UT) : (back isTy b).binding = b := by
  simp only [back]; split
  · rfl
  · simp [Mix.binding, val_emb]

theorem toSub_plain (hp : ∀ p, pi p = 0) {s : List Mix} (h : TypedS pi s) : s.map Mix.toSub = embS (plain s) := by
  simp only [plain, embS, List.map_map]
  refine List.map_congr_left fun b hb => ?_
  cases b with
  | ty k v => rfl
  | tm k v => simp [Mix.toSub, Mix.binding, embB, emb_val hp v (h k v hb)]

theorem mapM_back (hp : ∀ p, pi p = 0) : ∀ r : Subst, (embS r).mapM (fromSub pi isTy) = some (r.map (back isTy))
  | [] => rfl
  | (k, v) :: r => by
    have h : fromSub pi isTy (k, emb v) = some (back isTy (k, v)) := by
      simp only [fromSub, back, toTy_emb, dec_typed _ (typed_emb hp v)]
      split <;> rfl
    have ih := mapM_back hp r
    show ((k, emb v) :: embS r).mapM (fromSub pi isTy) = _
    simp [h, ih]

theorem mergeMixed_plain (hp : ∀ p, pi p = 0) {s1 s2 : List Mix} (h1 : TypedS pi s1) (h2 : TypedS pi s2) (n : Nat) :
    mergeMixed pi isTy n s1 s2 = (Unif.merge (Unif.addUnif false n) n (plain s1) (plain s2)).map (List.map (back isTy)) := by
  simp only [mergeMixed, toSub_plain hp h1, toSub_plain hp h2, merge_emb (addUnif_emb n), map_bind]
  cases Unif.merge (Unif.addUnif false n) n (plain s1) (plain s2) with
  | ok r => simp [Res.bind, Res.map, mapM_back hp]
  | _ => rfl

theorem sat_iff {σ : Nat → UT} {s : List Mix} : Sat σ s ↔ Respects σ (plain s) := by
  simp [Sat, Respects, plain]

/-- **C103 for problems without polymorphic symbols**: merging substitutions of types and terms is merging their bindings (C28). -/
theorem C103_mono (hp : ∀ p, pi p = 0) {s1 s2 : List Mix} (h1 : TypedS pi s1) (h2 : TypedS pi s2) (r : List Mix) :
    MergesMixed pi isTy s1 s2 (.ok r) ↔ ∃ r', Merges (plain s1) (plain s2) (.ok r') ∧ r = r'.map (back isTy) := by
  simp only [MergesMixed, Merges, mergeMixed_plain hp h1 h2]
  constructor
  · rintro ⟨-, n, hn⟩
    cases hm : Unif.merge (Unif.addUnif false n) n (plain s1) (plain s2) with
    | ok r' =>
      rw [hm] at hn
      simp only [Res.map, Res.ok.injEq] at hn
      exact ⟨r', ⟨by simp, n, hm⟩, hn.symm⟩
    | _ => rw [hm] at hn; simp [Res.map] at hn
  · rintro ⟨r', ⟨-, n, hn⟩, rfl⟩
    exact ⟨by simp, n, by rw [hn]; rfl⟩

/-- **C103 (partial)**: without polymorphic symbols, substitutions whose values have no metavariables are merged exactly if an instantiation satisfies
both, and what satisfies the result satisfies both. Missing: polymorphic symbols (`C103_violated_constant`, `C103_violated_function`); metavariables
in the values are the subject of C28. -/
theorem C103_merge_partial (hp : ∀ p, pi p = 0) {ar : Nat → Nat} {s1 s2 : List Mix} (h1 : TypedS pi s1) (h2 : TypedS pi s2) (c1 : Closed s1)
    (c2 : Closed s2) (a1 : (plain s1).Ar ar) (a2 : (plain s2).Ar ar) (k1 : ((plain s1).map (·.1)).Nodup) (k2 : ((plain s2).map (·.1)).Nodup) :
    ((∃ r, MergesMixed pi isTy s1 s2 (.ok r)) ↔ ∃ σ, Sat σ s1 ∧ Sat σ s2) ∧
    ∀ r, MergesMixed pi isTy s1 s2 (.ok r) → ∀ σ, Sat σ r → Sat σ s1 ∧ Sat σ s2 := by
  have g : ∀ {s : List Mix}, Closed s → ∀ p ∈ plain s, p.2.occ = [] := fun h p hp => by
    obtain ⟨b, hb, rfl⟩ := List.mem_map.1 hp
    exact h b hb
  constructor
  · simp only [sat_iff, ← C28_ground_exact a1 a2 k1 k2 (g c1) (g c2), C103_mono hp h1 h2]
    constructor
    · rintro ⟨_, r', h, -⟩; exact ⟨r', h⟩
    · rintro ⟨r', h⟩; exact ⟨_, r', h, rfl⟩
  · intro r hr σ hσ
    obtain ⟨r', h, rfl⟩ := (C103_mono hp h1 h2 r).1 hr
    have : plain (r'.map (back isTy)) = r' := by
      simp only [plain, List.map_map]
      exact (List.map_congr_left fun b _ => binding_back b).trans (List.map_id _)
    rw [sat_iff, this] at hσ
    simpa only [sat_iff] using (C28_ground_sound a1 a2 k1 k2 (g c1) (g c2) h).1 σ hσ

/-- The hypotheses are met: a type and a term, and the same type with another term. -/
example : ∃ r, MergesMixed (fun _ => 0) (fun i => i == 5) [.ty 5 A, .tm 0 Ex.a] [.ty 5 A, .tm 1 Ex.a] (.ok r) := by
  refine (C103_merge_partial (fun _ => rfl) (ar := fun _ => 0) ?_ ?_ ?_ ?_ ?_ ?_ ?_ ?_).1.2 ⟨fun i => if i = 5 then A else Ex.a.val, ?_, ?_⟩
  all_goals first
    | (intro k v hv; simp at hv; obtain ⟨-, rfl⟩ := hv; simp [Ex.a, Typed, TypedL])
    | (intro b hb; simp at hb; rcases hb with rfl | rfl <;> rfl)
    | decide
    | (intro b hb; simp [plain, Mix.binding] at hb; rcases hb with rfl | rfl <;> simp [A, Ex.a, PT.val, PT.valL, UT.Ar, UT.ArL])

/-- And two different types are not merged. -/
example : ¬ ∃ r, MergesMixed (fun _ => 0) (fun i => i == 5) [.ty 5 A] [.ty 5 B] (.ok r) := by
  rw [(C103_merge_partial (fun _ => rfl) (ar := fun _ => 0) ?_ ?_ ?_ ?_ ?_ ?_ ?_ ?_).1]
  · rintro ⟨σ, h1, h2⟩
    have := (h1 (.ty 5 A) (by simp)).symm.trans (h2 (.ty 5 B) (by simp))
    simp [Mix.binding, A, B, UT.inst, UT.eval, UT.evalL, termAlg] at this
  all_goals first
    | (intro k v hv; simp at hv; done)
    | (intro b hb; rw [List.mem_singleton.1 hb]; rfl)
    | decide
    | (intro b hb; simp [plain, Mix.binding] at hb; subst hb; simp [A, B, UT.Ar, UT.ArL])

end Verif.Unif.Mixed
