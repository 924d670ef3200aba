import Verif.Mods.TptpGood
/-!
# The TPTP output: the derivations written for refutations are accepted
-/

namespace Verif.Tptp
open Verif.AST
open Verif.Gs3 (Rule Tree allVars allVarsL mem_allVarsL alphaParts betaParts quantParts)
open Verif.Rocq (put allRest exRest)

/-! ## Lists -/

theorem mem_add {f : Form} : ∀ {gs hs : List Form}, f ∈ add hs gs ↔ f ∈ hs ∨ f ∈ gs
  | [], hs => by simp [add]
  | g :: gs, hs => by
    simp only [add]
    split
    · rename_i h
      rw [mem_add, List.mem_cons]
      constructor
      · rintro (h | h)
        · exact .inl h
        · exact .inr (.inr h)
      · rintro (h' | rfl | h')
        · exact .inl h'
        · exact .inl h
        · exact .inr h'
    · rw [mem_add, List.mem_append, List.mem_singleton, List.mem_cons, or_assoc]

theorem get_mem {f : Form} {hs : List Form} (h : f ∈ hs) : ∃ i, get f hs = some i ∧ hs[i]? = some f := by
  unfold get Rocq.indexOf
  cases he : hs.findIdx? fun g => decide (g = f) with
  | none =>
    rw [List.findIdx?_eq_none_iff] at he
    simpa using he f h
  | some i =>
    rw [List.findIdx?_eq_some_iff_getElem] at he
    obtain ⟨hi, he, _⟩ := he
    refine ⟨i, rfl, ?_⟩
    rw [List.getElem?_eq_getElem hi]
    simpa using he

theorem mapM_some {α β : Type} {g : α → Option β} {h : α → β} : ∀ {l : List α}, (∀ a ∈ l, g a = some (h a)) →
    l.mapM g = some (l.map h)
  | [], _ => rfl
  | a :: l, hl => by
    rw [List.mapM_cons, hl a (by simp), mapM_some (fun b hb => hl b (by simp [hb]))]
    rfl

theorem branchHyps_eq (forms : List (List Form)) (hs : List Form) :
    branchHyps forms hs forms.length = some (forms.map (add hs)) := by
  unfold branchHyps
  rw [mapM_some (h := fun i => add hs (forms[i]?.getD []))]
  · congr 1
    apply List.ext_getElem
    · simp
    · intro i h1 h2
      have : i < forms.length := by simpa using h2
      simp [this]
  · intro i hi
    have : i < forms.length := by simpa using hi
    simp [this]

theorem repl_putT {x : Nat} {u t : Term} (hx : x ∉ t.funs) (hu : u.vars = []) :
    (replT (.var x) u t).1 = Rocq.putT x u t := by
  have hu1 : ¬ (Term.var x = u) := by rintro rfl; simp [Term.vars] at hu
  induction t using Term.ind with
  | var i =>
    simp only [replT_var_fst, Rocq.putT]
    by_cases h : i = x
    · simp [h]
    · simp [h, Ne.symm h]
  | mv i => simp [replT, Rocq.putT, hu1]
  | fn q tys args ih =>
    simp only [Term.funs, List.mem_cons, not_or, Term.mem_funsL, not_exists, not_and] at hx
    rw [replT_fn_fst, if_neg hx.1]
    simp only [Rocq.putT, Rocq.putTL_eq]
    congr 1
    exact List.map_congr_left (fun a ha => ih a ha (hx.2 a ha))

theorem repl_put {x : Nat} {u : Term} {f : Form} (hx : x ∉ f.funs) (hb : x ∉ f.binders) (hu : u.vars = []) :
    repl (.var x) u f = put x u f := by
  unfold repl
  induction f using Form.ind with
  | pred q tys args =>
    simp only [Form.funs, Term.mem_funsL, not_exists, not_and] at hx
    simp only [Form.replaceTermByTerm, put, replTL_fst, Rocq.putTL_eq]
    congr 1
    exact List.map_congr_left (fun a ha => repl_putT (hx a ha) hu)
  | top => rfl
  | bot => rfl
  | neg f ih => simp only [Form.replaceTermByTerm, put]; rw [ih hx hb]
  | and fs ih =>
    simp only [Form.funs, Form.mem_funsL, not_exists, not_and] at hx
    simp only [Form.binders, Form.mem_bindersL, not_exists, not_and] at hb
    simp only [Form.replaceTermByTerm, put, Form.replaceTermByTermL_fst, Rocq.putL_eq]
    congr 1
    exact List.map_congr_left (fun a ha => ih a ha (hx a ha) (hb a ha))
  | or fs ih =>
    simp only [Form.funs, Form.mem_funsL, not_exists, not_and] at hx
    simp only [Form.binders, Form.mem_bindersL, not_exists, not_and] at hb
    simp only [Form.replaceTermByTerm, put, Form.replaceTermByTermL_fst, Rocq.putL_eq]
    congr 1
    exact List.map_congr_left (fun a ha => ih a ha (hx a ha) (hb a ha))
  | imp f g ihf ihg =>
    simp only [Form.funs, List.mem_append, not_or] at hx
    simp only [Form.binders, List.mem_append, not_or] at hb
    simp only [Form.replaceTermByTerm, put]; rw [ihf hx.1 hb.1, ihg hx.2 hb.2]
  | equ f g ihf ihg =>
    simp only [Form.funs, List.mem_append, not_or] at hx
    simp only [Form.binders, List.mem_append, not_or] at hb
    simp only [Form.replaceTermByTerm, put]; rw [ihf hx.1 hb.1, ihg hx.2 hb.2]
  | all vs f ih =>
    simp only [Form.binders, List.mem_append, not_or] at hb
    simp only [Form.replaceTermByTerm, put, if_neg hb.1]; rw [ih hx hb.2]
  | ex vs f ih =>
    simp only [Form.binders, List.mem_append, not_or] at hb
    simp only [Form.replaceTermByTerm, put, if_neg hb.1]; rw [ih hx hb.2]

theorem put_absent {x : Nat} {u : Term} {f : Form} (h : x ∉ allVars f) : put x u f = f := by
  induction f using Form.ind with
  | pred q tys args =>
    simp only [allVars, Term.mem_varsL, not_exists, not_and] at h
    simp only [put, Rocq.putTL_eq]
    rw [map_id_of (fun a ha => Rocq.putT_absent (h a ha))]
  | top => rfl
  | bot => rfl
  | neg f ih => simp only [put]; rw [ih h]
  | and fs ih =>
    simp only [allVars, mem_allVarsL, not_exists, not_and] at h
    simp only [put, Rocq.putL_eq]
    rw [map_id_of (fun a ha => ih a ha (h a ha))]
  | or fs ih =>
    simp only [allVars, mem_allVarsL, not_exists, not_and] at h
    simp only [put, Rocq.putL_eq]
    rw [map_id_of (fun a ha => ih a ha (h a ha))]
  | imp f g ihf ihg =>
    simp only [allVars, List.mem_append, not_or] at h
    simp only [put]; rw [ihf h.1, ihg h.2]
  | equ f g ihf ihg =>
    simp only [allVars, List.mem_append, not_or] at h
    simp only [put]; rw [ihf h.1, ihg h.2]
  | all vs f ih => simp only [put]; rw [ih h]; simp
  | ex vs f ih => simp only [put]; rw [ih h]; simp

/-! ## The checker -/

theorem check_append {As : List Form} {ls : List Line} : ∀ {done l : List Step},
    check As done (l.map .step ++ ls) = (check As done (l.map .step) && check As (done ++ l) ls)
  | done, [] => by simp [check]
  | done, s :: l => by
    simp only [List.map_cons, List.cons_append, check]
    rw [check_append, List.append_assoc, List.singleton_append]
    simp only [Bool.and_assoc]

theorem check_unique {As : List Form} : ∀ {l done : List Step}, check As done (l.map .step) = true →
    ∀ s ∈ l, ∀ s' ∈ done ++ l, s'.name = s.name → s' = s
  | [], _, _, _, h, _, _, _ => by cases h
  | a :: l, done, h, s, hs, s', hs', he => by
    simp only [List.map_cons, check, Bool.and_eq_true, decide_eq_true_eq] at h
    have hrest := check_unique h.2
    rcases List.mem_cons.1 hs with rfl | hs
    · rcases List.mem_append.1 hs' with hs' | hs'
      · exact absurd (List.mem_map.2 ⟨s', hs', he⟩) h.1.1
      · rcases List.mem_cons.1 hs' with rfl | hs'
        · rfl
        · exact (hrest s' hs' s (by simp) he.symm).symm
    · refine hrest s hs s' ?_ he
      simpa using hs'

theorem find_append {α : Type} {P : α → Bool} {l m : List α} {a : α} (h : l.find? P = some a) :
    (l ++ m).find? P = some a := by
  rw [List.find?_append, h]; rfl

theorem seqOf_found {As : List Form} {done l more : List Step} (h : check As done (l.map .step) = true) {s : Step}
    (hs : s ∈ l) (hn : ∀ i, s.name ≠ .ax i) : seqOf As (done ++ l ++ more) s.name = some s.seq := by
  have hf : (done ++ l).find? (fun s' => decide (s'.name = s.name)) = some s := by
    cases he : (done ++ l).find? (fun s' => decide (s'.name = s.name)) with
    | none =>
      rw [List.find?_eq_none] at he
      exact absurd (decide_eq_true (rfl : s.name = s.name)) (he s (List.mem_append.2 (.inr hs)))
    | some s' =>
      have h1 := List.find?_some he
      have h2 := List.mem_of_find?_eq_some he
      simp only [decide_eq_true_eq] at h1
      rw [check_unique h s hs s' h2 h1]
  have hf' := find_append (m := more) hf
  have key : ∀ nm : Name, nm = s.name → seqOf As (done ++ l ++ more) nm = some s.seq := by
    intro nm hnm
    cases nm with
    | ax i => exact absurd hnm.symm (hn i)
    | _ => simp only [seqOf, hnm, hf', Option.map_some]
  exact key _ rfl

theorem seqOf_last {As : List Form} {done : List Step} {s : Step} {nm : Name} (h : s.name = nm) (hn : ∀ i, nm ≠ .ax i)
    (hd : nm ∉ done.map Step.name) {more : List Step} : seqOf As (done ++ s :: more) nm = some s.seq := by
  have hf : (done ++ s :: more).find? (fun s' => decide (s'.name = nm)) = some s := by
    rw [List.find?_append, List.find?_eq_none.2, Option.none_or]
    · simp [h]
    · intro x hx
      simp only [decide_eq_true_eq]
      intro e
      exact hd (List.mem_map.2 ⟨x, hx, e⟩)
  cases nm with
  | ax i => exact absurd rfl (hn i)
  | _ => simp only [seqOf, hf, Option.map_some]

theorem seqOf_more {As : List Form} {done more : List Step} {nm : Name} {p : Seq} (h : seqOf As done nm = some p) :
    seqOf As (done ++ more) nm = some p := by
  cases nm with
  | ax i => exact h
  | _ =>
    simp only [seqOf, Option.map_eq_some_iff] at h ⊢
    obtain ⟨s, hs, rfl⟩ := h
    exact ⟨s, find_append hs, rfl⟩

theorem check_single {As : List Form} {done : List Step} {s : Step} {ps : List Seq} (hd : s.name ∉ done.map Step.name)
    (hp : s.prems.mapM (seqOf As done) = some ps) (hok : stepOk As s ps = true) :
    check As done ([s].map .step) = true := by
  simp [check, hd, hp, hok]

theorem check_cons {As : List Form} {done : List Step} {s : Step} {ps : List Seq} {l : List Step}
    (hd : s.name ∉ done.map Step.name) (hp : s.prems.mapM (seqOf As done) = some ps) (hok : stepOk As s ps = true)
    (hl : check As (done ++ [s]) (l.map .step) = true) : check As done ((s :: l).map .step) = true := by
  simp [check, hd, hp, hok, hl]

theorem stepOk_parts {As : List Form} {nm : Name} {hs : List Form} {inf : Inf} {prems : List Name} {ps : List Seq}
    {f : Form} {pss : List (List Form)} (hf : hs[inf.pos]? = some f) (hp : parts inf f = some pss)
    (h : premises ⟨nm, hs, [], inf, prems⟩ inf.pos pss ps = true) : stepOk As ⟨nm, hs, [], inf, prems⟩ ps = true := by
  cases inf <;> simp only [Inf.pos] at hf h <;> simp only [stepOk, Inf.pos, hf, hp, h] <;>
    (unfold parts at hp; split at hp <;> simp_all)

theorem premise_of {nm : Name} {hs : List Form} {inf : Inf} {prems : List Name} {i : Nat} {ps : List Form} {h : List Form}
    (hm : ∀ f, f ∈ h ↔ f ∈ hs ∨ f ∈ ps) : premise ⟨nm, hs, [], inf, prems⟩ i ps ⟨h, []⟩ = true := by
  simp only [premise, Bool.and_eq_true, Bool.or_eq_true, same_iff, List.mem_append]
  exact ⟨by simp, .inl hm⟩

theorem premises_of {nm : Name} {hs : List Form} {inf : Inf} {prems : List Name} {i : Nat} : ∀ {pss hss : List (List Form)},
    pss.length = hss.length →
    (∀ (j : Nat) (ps h : List Form), pss[j]? = some ps → hss[j]? = some h → ∀ f, f ∈ h ↔ f ∈ hs ∨ f ∈ ps) →
    premises ⟨nm, hs, [], inf, prems⟩ i pss (hss.map (⟨·, []⟩)) = true
  | [], [], _, _ => rfl
  | [], _ :: _, h, _ => by simp at h
  | _ :: _, [], h, _ => by simp at h
  | ps :: pss, h :: hss, hl, hm => by
    simp only [List.map_cons, premises, Bool.and_eq_true]
    exact ⟨premise_of (hm 0 ps h rfl rfl), premises_of (by simpa using hl) (fun j a b ha hb => hm (j + 1) a b ha hb)⟩

theorem prems_of {As : List Form} {done : List Step} : ∀ {ids : List Nat} {hss : List (List Form)},
    ids.length = hss.length →
    (∀ (j k : Nat) (h : List Form), ids[j]? = some k → hss[j]? = some h → seqOf As done (.f k) = some ⟨h, []⟩) →
    (ids.map Name.f).mapM (seqOf As done) = some (hss.map (⟨·, []⟩))
  | [], [], _, _ => rfl
  | [], _ :: _, h, _ => by simp at h
  | _ :: _, [], h, _ => by simp at h
  | k :: ids, h :: hss, hl, hm => by
    rw [List.map_cons, List.mapM_cons, hm 0 k h rfl rfl,
      prems_of (by simpa using hl) (fun j a b ha hb => hm (j + 1) a b ha hb)]
    rfl

/-! ## What is proved of a call of `follow` -/

/-- The number in a name. -/
def Name.num : Name → Option Nat
  | .f n => some n
  | .ext n _ => some n
  | .extc n _ => some n
  | .ac _ => none
  | .ax _ => none

/-- The symbols `sko_k`, `sko_(k+1)`, … -/
def Later (cfg : Cfg) (k : Nat) : Nat → Prop := fun q => ∃ j, k ≤ j ∧ q = cfg.sko j

theorem Later.anti {cfg : Cfg} {k k' : Nat} (h : k ≤ k') {q : Nat} (hq : Later cfg k' q) : Later cfg k q := by
  obtain ⟨j, hj, rfl⟩ := hq
  exact ⟨j, by omega, rfl⟩

/-- The terms recorded so far are Skolem terms. -/
def Recorded (S : Nat → Prop) (orig : List (Option Term)) : Prop :=
  ∀ o ∈ orig, ∃ q ty as, o = some (.fn q ty as) ∧ S q

/-- The steps already printed have other numbers. -/
def Apart (done : List Step) (cnt : Nat) (ids : List Nat) : Prop :=
  ∀ s ∈ done, ∃ m, s.name.num = some m ∧ m ≤ cnt ∧ m ∉ ids

/-- The lines for a list of sequents are correct steps with these numbers. -/
def Fine (S : Nat → Prop) (As : List Form) (ids : List Nat) (hss : List (List Form)) (st : St)
    (r : Option (List Line × St)) : Prop :=
  ∃ (steps : List Step) (st' : St), r = some (steps.map .step, st') ∧ st.cnt ≤ st'.cnt ∧
    st.orig.length ≤ st'.orig.length ∧ Recorded S st'.orig ∧
    (∀ s ∈ steps, ∃ m, s.name.num = some m ∧ (m ∈ ids ∨ st.cnt < m ∧ m ≤ st'.cnt)) ∧
    (∀ done, Apart done st.cnt ids → check As done (steps.map .step) = true) ∧
    ∀ (i k : Nat) (h : List Form), ids[i]? = some k → hss[i]? = some h →
      ∃ s ∈ steps, s.name = .f k ∧ s.seq = ⟨h, []⟩

theorem followAll_fine {S : Nat → Prop} {As : List Form} {g : Tree → List Form → Option Nat → St → Option (List Line × St)} :
    ∀ {cs : List Tree} {hss : List (List Form)} {ids : List Nat} {st : St}, cs.length = hss.length →
      cs.length = ids.length → ids.Nodup → (∀ k ∈ ids, k ≤ st.cnt) → Recorded S st.orig →
      (∀ (i : Nat) (c : Tree) (h : List Form) (k : Nat), cs[i]? = some c → hss[i]? = some h → ids[i]? = some k →
        ∀ st1 : St, st.cnt ≤ st1.cnt → st.orig.length ≤ st1.orig.length → Recorded S st1.orig →
          Fine S As [k] [h] st1 (g c h (some k) st1)) →
      Fine S As ids hss st (followAll g cs hss (ids.map some) st)
  | [], [], [], st, _, _, _, _, hr, _ =>
    ⟨[], st, rfl, Nat.le_refl _, Nat.le_refl _, hr, by simp, by simp [check], by simp⟩
  | [], _ :: _, _, _, h, _, _, _, _, _ => by simp at h
  | [], [], _ :: _, _, _, h, _, _, _, _ => by simp at h
  | _ :: _, [], _, _, h, _, _, _, _, _ => by simp at h
  | _ :: _, _ :: _, [], _, _, h, _, _, _, _ => by simp at h
  | c :: cs, h :: hss, k :: ids, st, hl1, hl2, hnd, hle, hr, hg => by
    obtain ⟨s1, st1, e1, a1, b1, r1, n1, c1, f1⟩ := hg 0 c h k rfl rfl rfl st (Nat.le_refl _) (Nat.le_refl _) hr
    have hnd' := List.nodup_cons.1 hnd
    obtain ⟨s2, st2, e2, a2, b2, r2, n2, c2, f2⟩ := followAll_fine (S := S) (As := As) (g := g) (cs := cs) (hss := hss)
      (ids := ids) (st := st1) (by simpa using hl1) (by simpa using hl2) hnd'.2
      (fun k' hk' => Nat.le_trans (hle k' (by simp [hk'])) a1) r1
      (fun i c' h' k' hc hh hk st' ha hb hr' =>
        hg (i + 1) c' h' k' hc hh hk st' (Nat.le_trans a1 ha) (Nat.le_trans b1 hb) hr')
    refine ⟨s1 ++ s2, st2, ?_, Nat.le_trans a1 a2, Nat.le_trans b1 b2, r2, ?_, ?_, ?_⟩
    · simp only [List.map_cons, followAll, e1, e2, List.map_append]
    · intro s hs
      rcases List.mem_append.1 hs with hs | hs
      · obtain ⟨m, hm, h | h⟩ := n1 s hs
        · exact ⟨m, hm, .inl (by simp at h; simp [h])⟩
        · exact ⟨m, hm, .inr ⟨h.1, by omega⟩⟩
      · obtain ⟨m, hm, h | h⟩ := n2 s hs
        · exact ⟨m, hm, .inl (by simp [h])⟩
        · exact ⟨m, hm, .inr ⟨by omega, h.2⟩⟩
    · intro done hd
      rw [List.map_append, check_append, Bool.and_eq_true]
      refine ⟨c1 done (fun s hs => ?_), c2 _ (fun s hs => ?_)⟩
      · obtain ⟨m, hm, h1, h2⟩ := hd s hs
        exact ⟨m, hm, h1, by simp at h2 ⊢; exact h2.1⟩
      · rcases List.mem_append.1 hs with hs | hs
        · obtain ⟨m, hm, h1, h2⟩ := hd s hs
          exact ⟨m, hm, by omega, by simp at h2; exact h2.2⟩
        · obtain ⟨m, hm, h | h⟩ := n1 s hs
          · simp at h
            subst h
            exact ⟨m, hm, Nat.le_trans (hle m (by simp)) a1, hnd'.1⟩
          · exact ⟨m, hm, h.2, fun hin => by have := hle m (by simp [hin]); omega⟩
    · intro i k' h' hk hh
      cases i with
      | zero =>
        obtain ⟨s, hs, h1, h2⟩ := f1 0 k' h' hk hh
        exact ⟨s, List.mem_append.2 (.inl hs), h1, h2⟩
      | succ i =>
        obtain ⟨s, hs, h1, h2⟩ := f2 i k' h' hk hh
        exact ⟨s, List.mem_append.2 (.inr hs), h1, h2⟩

/-- The steps of the children and the steps of the sequent itself. -/
theorem fine_node {S : Nat → Prop} {As : List Form} {cfg : Cfg} {n : Nat} {rule : Rule} {f : Form} {t : Option Term}
    {forms : List (List Form)} {cs : List Tree} {hs : List Form} {id : Nat} {st : St} {o : Out} {own : List Step}
    {ids : List Nat} {hss : List (List Form)}
    (hid : id ≤ st.cnt)
    (ho : makeStep cfg id rule f t forms cs hs st = some o) (hids : o.ids = ids.map some)
    (hhyps : o.hyps.map (add hs) = hss)
    (hown : o.lines = own.map .step) (hcnt : st.cnt ≤ o.st.cnt) (horig : st.orig.length ≤ o.st.orig.length)
    (hidr : ∀ k ∈ ids, st.cnt < k ∧ k ≤ o.st.cnt)
    (hname : ∀ s ∈ own, s.name.num = some id)
    (hmain : ∃ s ∈ own, s.name = .f id ∧ s.seq = ⟨hs, []⟩)
    (hch : Fine S As ids hss o.st (followAll (follow cfg n) o.children hss (ids.map some) o.st))
    (hok : ∀ done, (∀ s ∈ done, s.name.num ≠ some id) →
      (∀ (i k : Nat) (h : List Form), ids[i]? = some k → hss[i]? = some h → seqOf As done (.f k) = some ⟨h, []⟩) →
      check As done (own.map .step) = true) :
    Fine S As [id] [hs] st (follow cfg (n + 1) (.node rule f t forms cs) hs (some id) st) := by
  obtain ⟨s1, st1, e1, a1, b1, r1, n1, c1, f1⟩ := hch
  refine ⟨s1 ++ own, st1, ?_, Nat.le_trans hcnt a1, Nat.le_trans horig b1, r1, ?_, ?_, ?_⟩
  · simp only [follow, ho, hids, hhyps, e1, hown, List.map_append]
  · intro s hs
    rcases List.mem_append.1 hs with hs | hs
    · obtain ⟨m, hm, h | h⟩ := n1 s hs
      · exact ⟨m, hm, .inr ⟨(hidr m h).1, Nat.le_trans (hidr m h).2 a1⟩⟩
      · exact ⟨m, hm, .inr ⟨by omega, h.2⟩⟩
    · exact ⟨id, hname s hs, .inl (by simp)⟩
  · intro done hd
    have hd1 : Apart done o.st.cnt ids := by
      intro s hs
      obtain ⟨m, hm, h1, _⟩ := hd s hs
      exact ⟨m, hm, by omega, fun hin => by have := (hidr m hin).1; omega⟩
    rw [List.map_append, check_append, Bool.and_eq_true]
    refine ⟨c1 done hd1, hok _ (fun s hs => ?_) (fun i k h hk hh => ?_)⟩
    · rcases List.mem_append.1 hs with hs | hs
      · obtain ⟨m, hm, _, h2⟩ := hd s hs
        rw [hm]
        intro e
        cases e
        simp at h2
      · obtain ⟨m, hm, h | h⟩ := n1 s hs
        · rw [hm]
          intro e
          cases e
          have := (hidr _ h).1
          omega
        · rw [hm]
          intro e
          cases e
          omega
    · obtain ⟨s, hs, h1, h2⟩ := f1 i k h hk hh
      have := seqOf_found (more := []) (c1 done hd1) hs (by rw [h1]; simp)
      rw [h1, h2, List.append_nil] at this
      exact this
  · intro i k h hk hh
    cases i with
    | zero =>
      simp only [List.getElem?_cons_zero, Option.some.injEq] at hk hh
      subst hk hh
      obtain ⟨s, hs, h1, h2⟩ := hmain
      exact ⟨s, List.mem_append.2 (.inr hs), h1, h2⟩
    | succ i => simp at hk

/-! ## The invariant -/

/-- The formula has no Skolem symbol as a variable and no symbol that is still to be used. -/
def FOk (S N : Nat → Prop) (f : Form) : Prop := (∀ i ∈ allVars f, ¬ S i) ∧ ∀ q ∈ f.funs, ¬ N q

theorem FOk.anti {S N N' : Nat → Prop} {f : Form} (h : FOk S N f) (hN : ∀ q, N' q → N q) : FOk S N' f :=
  ⟨h.1, fun q hq hn => h.2 q hq (hN q hn)⟩

theorem FOk.inst {S N N' : Nat → Prop} {f b : Form} {rule : Rule} {x : Nat} (h : FOk S N f)
    (hq : quantParts rule f = some (x, b)) (hN : ∀ q, N' q → N q) {u : Term} (hu : u.vars = [])
    (hn : ∀ q ∈ u.funs, ¬ N' q) : FOk S N' (repl (.var x) u b) := by
  refine ⟨fun i hi => ?_, fun q hq' => ?_⟩
  · rcases inst_allVars hi with hi | hi
    · exact h.1 i (quantParts_vars hq hi)
    · rw [hu] at hi; cases hi
  · rcases Rocq.repl_funs hq' with hq' | hq'
    · exact fun hN' => h.2 q (by rw [← Gs3.quantParts_funs hq]; exact hq') (hN q hN')
    · exact hn q hq'

section
variable {S : Nat → Prop} {As : List Form} {cfg : Cfg}

/-- What holds of the arguments of `follow`. -/
structure Inv (S : Nat → Prop) (cfg : Cfg) (hs : List Form) (id : Nat) (st : St) : Prop where
  forms : ∀ f ∈ hs, FOk S (Later cfg st.orig.length) f
  orig : Recorded S st.orig
  id : id ≤ st.cnt

theorem childIds_mem {st : St} {n k : Nat} (h : k ∈ childIds st n) : st.cnt < k ∧ k ≤ st.cnt + n := by
  simp only [childIds, List.mem_map, List.mem_range] at h
  obtain ⟨i, hi, rfl⟩ := h
  omega

theorem childIds_length (st : St) (n : Nat) : (childIds st n).length = n := by simp [childIds]

theorem childIds_nodup (st : St) (n : Nat) : (childIds st n).Nodup := by
  unfold childIds
  exact List.pairwise_map.2 (List.Pairwise.imp (fun h e => h (by omega)) List.nodup_range)

theorem fresh_name {done : List Step} {id : Nat} (hd : ∀ s ∈ done, s.name.num ≠ some id) {nm : Name}
    (hn : nm.num = some id) : nm ∉ done.map Step.name := by
  intro h
  obtain ⟨s, hs, rfl⟩ := List.mem_map.1 h
  exact hd s hs hn

/-- The call for a sequent whose rule prints one step. -/
theorem single_fine {n : Nat} {rule : Rule} {f : Form} {t : Option Term} {forms : List (List Form)} {cs cs' : List Tree}
    {hs : List Form} {id : Nat} {st st' : St} {inf : Inf} {pss : List (List Form)} (hI : Inv S cfg hs id st)
    (hlen : cs'.length = pss.length) (hcs : cs.length = cs'.length)
    (hst : st'.cnt = st.cnt + cs.length) (horig : st.orig.length ≤ st'.orig.length) (hrec : Recorded S st'.orig)
    (ho : makeStep cfg id rule f t forms cs hs st =
      some ⟨[.step ⟨.f id, hs, [], inf, (childIds st cs.length).map .f⟩], pss.map (add hs),
        (childIds st cs.length).map some, cs', st'⟩)
    (hok : ∀ ps : List Seq, premises ⟨.f id, hs, [], inf, (childIds st cs.length).map .f⟩ inf.pos pss ps = true →
      stepOk As ⟨.f id, hs, [], inf, (childIds st cs.length).map .f⟩ ps = true)
    (hch : ∀ (i : Nat) (c : Tree) (ps : List Form), cs'[i]? = some c → pss[i]? = some ps → ∀ k : Nat, ∀ st1 : St,
      k ≤ st1.cnt → st'.orig.length ≤ st1.orig.length → Recorded S st1.orig →
      Fine S As [k] [add hs (add hs ps)] st1 (follow cfg n c (add hs (add hs ps)) (some k) st1)) :
    Fine S As [id] [hs] st (follow cfg (n + 1) (.node rule f t forms cs) hs (some id) st) := by
  refine fine_node (ids := childIds st cs.length) (hss := (pss.map (add hs)).map (add hs)) hI.id ho rfl rfl
    (own := [⟨.f id, hs, [], inf, (childIds st cs.length).map .f⟩]) rfl (by simp only; omega) horig
    (fun k hk => ?_) (by simp [Name.num]) ⟨_, List.mem_singleton.2 rfl, rfl, rfl⟩ ?_ (fun done hd hseq => ?_)
  · have := childIds_mem hk
    simp only
    omega
  · refine followAll_fine (by simp [hlen]) (by simp [childIds_length, hcs]) (childIds_nodup _ _)
      (fun k hk => ?_) hrec (fun i c h k hc hh hk st1 h1 h2 h3 => ?_)
    · have := childIds_mem hk
      simp only
      omega
    · simp only [List.map_map, List.getElem?_map, Option.map_eq_some_iff] at hh
      obtain ⟨ps, hps, rfl⟩ := hh
      have hk' := childIds_mem (List.mem_of_getElem? hk)
      exact hch i c ps hc hps k st1 (by simp only at h1; omega) h2 h3
  · refine check_single (ps := ((pss.map (add hs)).map (add hs)).map (⟨·, []⟩)) (fresh_name hd rfl) ?_ ?_
    · exact prems_of (by simp [childIds_length, hcs, hlen]) hseq
    · refine hok _ (premises_of (by simp) (fun j ps h hps hh f => ?_))
      simp only [List.map_map, List.getElem?_map, hps, Option.map_some, Option.some.injEq] at hh
      subst hh
      simp only [Function.comp_apply, mem_add]
      constructor
      · rintro (h | h | h)
        · exact .inl h
        · exact .inl h
        · exact .inr h
      · rintro (h | h)
        · exact .inl h
        · exact .inr (.inr h)

theorem created_new {t : Term} (ht : ∀ q ∈ t.funs, ¬ S q) : ∀ {k : Nat} {orig : List (Option Term)}, Recorded S orig →
    created cfg k t orig = some t
  | _, [], _ => rfl
  | k, o :: orig, h => by
    obtain ⟨q, ty, as, rfl, hq⟩ := h o (by simp)
    have hne : ¬ (Term.fn q ty as = t) := by
      rintro rfl
      exact ht q (by simp [Term.funs]) hq
    simp only [created, if_neg hne]
    exact created_new ht (fun o ho => h o (by simp [ho]))

/-! ## The rules -/

theorem alpha_step {rule : Rule} {f : Form} {ps : List Form} {hs : List Form} {i : Nat} {id : Nat} {st : St}
    (h : alphaParts rule f = some ps) (hi : get f hs = some i) :
    ∃ inf : Inf, inf.pos = i ∧ parts inf f = some [ps] ∧
      ∀ t forms cs, makeStep cfg id rule f t forms cs hs st = oneStep id forms cs hs inf st := by
  unfold alphaParts at h
  split at h <;> cases h
  · exact ⟨.leftNotNot i, rfl, rfl, fun t forms cs => by simp [makeStep, hi]⟩
  · exact ⟨.leftNotOr i, rfl, rfl, fun t forms cs => by simp [makeStep, hi]⟩
  · exact ⟨.leftNotImplies i, rfl, rfl, fun t forms cs => by simp [makeStep, hi]⟩
  · exact ⟨.leftAnd i, rfl, rfl, fun t forms cs => by simp [makeStep, hi]⟩

theorem beta_step {rule : Rule} {f : Form} {pss : List (List Form)} {hs : List Form} {i : Nat} {id : Nat} {st : St}
    (h : betaParts rule f = some pss) (h1 : rule ≠ .equ) (h2 : rule ≠ .nequ) (hi : get f hs = some i) :
    ∃ inf : Inf, inf.pos = i ∧ parts inf f = some pss ∧
      ∀ t forms cs, makeStep cfg id rule f t forms cs hs st = betaStep id forms cs hs inf st := by
  unfold betaParts at h
  split at h <;> cases h
  · exact ⟨.leftNotAnd i, rfl, rfl, fun t forms cs => by simp [makeStep, hi]⟩
  · exact absurd rfl h2
  · exact ⟨.leftOr i, rfl, rfl, fun t forms cs => by simp [makeStep, hi]⟩
  · exact ⟨.leftImp2 i, rfl, rfl, fun t forms cs => by simp [makeStep, hi]⟩
  · exact absurd rfl h1

theorem gamma_step {rule : Rule} {f b : Form} {x : Nat} {hs : List Form} {i : Nat} {id : Nat} {st : St}
    (h : quantParts rule f = some (x, b)) (hg : rule.isGamma = true) (hi : get f hs = some i) (hf : hs[i]? = some f) :
    ∃ inf : Term → Inf, (∀ u, (inf u).pos = i) ∧
      (∀ t forms cs, makeStep cfg id rule f t forms cs hs st = gammaStep cfg id t forms cs hs inf st) ∧
      ∀ (nm : Name) (prems : List Name) (ps : List Seq) (u : Term), u.vars = [] →
        premises ⟨nm, hs, [], inf u, prems⟩ i [[put x u b]] ps = true →
        stepOk As ⟨nm, hs, [], inf u, prems⟩ ps = true := by
  unfold quantParts at h
  split at h <;> cases h
  · refine ⟨.leftForall i, fun _ => rfl, fun t forms cs => by simp [makeStep, hi], fun nm prems ps u hu hp => ?_⟩
    simp only [stepOk, hf, inst, hu, List.isEmpty_nil, Bool.true_and]
    exact hp
  · refine ⟨.leftNotEx i, fun _ => rfl, fun t forms cs => by simp [makeStep, hi], fun nm prems ps u hu hp => ?_⟩
    simp only [stepOk, hf, inst, hu, List.isEmpty_nil, Bool.true_and]
    exact hp
  · cases hg
  · cases hg

theorem delta_step {rule : Rule} {f b : Form} {x : Nat} {hs : List Form} {i : Nat} {id : Nat} {st : St}
    (h : quantParts rule f = some (x, b)) (hg : rule.isDelta = true) (hi : get f hs = some i) (hf : hs[i]? = some f) :
    ∃ inf : Term → Inf, (∀ u, (inf u).pos = i) ∧
      (∀ t forms cs, makeStep cfg id rule f t forms cs hs st = deltaStep cfg id rule f t forms cs hs inf st) ∧
      ∀ (nm : Name) (prems : List Name) (ps : List Seq) (c : Nat), c ∉ Form.funsL As → c ∉ Form.funsL hs →
        premises ⟨nm, hs, [], inf (.fn c [] []), prems⟩ i [[put x (.fn c [] []) b]] ps = true →
        stepOk As ⟨nm, hs, [], inf (.fn c [] []), prems⟩ ps = true := by
  unfold quantParts at h
  split at h <;> cases h
  · cases hg
  · cases hg
  · refine ⟨.leftExists i, fun _ => rfl, fun t forms cs => by simp [makeStep, hi], fun nm prems ps c hA hs' hp => ?_⟩
    have hfr : fresh As ⟨nm, hs, [], .leftExists i (.fn c [] []), prems⟩ (.fn c [] []) = true := by
      simp [fresh, hA, hs', Form.funsL]
    simp only [stepOk, hf, inst, hfr, Bool.true_and]
    exact hp
  · refine ⟨.leftNotAll i, fun _ => rfl, fun t forms cs => by simp [makeStep, hi], fun nm prems ps c hA hs' hp => ?_⟩
    have hfr : fresh As ⟨nm, hs, [], .leftNotAll i (.fn c [] []), prems⟩ (.fn c [] []) = true := by
      simp [fresh, hA, hs', Form.funsL]
    simp only [stepOk, hf, inst, hfr, Bool.true_and]
    exact hp

theorem funsL_same {l m : List Form} (h : ∀ f, f ∈ l ↔ f ∈ m) {q : Nat} (hq : q ∈ Form.funsL l) : q ∈ Form.funsL m := by
  obtain ⟨f, hf, hq⟩ := Form.mem_funsL.1 hq
  exact Form.mem_funsL.2 ⟨f, (h f).1 hf, hq⟩

theorem mem_add2 {f : Form} {hs ps : List Form} : f ∈ add hs (add hs ps) ↔ f ∈ hs ++ ps := by
  simp only [mem_add, List.mem_append]
  constructor
  · rintro (h | h | h)
    · exact .inl h
    · exact .inl h
    · exact .inr h
  · rintro (h | h)
    · exact .inl h
    · exact .inr (.inr h)

theorem Good.same {N : Nat → Prop} {anc : List Term} {Γ Γ' : List Form} {T : Tree} (h : Good S N anc Γ T)
    (hs : ∀ f, f ∈ Γ' ↔ f ∈ Γ) : Good S N anc Γ' T :=
  h.mono (fun f hf => (hs f).2 hf) (fun _ hq _ => funsL_same hs hq)

/-- What has to be shown of a call. -/
def Goal (S : Nat → Prop) (As : List Form) (cfg : Cfg) (n : Nat) : Prop :=
  ∀ (T : Tree) (hs : List Form) (id : Nat) (st : St), height T ≤ n → Inv S cfg hs id st →
    Good S (Later cfg st.orig.length) [] hs T → Fine S As [id] [hs] st (follow cfg n T hs (some id) st)

/-- The call for a child. -/
theorem child_fine {n : Nat} (ih : Goal S As cfg n) {hs ps h : List Form} {c : Tree} {k0 : Nat} (hh : height c ≤ n)
    (hG : Good S (Later cfg k0) [] (hs ++ ps) c) (hsame : ∀ f, f ∈ h ↔ f ∈ hs ++ ps)
    (hf : ∀ f ∈ hs ++ ps, FOk S (Later cfg k0) f) {k : Nat} {st1 : St} (h1 : k ≤ st1.cnt)
    (h2 : k0 ≤ st1.orig.length) (h3 : Recorded S st1.orig) :
    Fine S As [k] [h] st1 (follow cfg n c h (some k) st1) := by
  refine ih c h k st1 hh ⟨fun f hf' => ?_, h3, h1⟩ ?_
  · exact (hf f ((hsame f).1 hf')).anti (fun q hq => hq.anti h2)
  · exact (hG.same hsame).anti (fun q hq => hq.anti h2)

theorem FOk.alpha {N : Nat → Prop} {rule : Rule} {f g : Form} {ps : List Form} (h : FOk S N f)
    (hp : alphaParts rule f = some ps) (hg : g ∈ ps) : FOk S N g :=
  ⟨fun i hi => h.1 i (alphaParts_vars hp hg hi), fun q hq => h.2 q (Rocq.alpha_funs hp hg hq)⟩

theorem FOk.beta {N : Nat → Prop} {rule : Rule} {f g : Form} {pss : List (List Form)} {ps : List Form} (h : FOk S N f)
    (hp : betaParts rule f = some pss) (hps : ps ∈ pss) (hg : g ∈ ps) : FOk S N g :=
  ⟨fun i hi => h.1 i (betaParts_vars hp hps hg hi), fun q hq => h.2 q (Rocq.beta_funs hp hps hg hq)⟩

theorem forms_append {N : Nat → Prop} {hs ps : List Form} (h : ∀ f ∈ hs, FOk S N f) (h' : ∀ f ∈ ps, FOk S N f) :
    ∀ f ∈ hs ++ ps, FOk S N f := by
  intro f hf
  rcases List.mem_append.1 hf with hf | hf
  · exact h f hf
  · exact h' f hf

theorem alpha_fine {n : Nat} (ih : Goal S As cfg n) {rule : Rule} {f : Form} {t : Option Term} {ps : List Form} {c : Tree}
    {hs : List Form} {id : Nat} {st : St} (hh : height c ≤ n) (hI : Inv S cfg hs id st) (h1 : f ∈ hs)
    (h2 : alphaParts rule f = some ps) (h3 : Good S (Later cfg st.orig.length) [] (hs ++ ps) c) :
    Fine S As [id] [hs] st (follow cfg (n + 1) (.node rule f t [ps] [c]) hs (some id) st) := by
  obtain ⟨i, hi, hf⟩ := get_mem h1
  obtain ⟨inf, hpos, hparts, hmk⟩ := alpha_step (cfg := cfg) (id := id) (st := st) h2 hi
  refine single_fine (pss := [ps]) (st' := st.incr 1) (cs' := [c]) (inf := inf) hI rfl rfl rfl (Nat.le_refl _) hI.orig
    (by rw [hmk]; rfl) (fun qs hq => stepOk_parts (by rw [hpos]; exact hf) hparts hq) ?_
  intro j d qs hd hqs k st1 a1 a2 a3
  cases j with
  | succ j => simp at hd
  | zero =>
    simp only [List.getElem?_cons_zero, Option.some.injEq] at hd hqs
    subst hd hqs
    exact child_fine ih hh h3 (fun f => mem_add2)
      (forms_append hI.forms (fun g hg => (hI.forms f h1).alpha h2 hg)) a1 a2 a3

theorem beta_fine {n : Nat} (ih : Goal S As cfg n) {rule : Rule} {f : Form} {t : Option Term} {pss : List (List Form)}
    {cs : List Tree} {hs : List Form} {id : Nat} {st : St} (hh : heightL cs ≤ n) (hI : Inv S cfg hs id st) (h1 : f ∈ hs)
    (h2 : betaParts rule f = some pss) (hr1 : rule ≠ .equ) (hr2 : rule ≠ .nequ) (hl : cs.length = pss.length)
    (h3 : ∀ (i : Nat) (ps : List Form) (c : Tree), pss[i]? = some ps → cs[i]? = some c →
      Good S (Later cfg st.orig.length) [] (hs ++ ps) c) :
    Fine S As [id] [hs] st (follow cfg (n + 1) (.node rule f t pss cs) hs (some id) st) := by
  obtain ⟨i, hi, hf⟩ := get_mem h1
  obtain ⟨inf, hpos, hparts, hmk⟩ := beta_step (cfg := cfg) (id := id) (st := st) h2 hr1 hr2 hi
  refine single_fine (pss := pss) (st' := st.incr cs.length) (cs' := cs) (inf := inf) hI hl rfl rfl (Nat.le_refl _) hI.orig
    (by rw [hmk, betaStep, hl, branchHyps_eq, ← hl]) (fun qs hq => stepOk_parts (by rw [hpos]; exact hf) hparts hq) ?_
  intro j d qs hd hqs k st1 a1 a2 a3
  exact child_fine ih (Nat.le_trans (height_le (List.mem_of_getElem? hd)) hh) (h3 j qs d hqs hd) (fun f => mem_add2)
    (forms_append hI.forms (fun g hg => (hI.forms f h1).beta h2 (List.mem_of_getElem? hqs) hg)) a1 a2 a3

theorem gamma_fine {n : Nat} (ih : Goal S As cfg n) {rule : Rule} {f b : Form} {x : Nat} {t : Option Term} {u : Term}
    {c : Tree} {hs : List Form} {id : Nat} {st : St} (hh : height c ≤ n) (hI : Inv S cfg hs id st) (h1 : f ∈ hs)
    (hg : rule.isGamma = true) (h2 : quantParts rule f = some (x, b)) (hu : u.vars = [])
    (ht : findInConstants cfg st.orig t = some u) (hfo : FOk S (Later cfg st.orig.length) (put x u b))
    (h3 : Good S (Later cfg st.orig.length) [] (hs ++ [put x u b]) c) :
    Fine S As [id] [hs] st (follow cfg (n + 1) (.node rule f t [[put x u b]] [c]) hs (some id) st) := by
  obtain ⟨i, hi, hf⟩ := get_mem h1
  obtain ⟨inf, hpos, hmk, hok⟩ := gamma_step (As := As) (cfg := cfg) (id := id) (st := st) h2 hg hi hf
  refine single_fine (pss := [[put x u b]]) (st' := st.incr 1) (cs' := [c]) (inf := inf u) hI rfl rfl rfl (Nat.le_refl _)
    hI.orig (by rw [hmk, gammaStep, ht]; rfl) (fun qs hq => hok _ _ qs u hu (by rw [hpos] at hq; exact hq)) ?_
  intro j d qs hd hqs k st1 a1 a2 a3
  cases j with
  | succ j => simp at hd
  | zero =>
    simp only [List.getElem?_cons_zero, Option.some.injEq] at hd hqs
    subst hd hqs
    exact child_fine ih hh h3 (fun f => mem_add2)
      (forms_append hI.forms (fun g hg => by rw [List.mem_singleton] at hg; subst hg; exact hfo)) a1 a2 a3

theorem delta_fine {n : Nat} (ih : Goal S As cfg n) (hinj : ∀ i j, cfg.sko i = cfg.sko j → i = j)
    (hSN : ∀ j, ¬ S (cfg.sko j)) (hAs : ∀ q ∈ Form.funsL As, ¬ Later cfg 0 q) {rule : Rule} {f b : Form} {x q : Nat}
    {tys tys0 : List Ty} {args args0 : List Term} {c : Tree} {hs : List Form} {id : Nat} {st : St} (hh : height c ≤ n)
    (hI : Inv S cfg hs id st) (h1 : f ∈ hs) (h2 : rule.isDelta = true) (h3 : quantParts rule f = some (x, b))
    (h4 : x ∉ b.funs) (h5 : x ∉ b.binders) (h7 : ¬ Later cfg st.orig.length x) (h8 : S q)
    (h9 : q ∉ Form.funsL hs) (h11 : Term.varsL args0 = [])
    (hG : Good S (Later cfg st.orig.length) [.fn q tys args] (hs ++ [repl (.var x) (.fn q tys0 args0) b]) c) :
    Fine S As [id] [hs] st (follow cfg (n + 1)
      (.node rule f (some (.fn q tys args)) [[repl (.var x) (.fn q tys0 args0) b]] [c]) hs (some id) st) := by
  obtain ⟨i, hi, hf⟩ := get_mem h1
  obtain ⟨inf, hpos, hmk, hok⟩ := delta_step (As := As) (cfg := cfg) (id := id) (st := st) h3 h2 hi hf
  have hNc : Later cfg st.orig.length (cfg.sko st.orig.length) := ⟨_, Nat.le_refl _, rfl⟩
  have hxc : x ≠ cfg.sko st.orig.length := fun e => h7 (e ▸ hNc)
  have hqb : q ∉ b.funs := fun h => h9 (Form.mem_funsL.2 ⟨f, h1, by rw [Gs3.quantParts_funs h3] at h; exact h⟩)
  have hcl : Clean S hs := fun f hf => (hI.forms f hf).1
  have hSN' : ∀ r, S r → ¬ Later cfg st.orig.length r := by
    rintro r hr ⟨j, _, rfl⟩
    exact hSN j hr
  have hcp := hcl.inst h1 h3 (t := .fn q tys0 args0) h11
  obtain ⟨c', e1, e2, e3⟩ := update_good (p := q) (c := cfg.sko st.orig.length) (tys := tys) (args := args) h8 hNc hSN' hG
    [] rfl (by simp) (hcl.append hcp)
  have hinst : swapF q (cfg.sko st.orig.length) (repl (.var x) (.fn q tys0 args0) b) =
      put x (.fn (cfg.sko st.orig.length) [] []) b := by
    rw [swapF_inst (u := .fn q tys0 args0) h4 hxc h11, swapF_absent hqb]
    simp only [swapT, if_true]
    exact repl_put h4 h5 rfl
  have hrepl : repl (.fn q tys args) (.fn (cfg.sko st.orig.length) [] []) (repl (.var x) (.fn q tys0 args0) b) =
      put x (.fn (cfg.sko st.orig.length) [] []) b := by
    rw [repl_swapF (fun e => hSN _ (e ▸ h8)) (fun h => hcp _ (List.mem_singleton.2 rfl) q h h8)]
    exact hinst
  have hhs : (hs ++ [repl (.var x) (.fn q tys0 args0) b]).map (swapF q (cfg.sko st.orig.length)) =
      hs ++ [put x (.fn (cfg.sko st.orig.length) [] []) b] := by
    rw [List.map_append, List.map_cons, List.map_nil, hinst,
      map_id_of (fun g hg => swapF_absent (fun h => h9 (Form.mem_funsL.2 ⟨g, hg, h⟩)))]
  have hsub : ∀ r, Later cfg (st.orig.length + 1) r → Later cfg st.orig.length r ∧ r ≠ cfg.sko st.orig.length := by
    rintro r ⟨j, hj, rfl⟩
    exact ⟨⟨j, by omega, rfl⟩, fun e => by have := hinj _ _ e; omega⟩
  rw [hhs] at e3
  have hG' := e3.anti hsub
  refine single_fine (pss := [[put x (.fn (cfg.sko st.orig.length) [] []) b]])
    (st' := ⟨st.cnt + 1, st.orig ++ [some (.fn q tys args)]⟩) (cs' := [c']) (inf := inf (.fn (cfg.sko st.orig.length) [] []))
    hI rfl rfl rfl (by simp) ?_ ?_ (fun qs hq => hok _ _ qs _ ?_ ?_ (by rw [hpos] at hq; exact hq)) ?_
  · intro o ho
    rcases List.mem_append.1 ho with ho | ho
    · exact hI.orig o ho
    · exact ⟨q, tys, args, by simpa using ho, h8⟩
  · rw [hmk, deltaStep]
    simp only [updateNew]
    rw [update_node (cs' := [c']) rfl (by simp [updateL, e1])]
    simp only [List.map_cons, List.map_nil, hrepl]
    rfl
  · exact fun h => hAs _ h ⟨_, Nat.zero_le _, rfl⟩
  · intro h
    obtain ⟨g, hg, h⟩ := Form.mem_funsL.1 h
    exact (hI.forms g hg).2 _ h hNc
  · intro j d qs hd hqs k st1 a1 a2 a3
    cases j with
    | succ j => simp at hd
    | zero =>
      simp only [List.getElem?_cons_zero, Option.some.injEq] at hd hqs
      subst hd hqs
      refine child_fine ih (by omega) (by simpa using hG') (fun f => mem_add2) (forms_append (fun g hg => ?_) (fun g hg => ?_)) a1
        (by simpa using a2) a3
      · exact (hI.forms g hg).anti (fun r hr => (hsub r hr).1)
      · rw [List.mem_singleton] at hg
        subst hg
        rw [← repl_put h4 h5 rfl]
        refine (hI.forms f h1).inst h3 (fun r hr => (hsub r hr).1) rfl (fun r hr => ?_)
        simp only [Term.funs, Term.funsL, List.mem_singleton] at hr
        subst hr
        exact fun h => (hsub _ h).2 rfl

theorem findIndexPos_pos {A : Form} (h : ∀ g, A ≠ .neg g) (hs : List Form) (k : Nat) : findIndexPos A hs k = some k := by
  cases A <;> simp only [findIndexPos]
  exact absurd rfl (h _)

theorem mapM_two {As : List Form} {done : List Step} {a b : Name} {p q : Seq} (ha : seqOf As done a = some p)
    (hb : seqOf As done b = some q) : [a, b].mapM (seqOf As done) = some [p, q] := by
  simp [ha, hb]

theorem mapM_one {As : List Form} {done : List Step} {a : Name} {p : Seq} (ha : seqOf As done a = some p) :
    [a].mapM (seqOf As done) = some [p] := by
  simp [ha]

theorem leftHyp_ok {nm : Name} {hs : List Form} {i : Nat} {A : Form} (hi : hs[i]? = some A) (hn : Form.neg A ∈ hs) :
    stepOk As ⟨nm, hs, [], .leftHyp i, []⟩ [] = true := by
  simp [stepOk, hi, hn]

theorem equ_fine {n : Nat} (ih : Goal S As cfg n) {A B : Form} {t : Option Term} {c1 c2 : Tree} {hs : List Form} {id : Nat}
    {st : St} (hh1 : height c1 ≤ n) (hh2 : height c2 ≤ n) (hI : Inv S cfg hs id st) (h1 : Form.equ A B ∈ hs)
    (hA : ∀ g, A ≠ .neg g) (hB : ∀ g, B ≠ .neg g)
    (hG1 : Good S (Later cfg st.orig.length) [] (hs ++ [.neg A, .neg B]) c1)
    (hG2 : Good S (Later cfg st.orig.length) [] (hs ++ [A, B]) c2) :
    Fine S As [id] [hs] st (follow cfg (n + 1)
      (.node .equ (.equ A B) t [[.neg A, .neg B], [A, B]] [c1, c2]) hs (some id) st) := by
  obtain ⟨i, hi, hf⟩ := get_mem h1
  let H := add hs [.imp A B, .imp B A]
  let H2 := add H [.neg A]
  let H2C := add H2 [A]
  let H3 := add H [B]
  let H3C := add H3 [.neg B]
  have mH : ∀ g, g ∈ H ↔ g ∈ hs ∨ g = .imp A B ∨ g = .imp B A := fun g => by simp [H, mem_add]
  have mH2 : ∀ g, g ∈ H2 ↔ g ∈ H ∨ g = .neg A := fun g => by simp [H2, mem_add]
  have mH2C : ∀ g, g ∈ H2C ↔ g ∈ H2 ∨ g = A := fun g => by simp [H2C, mem_add]
  have mH3 : ∀ g, g ∈ H3 ↔ g ∈ H ∨ g = B := fun g => by simp [H3, mem_add]
  have mH3C : ∀ g, g ∈ H3C ↔ g ∈ H3 ∨ g = .neg B := fun g => by simp [H3C, mem_add]
  obtain ⟨k1, g1, p1⟩ := get_mem (f := .imp A B) (hs := H) ((mH _).2 (.inr (.inl rfl)))
  obtain ⟨k2, g2, p2⟩ := get_mem (f := .imp B A) (hs := H2) ((mH2 _).2 (.inl ((mH _).2 (.inr (.inr rfl)))))
  obtain ⟨k2c, g2c, p2c⟩ := get_mem (f := A) (hs := H2C) ((mH2C _).2 (.inr rfl))
  obtain ⟨k3, g3, p3⟩ := get_mem (f := .imp B A) (hs := H3) ((mH3 _).2 (.inl ((mH _).2 (.inr (.inr rfl)))))
  obtain ⟨k3c, g3c, p3c⟩ := get_mem (f := B) (hs := H3C) ((mH3C _).2 (.inl ((mH3 _).2 (.inr rfl))))
  let s1 : Step := ⟨.extc id 3, H3C, [], .leftHyp k3c, []⟩
  let s2 : Step := ⟨.ext id 3, H3, [], .leftImp2 k3, [.extc id 3, .f (st.cnt + 2)]⟩
  let s3 : Step := ⟨.extc id 2, H2C, [], .leftHyp k2c, []⟩
  let s4 : Step := ⟨.ext id 2, H2, [], .leftImp2 k2, [.f (st.cnt + 1), .extc id 2]⟩
  let s5 : Step := ⟨.ext id 1, H, [], .leftImp2 k1, [.ext id 2, .ext id 3]⟩
  let s6 : Step := ⟨.f id, hs, [], .leftIff i, [.ext id 1]⟩
  have hmk : makeStep cfg id .equ (.equ A B) t [[.neg A, .neg B], [A, B]] [c1, c2] hs st =
      some ⟨[s1, s2, s3, s4, s5, s6].map .step, [add (add hs [.neg A, .neg B]) H2, add (add hs [A, B]) H3],
        [st.cnt + 1, st.cnt + 2].map some, [c1, c2], st.incr 2⟩ := by
    have hbr := branchHyps_eq [[.neg A, .neg B], [A, B]] hs
    simp only [List.map_cons, List.map_nil] at hbr
    have hids : childIds st [c1, c2].length = [st.cnt + 1, st.cnt + 2] := by
      simp [childIds, List.range_succ]
    simp only [makeStep, hi, equStep]
    rw [show [c1, c2].length = [[Form.neg A, .neg B], [A, B]].length from rfl, hbr,
      show [[Form.neg A, .neg B], [A, B]].length = [c1, c2].length from rfl, hids]
    simp only [hf]
    change (match get (.imp A B) H, get (.imp B A) H2, (get A H2C).bind (findIndexPos A H2C), get (.imp B A) H3,
      (get B H3C).bind (findIndexPos B H3C) with
      | some k1, some k2, some k2c, some k3, some k3c => some _
      | _, _, _, _, _ => none) = _
    simp only [g1, g2, g2c, g3, g3c, Option.bind_some, findIndexPos_pos hA, findIndexPos_pos hB]
    rfl
  have m1 : ∀ g, g ∈ add hs (add (add hs [.neg A, .neg B]) H2) ↔ g ∈ H2 ∨ g = .neg B := by
    intro g
    simp only [mem_add, mH2, mH, List.mem_cons, List.not_mem_nil, or_false]
    grind
  have m2 : ∀ g, g ∈ add hs (add (add hs [A, B]) H3) ↔ g ∈ H3 ∨ g = A := by
    intro g
    simp only [mem_add, mH3, mH, List.mem_cons, List.not_mem_nil, or_false]
    grind
  have himp : ∀ g, g = .imp A B ∨ g = .imp B A → FOk S (Later cfg st.orig.length) g ∧ ∀ q ∈ g.funs, q ∈ Form.funsL hs := by
    have hfo := hI.forms _ h1
    simp only [FOk, allVars, Form.funs, List.mem_append] at hfo
    rintro g (rfl | rfl) <;> refine ⟨⟨fun j hj => ?_, fun q hq => ?_⟩, fun q hq => Form.mem_funsL.2 ⟨_, h1, ?_⟩⟩
    · exact hfo.1 j (by simpa [allVars] using hj)
    · exact hfo.2 q (by simpa [Form.funs] using hq)
    · simpa [Form.funs] using hq
    · exact hfo.1 j (by simpa [allVars, or_comm] using hj)
    · exact hfo.2 q (by simpa [Form.funs, or_comm] using hq)
    · simpa [Form.funs, or_comm] using hq
  have child : ∀ (c : Tree) (ps h : List Form) (k : Nat) (st1 : St), height c ≤ n →
      Good S (Later cfg st.orig.length) [] (hs ++ ps) c → ps ∈ [[Form.neg A, .neg B], [A, B]] →
      (∀ g, g ∈ h ↔ (g ∈ hs ∨ g ∈ ps) ∨ g = .imp A B ∨ g = .imp B A) →
      k ≤ st1.cnt → st.orig.length ≤ st1.orig.length → Recorded S st1.orig →
      Fine S As [k] [h] st1 (follow cfg n c h (some k) st1) := by
    intro c ps h k st1 hh hG hps hm a1 a2 a3
    refine child_fine ih (hs := h) (ps := []) hh (hG.mono (fun g hg => ?_) (fun q hq _ => ?_)) (fun g => by simp)
      (fun g hg => ?_) a1 a2 a3
    · simp only [List.append_nil, hm]
      exact .inl (List.mem_append.1 hg)
    · obtain ⟨g, hg, hq⟩ := Form.mem_funsL.1 hq
      simp only [List.append_nil, hm] at hg
      rcases hg with hg | hg
      · exact Form.mem_funsL.2 ⟨g, List.mem_append.2 hg, hq⟩
      · obtain ⟨g', hg', hq'⟩ := Form.mem_funsL.1 ((himp g hg).2 q hq)
        exact Form.mem_funsL.2 ⟨g', List.mem_append.2 (.inl hg'), hq'⟩
    · simp only [List.append_nil, hm] at hg
      rcases hg with (hg | hg) | hg
      · exact hI.forms g hg
      · exact (hI.forms _ h1).beta (rule := .equ) (pss := [[.neg A, .neg B], [A, B]]) rfl hps hg
      · exact (himp g hg).1
  refine fine_node (ids := [st.cnt + 1, st.cnt + 2])
    (hss := [add hs (add (add hs [.neg A, .neg B]) H2), add hs (add (add hs [A, B]) H3)]) hI.id hmk rfl rfl
    (own := [s1, s2, s3, s4, s5, s6]) rfl (by simp [St.incr]) (Nat.le_refl _) ?_ ?_ ⟨s6, by simp, rfl, rfl⟩ ?_ ?_
  · intro k hk
    simp only [List.mem_cons, List.not_mem_nil, or_false] at hk
    simp only [St.incr]
    omega
  · intro s hs
    simp only [List.mem_cons, List.not_mem_nil, or_false] at hs
    rcases hs with rfl | rfl | rfl | rfl | rfl | rfl <;> rfl
  · refine followAll_fine rfl rfl (by simp) ?_ hI.orig ?_
    · intro k hk
      simp only [List.mem_cons, List.not_mem_nil, or_false] at hk
      simp only [St.incr]
      omega
    · intro j c h k hc hh hk st1 a1 a2 a3
      have a1' : st.cnt + 2 ≤ st1.cnt := a1
      match j with
      | 0 =>
        simp only [List.getElem?_cons_zero, Option.some.injEq] at hc hh hk
        subst hc hh hk
        exact child _ [.neg A, .neg B] _ _ _ hh1 hG1 (by simp) (fun g => by
          rw [m1, mH2, mH]; simp only [List.mem_cons, List.not_mem_nil, or_false]; grind) (by omega) a2 a3
      | 1 =>
        simp only [List.getElem?_cons_succ, List.getElem?_cons_zero, Option.some.injEq] at hc hh hk
        subst hc hh hk
        exact child _ [A, B] _ _ _ hh2 hG2 (by simp) (fun g => by
          rw [m2, mH3, mH]; simp only [List.mem_cons, List.not_mem_nil, or_false]; grind) (by omega) a2 a3
      | j + 2 => simp at hc
  · intro done hd hseq
    have q1 := hseq 0 _ _ rfl rfl
    have q2 := hseq 1 _ _ rfl rfl
    have nm : ∀ (nm : Name) {l : List Step}, nm.num = some id → nm ∉ l.map Step.name → nm ∉ (done ++ l).map Step.name := by
      intro nm l hn hl h
      rw [List.map_append, List.mem_append] at h
      exact h.elim (fresh_name hd hn) hl
    refine check_cons (ps := []) (fresh_name hd rfl) rfl (leftHyp_ok p3c ((mH3C _).2 (.inr rfl))) ?_
    have t1 : seqOf As (done ++ [s1]) (.extc id 3) = some ⟨H3C, []⟩ := seqOf_last (s := s1) rfl (by simp) (fresh_name hd rfl)
    refine check_cons (nm (.ext id 3) rfl (by simp [s1, s2])) (mapM_two t1 (seqOf_more q2)) (stepOk_parts p3 rfl ?_) ?_
    · simp only [premises, Bool.and_eq_true]
      exact ⟨premise_of (fun g => by rw [mH3C]; simp), premise_of (fun g => by rw [m2]; simp), trivial⟩
    have t2 : seqOf As (done ++ [s1] ++ [s2]) (.ext id 3) = some ⟨H3, []⟩ :=
      seqOf_last (s := s2) rfl (by simp) (nm (.ext id 3) rfl (by simp [s1]))
    rw [List.append_assoc, List.singleton_append] at t2 ⊢
    refine check_cons (ps := []) (nm (.extc id 2) rfl (by simp [s1, s2, s3])) rfl (leftHyp_ok p2c ((mH2C _).2 (.inl ((mH2 _).2 (.inr rfl))))) ?_
    have t3 : seqOf As (done ++ [s1, s2] ++ [s3]) (.extc id 2) = some ⟨H2C, []⟩ :=
      seqOf_last (s := s3) rfl (by simp) (nm (.extc id 2) rfl (by simp [s1, s2]))
    have t2' := seqOf_more (more := [s3]) t2
    rw [List.append_assoc] at t3 t2' ⊢
    simp only [List.cons_append, List.nil_append] at t3 t2' ⊢
    refine check_cons (nm (.ext id 2) rfl (by simp [s1, s2, s3, s4])) (mapM_two (seqOf_more q1) t3) (stepOk_parts p2 rfl ?_) ?_
    · simp only [premises, Bool.and_eq_true]
      exact ⟨premise_of (fun g => by rw [m1]; simp), premise_of (fun g => by rw [mH2C]; simp), trivial⟩
    have t4 : seqOf As (done ++ [s1, s2, s3] ++ [s4]) (.ext id 2) = some ⟨H2, []⟩ :=
      seqOf_last (s := s4) rfl (by simp) (nm (.ext id 2) rfl (by simp [s1, s2, s3]))
    have t2'' := seqOf_more (more := [s4]) t2'
    rw [List.append_assoc] at t4 t2'' ⊢
    simp only [List.cons_append, List.nil_append] at t4 t2'' ⊢
    refine check_cons (nm (.ext id 1) rfl (by simp [s1, s2, s3, s4, s5])) (mapM_two t4 t2'') (stepOk_parts p1 rfl ?_) ?_
    · simp only [premises, Bool.and_eq_true]
      exact ⟨premise_of (fun g => by rw [mH2]; simp), premise_of (fun g => by rw [mH3]; simp), trivial⟩
    have t5 : seqOf As (done ++ [s1, s2, s3, s4] ++ [s5]) (.ext id 1) = some ⟨H, []⟩ :=
      seqOf_last (s := s5) rfl (by simp) (nm (.ext id 1) rfl (by simp [s1, s2, s3, s4]))
    rw [List.append_assoc] at t5 ⊢
    simp only [List.cons_append, List.nil_append] at t5 ⊢
    refine check_single (nm (.f id) rfl (by simp [s1, s2, s3, s4, s5, s6])) (mapM_one t5) (stepOk_parts hf rfl ?_)
    simp only [premises, Bool.and_eq_true]
    exact ⟨premise_of (fun g => by rw [mH]; simp), trivial⟩

theorem nequ_fine {n : Nat} (ih : Goal S As cfg n) {A B : Form} {t : Option Term} {c1 c2 : Tree} {hs : List Form} {id : Nat}
    {st : St} (hh1 : height c1 ≤ n) (hh2 : height c2 ≤ n) (hI : Inv S cfg hs id st) (h1 : Form.neg (.equ A B) ∈ hs)
    (hG1 : Good S (Later cfg st.orig.length) [] (hs ++ [.neg A, B]) c1)
    (hG2 : Good S (Later cfg st.orig.length) [] (hs ++ [A, .neg B]) c2) :
    Fine S As [id] [hs] st (follow cfg (n + 1)
      (.node .nequ (.neg (.equ A B)) t [[.neg A, B], [A, .neg B]] [c1, c2]) hs (some id) st) := by
  obtain ⟨i, hi, hf⟩ := get_mem h1
  let H1 := add hs [.neg (.imp A B)]
  let H2 := add hs [.neg (.imp B A)]
  have mH1 : ∀ g, g ∈ H1 ↔ g ∈ hs ∨ g = .neg (.imp A B) := fun g => by simp [H1, mem_add]
  have mH2 : ∀ g, g ∈ H2 ↔ g ∈ hs ∨ g = .neg (.imp B A) := fun g => by simp [H2, mem_add]
  obtain ⟨k1, g1, p1⟩ := get_mem (f := .neg (.imp A B)) (hs := H1) ((mH1 _).2 (.inr rfl))
  obtain ⟨k2, g2, p2⟩ := get_mem (f := .neg (.imp B A)) (hs := H2) ((mH2 _).2 (.inr rfl))
  let s1 : Step := ⟨.ext id 2, H2, [], .leftNotImplies k2, [.f (st.cnt + 1)]⟩
  let s2 : Step := ⟨.ext id 1, H1, [], .leftNotImplies k1, [.f (st.cnt + 2)]⟩
  let s3 : Step := ⟨.f id, hs, [], .leftNotIff i, [.ext id 1, .ext id 2]⟩
  have hmk : makeStep cfg id .nequ (.neg (.equ A B)) t [[.neg A, B], [A, .neg B]] [c1, c2] hs st =
      some ⟨[s1, s2, s3].map .step, [add (add hs [.neg A, B]) H2, add (add hs [A, .neg B]) H1],
        [st.cnt + 1, st.cnt + 2].map some, [c1, c2], st.incr 2⟩ := by
    have hbr := branchHyps_eq [[.neg A, B], [A, .neg B]] hs
    simp only [List.map_cons, List.map_nil] at hbr
    have hids : childIds st [c1, c2].length = [st.cnt + 1, st.cnt + 2] := by
      simp [childIds, List.range_succ]
    simp only [makeStep, hi, notEquStep]
    rw [show [c1, c2].length = [[Form.neg A, B], [A, .neg B]].length from rfl, hbr,
      show [[Form.neg A, B], [A, .neg B]].length = [c1, c2].length from rfl, hids]
    simp only [hf]
    change (match get (.neg (.imp A B)) H1, get (.neg (.imp B A)) H2 with
      | some k1, some k2 => some _
      | _, _ => none) = _
    simp only [g1, g2]
    rfl
  have m1 : ∀ g, g ∈ add hs (add (add hs [.neg A, B]) H2) ↔ g ∈ H2 ∨ g = .neg A ∨ g = B := by
    intro g
    simp only [mem_add, mH2, List.mem_cons, List.not_mem_nil, or_false]
    grind
  have m2 : ∀ g, g ∈ add hs (add (add hs [A, .neg B]) H1) ↔ g ∈ H1 ∨ g = A ∨ g = .neg B := by
    intro g
    simp only [mem_add, mH1, List.mem_cons, List.not_mem_nil, or_false]
    grind
  have himp : ∀ g, g = .neg (.imp A B) ∨ g = .neg (.imp B A) →
      FOk S (Later cfg st.orig.length) g ∧ ∀ q ∈ g.funs, q ∈ Form.funsL hs := by
    have hfo := hI.forms _ h1
    simp only [FOk, allVars, Form.funs, List.mem_append] at hfo
    rintro g (rfl | rfl) <;> refine ⟨⟨fun j hj => ?_, fun q hq => ?_⟩, fun q hq => Form.mem_funsL.2 ⟨_, h1, ?_⟩⟩
    · exact hfo.1 j (by simpa [allVars] using hj)
    · exact hfo.2 q (by simpa [Form.funs] using hq)
    · simpa [Form.funs] using hq
    · exact hfo.1 j (by simpa [allVars, or_comm] using hj)
    · exact hfo.2 q (by simpa [Form.funs, or_comm] using hq)
    · simpa [Form.funs, or_comm] using hq
  have child : ∀ (c : Tree) (ps h : List Form) (e : Form) (k : Nat) (st1 : St), height c ≤ n →
      Good S (Later cfg st.orig.length) [] (hs ++ ps) c → ps ∈ [[Form.neg A, B], [A, .neg B]] →
      (e = .neg (.imp A B) ∨ e = .neg (.imp B A)) →
      (∀ g, g ∈ h ↔ (g ∈ hs ∨ g ∈ ps) ∨ g = e) →
      k ≤ st1.cnt → st.orig.length ≤ st1.orig.length → Recorded S st1.orig →
      Fine S As [k] [h] st1 (follow cfg n c h (some k) st1) := by
    intro c ps h e k st1 hh hG hps he hm a1 a2 a3
    refine child_fine ih (hs := h) (ps := []) hh (hG.mono (fun g hg => ?_) (fun q hq _ => ?_)) (fun g => by simp)
      (fun g hg => ?_) a1 a2 a3
    · simp only [List.append_nil, hm]
      exact .inl (List.mem_append.1 hg)
    · obtain ⟨g, hg, hq⟩ := Form.mem_funsL.1 hq
      simp only [List.append_nil, hm] at hg
      rcases hg with hg | hg
      · exact Form.mem_funsL.2 ⟨g, List.mem_append.2 hg, hq⟩
      · obtain ⟨g', hg', hq'⟩ := Form.mem_funsL.1 ((himp g (hg ▸ he)).2 q hq)
        exact Form.mem_funsL.2 ⟨g', List.mem_append.2 (.inl hg'), hq'⟩
    · simp only [List.append_nil, hm] at hg
      rcases hg with (hg | hg) | hg
      · exact hI.forms g hg
      · exact (hI.forms _ h1).beta (rule := .nequ) (pss := [[.neg A, B], [A, .neg B]]) rfl hps hg
      · exact (himp g (hg ▸ he)).1
  refine fine_node (ids := [st.cnt + 1, st.cnt + 2])
    (hss := [add hs (add (add hs [.neg A, B]) H2), add hs (add (add hs [A, .neg B]) H1)]) hI.id hmk rfl rfl
    (own := [s1, s2, s3]) rfl (by simp [St.incr]) (Nat.le_refl _) ?_ ?_ ⟨s3, by simp, rfl, rfl⟩ ?_ ?_
  · intro k hk
    simp only [List.mem_cons, List.not_mem_nil, or_false] at hk
    simp only [St.incr]
    omega
  · intro s hs
    simp only [List.mem_cons, List.not_mem_nil, or_false] at hs
    rcases hs with rfl | rfl | rfl <;> rfl
  · refine followAll_fine rfl rfl (by simp) ?_ hI.orig ?_
    · intro k hk
      simp only [List.mem_cons, List.not_mem_nil, or_false] at hk
      simp only [St.incr]
      omega
    · intro j c h k hc hh hk st1 a1 a2 a3
      have a1' : st.cnt + 2 ≤ st1.cnt := a1
      match j with
      | 0 =>
        simp only [List.getElem?_cons_zero, Option.some.injEq] at hc hh hk
        subst hc hh hk
        exact child _ [.neg A, B] _ _ _ _ hh1 hG1 (by simp) (.inr rfl) (fun g => by
          rw [m1, mH2]; simp only [List.mem_cons, List.not_mem_nil, or_false]; grind) (by omega) a2 a3
      | 1 =>
        simp only [List.getElem?_cons_succ, List.getElem?_cons_zero, Option.some.injEq] at hc hh hk
        subst hc hh hk
        exact child _ [A, .neg B] _ _ _ _ hh2 hG2 (by simp) (.inl rfl) (fun g => by
          rw [m2, mH1]; simp only [List.mem_cons, List.not_mem_nil, or_false]; grind) (by omega) a2 a3
      | j + 2 => simp at hc
  · intro done hd hseq
    have q1 := hseq 0 _ _ rfl rfl
    have q2 := hseq 1 _ _ rfl rfl
    have nm : ∀ (nm : Name) {l : List Step}, nm.num = some id → nm ∉ l.map Step.name → nm ∉ (done ++ l).map Step.name := by
      intro nm l hn hl h
      rw [List.map_append, List.mem_append] at h
      exact h.elim (fresh_name hd hn) hl
    refine check_cons (fresh_name hd rfl) (mapM_one q1) (stepOk_parts p2 rfl ?_) ?_
    · simp only [premises, Bool.and_eq_true]
      exact ⟨premise_of (fun g => by rw [m1]; simp; grind), trivial⟩
    have t1 : seqOf As (done ++ [s1]) (.ext id 2) = some ⟨H2, []⟩ := seqOf_last (s := s1) rfl (by simp) (fresh_name hd rfl)
    refine check_cons (nm (.ext id 1) rfl (by simp [s1, s2])) (mapM_one (seqOf_more q2)) (stepOk_parts p1 rfl ?_) ?_
    · simp only [premises, Bool.and_eq_true]
      exact ⟨premise_of (fun g => by rw [m2]; simp), trivial⟩
    have t2 : seqOf As (done ++ [s1] ++ [s2]) (.ext id 1) = some ⟨H1, []⟩ :=
      seqOf_last (s := s2) rfl (by simp) (nm (.ext id 1) rfl (by simp [s1]))
    have t1' := seqOf_more (more := [s2]) t1
    rw [List.append_assoc, List.singleton_append] at t2 t1' ⊢
    refine check_single (nm (.f id) rfl (by simp [s1, s2, s3])) (mapM_two t2 t1') (stepOk_parts hf rfl ?_)
    simp only [premises, Bool.and_eq_true]
    exact ⟨premise_of (fun g => by rw [mH1]; simp), premise_of (fun g => by rw [mH2]; simp), trivial⟩

theorem ax_fine {n : Nat} {f : Form} {t : Option Term} {forms : List (List Form)} {hs : List Form} {id : Nat} {st : St}
    (hI : Inv S cfg hs id st) (h1 : f ∈ hs)
    (h2 : (Form.neg f ∈ hs ∧ ∀ g, f ≠ .neg g) ∨ ∃ g, f = .neg g ∧ g ∈ hs) :
    Fine S As [id] [hs] st (follow cfg (n + 1) (.node .ax f t forms []) hs (some id) st) := by
  obtain ⟨i, hi, hf⟩ := get_mem h1
  have hany : (hs.any fun f => decide (Form.neg f ∈ hs)) = true := by
    simp only [List.any_eq_true, decide_eq_true_eq]
    rcases h2 with ⟨h, _⟩ | ⟨g, rfl, hg⟩
    · exact ⟨f, h1, h⟩
    · exact ⟨g, hg, h1⟩
  have key : ∃ inf, makeStep cfg id .ax f t forms [] hs st =
        some ⟨[.step ⟨.f id, hs, [], inf, []⟩], [hs], [], [], st⟩ ∧
      stepOk As ⟨.f id, hs, [], inf, []⟩ [] = true := by
    simp only [makeStep, hi]
    split
    · exact ⟨.congruence, rfl, by simp [stepOk, hany]⟩
    · rcases h2 with ⟨h, hn⟩ | ⟨g, rfl, hg⟩
      · rw [findIndexPos_pos hn]
        exact ⟨.leftHyp i, rfl, leftHyp_ok hf h⟩
      · obtain ⟨j, hj, hg'⟩ := get_mem hg
        simp only [findIndexPos, hj]
        exact ⟨.leftHyp j, rfl, leftHyp_ok hg' h1⟩
  obtain ⟨inf, hmk, hok⟩ := key
  refine fine_node (ids := []) (hss := [add hs hs]) hI.id hmk rfl rfl (own := [⟨.f id, hs, [], inf, []⟩]) rfl
    (Nat.le_refl _) (Nat.le_refl _) (by simp) (by simp [Name.num]) ⟨_, List.mem_singleton.2 rfl, rfl, rfl⟩ ?_ ?_
  · exact ⟨[], st, rfl, Nat.le_refl _, Nat.le_refl _, hI.orig, by simp, by simp [check], by simp⟩
  · intro done hd _
    exact check_single (fresh_name hd rfl) rfl hok

/-- The steps that are printed for a refutation are correct. -/
theorem follow_fine (hinj : ∀ i j, cfg.sko i = cfg.sko j → i = j) (hSN : ∀ j, ¬ S (cfg.sko j))
    (hAs : ∀ q ∈ Form.funsL As, ¬ Later cfg 0 q) : ∀ n, Goal S As cfg n := by
  intro n
  induction n with
  | zero =>
    intro T hs id st hh
    cases T <;> simp [height] at hh
  | succ n ih =>
    intro T hs id st hh hI hG
    cases hG with
    | axPos h1 h2 h3 => exact ax_fine hI h1 (.inl ⟨h2, h3⟩)
    | axNeg h1 h2 => exact ax_fine hI h1 (.inr ⟨_, rfl, h2⟩)
    | alpha h1 h2 h3 =>
      simp only [height, heightL] at hh
      exact alpha_fine ih (by omega) hI h1 h2 h3
    | @beta _ _ rule f t pss cs h1 h2 h3 h4 h5 =>
      simp only [height] at hh
      by_cases hr1 : rule = .equ
      · subst hr1
        obtain ⟨A, B, rfl, rfl⟩ := Rocq.equ_inv h2
        match cs, h4 with
        | [c1, c2], _ =>
          simp only [heightL] at hh
          exact equ_fine ih (by omega) (by omega) hI h1 (h3 A B rfl).1 (h3 A B rfl).2 (h5 0 _ c1 rfl rfl)
            (h5 1 _ c2 rfl rfl)
      · by_cases hr2 : rule = .nequ
        · subst hr2
          obtain ⟨A, B, rfl, rfl⟩ := Rocq.nequ_inv h2
          match cs, h4 with
          | [c1, c2], _ =>
            simp only [heightL] at hh
            exact nequ_fine ih (by omega) (by omega) hI h1 (h5 0 _ c1 rfl rfl) (h5 1 _ c2 rfl rfl)
        · exact beta_fine ih (by omega) hI h1 h2 hr1 hr2 h4 h5
    | delta h1 h2 h3 h4 h5 h6 h7 h8 h9 h10 h11 h12 =>
      simp only [height, heightL] at hh
      exact delta_fine ih hinj hSN hAs (by omega) hI h1 h2 h3 h4 h5 h7 h8 h9 h11 h12
    | gamma h1 h2 h3 h4 h5 h6 h7 h8 h9 h10 h11 =>
      simp only [height, heightL] at hh
      have e := repl_put h4 h5 h8
      rw [e] at h11 ⊢
      refine gamma_fine ih (by omega) hI h1 h2 h3 h8 ?_ ?_ h11
      · exact created_new (fun q hq hS => by obtain ⟨a, ha, _⟩ := (h9 q hq).2 hS; cases ha) hI.orig
      · rw [← e]
        exact (hI.forms _ h1).inst h3 (fun _ h => h) h8 (fun q hq => (h9 q hq).1)
    | @gammaNone _ _ rule f b x c h1 h2 h3 h4 h5 h6 h7 h8 =>
      simp only [height, heightL] at hh
      have e : put x (.fn cfg.dummy [] []) b = b := put_absent h6
      have := gamma_fine (t := none) (u := .fn cfg.dummy [] []) ih (by omega) hI h1 h2 h3 rfl rfl (As := As) (c := c) (by
        rw [e]
        refine ⟨fun i hi => (hI.forms f h1).1 i (quantParts_vars h3 hi), fun q hq => (hI.forms f h1).2 q ?_⟩
        rw [← Gs3.quantParts_funs h3]; exact hq) (by rw [e]; exact h8)
      rw [e] at this
      exact this

/-! ## The whole output -/

theorem cutAxioms_ok {c : Form} : ∀ {j : Nat} {done : List Step}, j ≤ As.length →
    seqOf As done (if j = As.length then .f 0 else .ac j) = some ⟨As.take j, [c]⟩ →
    (∀ i, i < j → Name.ac i ∉ done.map Step.name) →
    check As done (((List.range j).reverse.map fun i => (⟨.ac i, As.take i, [c], .cut 0,
      [.ax i, if i + 1 = As.length then .f 0 else .ac (i + 1)]⟩ : Step)).map .step) = true
  | 0, _, _, _, _ => rfl
  | j + 1, done, hj, hd, hn => by
    rw [List.range_succ, List.reverse_append, List.reverse_singleton, List.singleton_append, List.map_cons]
    have hlt : j < As.length := hj
    refine check_cons (hn j (by omega)) (ps := [⟨[], [As[j]]⟩, ⟨As.take (j + 1), [c]⟩]) ?_ ?_
      (cutAxioms_ok (by omega) ?_ (fun i hi => ?_))
    · refine mapM_two ?_ hd
      simp [seqOf, List.getElem?_eq_getElem hlt]
    · simp only [stepOk, List.getElem?_cons_zero, List.all_nil, List.eraseIdx_cons_zero, Bool.true_and,
        Bool.and_eq_true, List.all_eq_true, decide_eq_true_eq]
      refine ⟨fun g hg => ?_, by simp⟩
      rw [List.take_succ, List.getElem?_eq_getElem hlt, List.mem_append] at hg
      rcases hg with hg | hg
      · exact .inr hg
      · exact .inl (by simpa using hg)
    · rw [if_neg (by omega : ¬ j = As.length)]
      exact seqOf_last (s := ⟨.ac j, As.take j, [c], .cut 0, _⟩) rfl (by simp) (hn j (by omega))
    · simp only [List.map_append, List.map_cons, List.map_nil, List.mem_append, List.mem_singleton, Name.ac.injEq, not_or]
      exact ⟨hn i (by omega), by omega⟩

theorem output_ok {c : Form} {steps : List Step} {cnt : Nat}
    (hnames : ∀ s ∈ steps, ∃ m, s.name.num = some m ∧ (m ∈ [3] ∨ 3 < m ∧ m ≤ cnt))
    (hcheck : check As [] (steps.map .step) = true)
    (hmain : ∃ s ∈ steps, s.name = .f 3 ∧ s.seq = ⟨As ++ [.neg c], []⟩) :
    accepts As c (steps.map .step ++ firstStep As c ++ cutAxioms As c) = true := by
  have hn : ∀ k, k < 3 → Name.f k ∉ steps.map Step.name := by
    intro k hk h
    obtain ⟨s, hs, he⟩ := List.mem_map.1 h
    obtain ⟨m, hm, h⟩ := hnames s hs
    rw [he] at hm
    simp only [Name.num, Option.some.injEq] at hm
    subst hm
    simp only [List.mem_singleton] at h
    omega
  have hac : ∀ i, Name.ac i ∉ steps.map Step.name := by
    intro i h
    obtain ⟨s, hs, he⟩ := List.mem_map.1 h
    obtain ⟨m, hm, _⟩ := hnames s hs
    rw [he] at hm
    simp [Name.num] at hm
  obtain ⟨s0, hs0, hname0, hseq0⟩ := hmain
  have q3 : seqOf As steps (.f 3) = some ⟨As ++ [.neg c], []⟩ := by
    have := seqOf_found (more := []) hcheck hs0 (by rw [hname0]; simp)
    rw [hname0, hseq0, List.append_nil, List.nil_append] at this
    exact this
  let s1 : Step := ⟨.f 2, As ++ [c], [c], .hyp As.length, []⟩
  let s2 : Step := ⟨.f 1, As, [c, .neg c], .rightNot 1, [.f 2]⟩
  let s3 : Step := ⟨.f 0, As, [c], .cut 1, [.f 1, .f 3]⟩
  let acs : List Step := (List.range As.length).reverse.map fun i => ⟨.ac i, As.take i, [c], .cut 0,
      [.ax i, if i + 1 = As.length then .f 0 else .ac (i + 1)]⟩
  have hcut : cutAxioms As c = acs.map .step := by simp [cutAxioms, acs]
  have hfirst : firstStep As c = [s1, s2, s3].map .step := rfl
  have hm : ∀ {nm : Name} {l : List Step}, nm ∉ steps.map Step.name → nm ∉ l.map Step.name →
      nm ∉ (steps ++ l).map Step.name := by
    intro nm l h1 h2 h
    rw [List.map_append, List.mem_append] at h
    exact h.elim h1 h2
  have t1 : seqOf As (steps ++ [s1]) (.f 2) = some ⟨As ++ [c], [c]⟩ := seqOf_last (s := s1) rfl (by simp) (hn 2 (by omega))
  have t2 : seqOf As (steps ++ [s1, s2]) (.f 1) = some ⟨As, [c, .neg c]⟩ := by
    have := seqOf_last (As := As) (done := steps ++ [s1]) (s := s2) (more := []) rfl (by simp)
      (hm (hn 1 (by omega)) (by simp [s1, s2]))
    rw [List.append_assoc] at this
    exact this
  have t3 : seqOf As (steps ++ [s1, s2, s3]) (.f 0) = some ⟨As, [c]⟩ := by
    have := seqOf_last (As := As) (done := steps ++ [s1, s2]) (s := s3) (more := []) rfl (by simp)
      (hm (hn 0 (by omega)) (by simp [s1, s2, s3]))
    rw [List.append_assoc] at this
    exact this
  simp only [accepts, Bool.and_eq_true]
  constructor
  · rw [List.append_assoc, check_append, Bool.and_eq_true, hfirst, hcut, List.nil_append, check_append, Bool.and_eq_true]
    refine ⟨hcheck, ?_, ?_⟩
    · refine check_cons (ps := []) (hn 2 (by omega)) rfl (by simp [s1, stepOk]) ?_
      refine check_cons (hm (hn 1 (by omega)) (by simp [s1, s2])) (mapM_one t1) ?_ ?_
      · simp [s2, stepOk, same_iff]
      · rw [List.append_assoc, List.singleton_append]
        refine check_single (hm (hn 0 (by omega)) (by simp [s1, s2, s3])) (mapM_two t2 (seqOf_more q3)) ?_
        simp only [s3, stepOk]
        simp
        exact fun g hg => .inr hg
    · refine cutAxioms_ok (Nat.le_refl _) ?_ (fun i _ => hm (hac i) (by simp [s1, s2, s3]))
      rw [if_pos rfl, List.take_length]
      exact t3
  · simp only [List.any_eq_true]
    cases hA : As with
    | nil =>
      refine ⟨.step ⟨.f 0, [], [c], .cut 1, [.f 1, .f 3]⟩, ?_, by simp⟩
      simp [firstStep]
    | cons a As' =>
      refine ⟨.step ⟨.ac 0, [], [c], .cut 0, [.ax 0, if 0 + 1 = As.length then .f 0 else .ac (0 + 1)]⟩, ?_, by simp⟩
      rw [← hA, hcut]
      refine List.mem_append.2 (.inr (List.mem_map.2 ⟨_, List.mem_map.2 ⟨0, ?_, ?_⟩, rfl⟩))
      · simp [hA]
      · simp

end

end Verif.Tptp
