import Verif.Search.IncrGround
/-!
# C64 for ground formulas: all runs

On a plain formula every schedule ends after a bounded number of steps, and the tree is reported closed exactly
when the formula has no model.
-/

namespace Verif.Search.Incr
open Verif.AST Verif.Search Verif.Unif

variable {ar : Nat → Nat} {B : Nat} {f : Form}

/-! ### Combination of substitutions without bindings -/

theorem build_blank {a b : Sub} (ha : a.l = []) (hb : b.l = []) : ∃ c, a.build b = some c ∧ c.l = [] := by
  unfold Sub.build
  split
  · exact ⟨_, rfl, hb⟩
  · split
    · exact ⟨_, rfl, ha⟩
    · rw [if_pos (by simp [Sub.compatible, ha, hb])]
      exact ⟨_, rfl, by simp [ha, hb]⟩

theorem addSub_ne {r : List Sub} {c : Sub} : addSub r c ≠ [] := by
  unfold addSub
  split
  · rename_i h
    rintro rfl
    simp [containsSub] at h
  · simp

theorem addSub_blank {r : List Sub} {c : Sub} (hr : ∀ x ∈ r, x.l = []) (hc : c.l = []) : ∀ x ∈ addSub r c, x.l = [] := by
  intro x hx
  rcases mem_addSub hx with hx | rfl
  · exact hr x hx
  · exact hc

theorem addSubs_blank {subs : List Sub} : ∀ {l : List Sub}, (∀ x ∈ l, x.l = []) → (∀ x ∈ subs, x.l = []) → ∀ x ∈ addSubs l subs, x.l = [] := by
  induction subs with
  | nil => intro l hl _; exact hl
  | cons s subs ih => intro l hl hs; exact ih (addSub_blank hl (hs s (by simp))) fun x hx => hs x (by simp [hx])

theorem addSubs_ne_of_ne {subs : List Sub} : ∀ {l : List Sub}, l ≠ [] → addSubs l subs ≠ [] := by
  induction subs with
  | nil => intro l hl; exact hl
  | cons s subs ih => intro l _; exact ih addSub_ne

theorem addSubs_ne {subs l : List Sub} (h : subs ≠ []) : addSubs l subs ≠ [] := by
  cases subs with
  | nil => exact absurd rfl h
  | cons s subs => exact addSubs_ne_of_ne (l := addSub l s) addSub_ne

theorem inner_blank {a : Sub} (ha : a.l = []) (second : List Sub) (hb : ∀ b ∈ second, b.l = []) (r : List Sub) (hr : ∀ x ∈ r, x.l = []) :
    (∀ x ∈ second.foldl (fun r b => match a.build b with
      | some c => addSub r c
      | none => r) r, x.l = []) ∧ (r ≠ [] ∨ second ≠ [] → second.foldl (fun r b => match a.build b with
      | some c => addSub r c
      | none => r) r ≠ []) := by
  induction second generalizing r with
  | nil => exact ⟨hr, fun h => h.elim id fun h => absurd rfl h⟩
  | cons b second ih =>
    obtain ⟨c, e, hc⟩ := build_blank ha (hb b (by simp))
    simp only [List.foldl_cons, e]
    obtain ⟨i1, i2⟩ := ih (fun b hx => hb b (by simp [hx])) _ (addSub_blank hr hc)
    exact ⟨i1, fun _ => i2 (Or.inl addSub_ne)⟩

theorem between_blank {first second : List Sub} (h1 : ∀ a ∈ first, a.l = []) (h2 : ∀ b ∈ second, b.l = []) :
    (∀ x ∈ between first second, x.l = []) ∧ (first ≠ [] → second ≠ [] → between first second ≠ []) := by
  unfold between
  have key : ∀ (l r : List Sub), (∀ a ∈ l, a.l = []) → (∀ x ∈ r, x.l = []) →
      (∀ x ∈ l.foldl (fun r a => second.foldl (fun r b => match a.build b with
        | some c => addSub r c
        | none => r) r) r, x.l = []) ∧ (r ≠ [] ∨ (l ≠ [] ∧ second ≠ []) →
        l.foldl (fun r a => second.foldl (fun r b => match a.build b with
        | some c => addSub r c
        | none => r) r) r ≠ []) := by
    intro l
    induction l with
    | nil => intro r _ hr; exact ⟨hr, fun h => h.elim id fun h => absurd rfl h.1⟩
    | cons a l ih =>
      intro r hl hr
      obtain ⟨i1, i2⟩ := inner_blank (hl a (by simp)) second h2 r hr
      obtain ⟨j1, j2⟩ := ih _ (fun a ha => hl a (by simp [ha])) i1
      exact ⟨j1, fun h => j2 (Or.inl (i2 (h.imp_right And.right)))⟩
  obtain ⟨k1, k2⟩ := key first [] h1 (by simp)
  exact ⟨k1, fun a b => k2 (Or.inr ⟨a, b⟩)⟩

theorem compatibleSubs_blank {slots : List (List Sub)} (h0 : slots ≠ []) (h : ∀ l ∈ slots, ∀ x ∈ l, x.l = [])
    (hne : ∀ l ∈ slots, l ≠ []) : compatibleSubs slots ≠ [] ∧ ∀ x ∈ compatibleSubs slots, x.l = [] := by
  cases slots with
  | nil => exact absurd rfl h0
  | cons c cs =>
    simp only [compatibleSubs]
    have hc := h c (by simp)
    have hcn := hne c (by simp)
    have hcs : ∀ l ∈ cs, ∀ x ∈ l, x.l = [] := fun l hl => h l (by simp [hl])
    have hcsn : ∀ l ∈ cs, l ≠ [] := fun l hl => hne l (by simp [hl])
    clear h hne h0
    induction cs generalizing c with
    | nil => exact ⟨hcn, hc⟩
    | cons d cs ih =>
      obtain ⟨b1, b2⟩ := between_blank hc (hcs d (by simp))
      exact ih _ b1 (b2 hcn (hcsn d (by simp))) (fun l hl => hcs l (by simp [hl])) fun l hl => hcsn l (by simp [hl])

/-! ### Invariants -/

/-- The part of a node that reports of closing substitutions do not change. -/
def Node.core (n : Node) : Node := { n with slots := [], counter := 0, done := [], closing := [] }

def St.core (s : St) (i : Nat) : Option Node := (s.nodes[i]?).map Node.core

theorem core_some {s : St} {i : Nat} {n : Node} (h : s.nodes[i]? = some n) : s.core i = some n.core := by simp [St.core, h]

theorem of_core {s : St} {i : Nat} {c : Node} (h : s.core i = some c) : ∃ n, s.nodes[i]? = some n ∧ c = n.core := by
  obtain ⟨n, h, e⟩ := Option.map_eq_some_iff.1 h
  exact ⟨n, h, e.symm⟩

/-- The tree, its meaning, and the tasks. -/
structure Stat (ar : Nat → Nat) (B : Nat) (f : Form) (g : Nat → Option Node) (agenda : List Task) (imp : Bool) : Prop where
  root : ∃ n, g 0 = some n ∧ n.father = 0 ∧ n.mgr.rm = RM.root f
  good : ∀ i n, g i = some n → n.mgr.rm.Good ar B ∧ n.mgr.reintro = [] ∧ n.mgr.metas = []
  child : ∀ (i : Nat) (n : Node) (k c : Nat), g i = some n → n.children[k]? = some c → i < c ∧ ∃ nc, g c = some nc ∧ nc.father = i ∧ nc.childNb = k
  father : ∀ i n, g i = some n → i ≠ 0 → n.father < i ∧ ∃ fn, g n.father = some fn ∧ fn.children[n.childNb]? = some i
  cover : ∀ i n, g i = some n → n.children ≠ [] → ∀ (D : Type) (I : Interp D) (μ ρ : Nat → D),
    n.mgr.rm.holds I μ ρ ↔ ∃ c ∈ n.children, ∃ nc, g c = some nc ∧ nc.mgr.rm.holds I μ ρ
  single : ∀ i n, g i = some n → n.children ≠ [] → n.branching = false → n.children.length = 1
  leaf : ∀ i n, g i = some n → n.children = [] → n.branching = false
  shut : ∀ i n, g i = some n → n.children = [] → n.isClosed = true → n.mgr.rm.shut = true
  fin : ∀ i n, g i = some n → n.finished = true → imp = true
  impos : imp = true → ∃ I : Interp Term, (RM.root f).holds I Term.mv Term.var
  nodup : agenda.Nodup
  tasks : ∀ t ∈ agenda, ∃ i n, t = .search i ∧ g i = some n ∧ n.children = [] ∧ n.isClosed = false
  opened : ∀ i n, g i = some n → n.children = [] → n.isClosed = true ∨ imp = true ∨ Task.search i ∈ agenda

/-- What the reports of closing substitutions have recorded at a node; `sent` are the nodes that have reported to their
father, `P` is a node that is about to. -/
structure NDyn (sent : Nat → Bool) (P : Option Nat) (i : Nat) (n : Node) : Prop where
  len : n.children ≠ [] → n.slots.length = n.children.length
  slot : ∀ (k c : Nat) (l : List Sub), n.children[k]? = some c → n.slots[k]? = some l → (l ≠ [] ↔ sent c = true)
  cnt : n.branching = true → n.counter = (n.slots.countP List.isEmpty : Nat)
  subs : ∀ l ∈ n.slots, ∀ x ∈ l, x.l = []
  done : n.done ≠ [] → sent i = true
  leaf : n.children = [] → (sent i = true ∨ P = some i ↔ n.isClosed = true)
  inner : n.children ≠ [] → i ≠ 0 → ((∀ c ∈ n.children, sent c = true) ↔ sent i = true ∨ P = some i)
  root : n.children ≠ [] → i = 0 → sent 0 = false ∧ P ≠ some 0
  blank : n.children = [] → sent i = false → n.slots = [[]]

structure Dyn (s : St) (sent : Nat → Bool) (P : Option Nat) : Prop where
  node : ∀ i n, s.nodes[i]? = some n → NDyn sent P i n
  bound : ∀ i, sent i = true → i < s.nodes.length

/-- The same tree, meaning and tasks. -/
structure Same (s s' : St) : Prop where
  core : s'.core = s.core
  agenda : s'.agenda = s.agenda
  imp : s'.impossible = s.impossible

theorem Same.rfl' {s : St} : Same s s := ⟨rfl, rfl, rfl⟩

theorem Same.trans {s t u : St} (h1 : Same s t) (h2 : Same t u) : Same s u :=
  ⟨h2.core.trans h1.core, h2.agenda.trans h1.agenda, h2.imp.trans h1.imp⟩

/-! ### Reports -/

/-- What a report of node `i` changes. -/
def markN (i fa k : Nat) (subs : List Sub) (j : Nat) (y : Node) : Node :=
  let y1 := if i = j then { y with done := addSubs y.done subs } else y
  if fa = j then { y1 with slots := y1.slots.modify k (addSubs · subs), counter := if y1.branching then y1.counter - 1 else y1.counter }
    else y1

def St.mark (s : St) (i : Nat) (n : Node) (subs : List Sub) : St :=
  (s.upd i fun n => { n with done := addSubs n.done subs }).upd n.father fun f =>
    { f with slots := f.slots.modify n.childNb (addSubs · subs), counter := if f.branching then f.counter - 1 else f.counter }

theorem mark_get {s : St} {i : Nat} {n : Node} {subs : List Sub} (j : Nat) :
    (s.mark i n subs).nodes[j]? = (s.nodes[j]?).map (markN i n.father n.childNb subs j) := by
  simp only [St.mark, St.upd, List.getElem?_modify, Option.map_eq_map, Option.map_map]
  rfl

theorem markN_core {i fa k : Nat} {subs : List Sub} {j : Nat} {y : Node} : (markN i fa k subs j y).core = y.core := by
  unfold markN Node.core
  split <;> split <;> rfl

theorem markN_static {i fa k : Nat} {subs : List Sub} {j : Nat} {y : Node} : (markN i fa k subs j y).children = y.children ∧
    (markN i fa k subs j y).branching = y.branching ∧ (markN i fa k subs j y).isClosed = y.isClosed ∧
    (markN i fa k subs j y).father = y.father ∧ (markN i fa k subs j y).mgr = y.mgr ∧ (markN i fa k subs j y).childNb = y.childNb := by
  unfold markN
  split <;> split <;> exact ⟨rfl, rfl, rfl, rfl, rfl, rfl⟩

theorem markN_slots {i fa k : Nat} {subs : List Sub} {j : Nat} {y : Node} :
    (markN i fa k subs j y).slots = if fa = j then y.slots.modify k (addSubs · subs) else y.slots := by
  unfold markN
  split <;> split <;> rfl

theorem markN_counter {i fa k : Nat} {subs : List Sub} {j : Nat} {y : Node} :
    (markN i fa k subs j y).counter = if fa = j ∧ y.branching = true then y.counter - 1 else y.counter := by
  unfold markN
  split <;> split <;> simp_all

theorem markN_done {i fa k : Nat} {subs : List Sub} {j : Nat} {y : Node} :
    (markN i fa k subs j y).done = if i = j then addSubs y.done subs else y.done := by
  unfold markN
  split <;> split <;> rfl

theorem addFor_succ {s : St} {i k : Nat} {subs : List Sub} {n fn : Node} (h : s.nodes[i]? = some n)
    (h' : (s.mark i n subs).nodes[n.father]? = some fn) :
    s.addFor (k + 1) i subs = if fn.branching && decide (fn.counter ≠ 0) then s.mark i n subs
      else (s.mark i n subs).sendWith (fun s c => St.addFor k s n.father c) n.father := by
  simp only [St.addFor, h]
  unfold St.mark at h' ⊢
  simp only [h']

theorem mark_same {s : St} {i : Nat} {n : Node} {subs : List Sub} : Same s (s.mark i n subs) := by
  refine ⟨?_, rfl, rfl⟩
  funext j
  simp only [St.core, mark_get, Option.map_map]
  congr 1
  funext y
  exact markN_core

theorem countP_modify {l : List (List Sub)} {k : Nat} {g : List Sub → List Sub} (h : l[k]? = some []) (hg : g [] ≠ []) :
    (l.modify k g).countP List.isEmpty + 1 = l.countP List.isEmpty := by
  induction l generalizing k with
  | nil => simp at h
  | cons a l ih =>
    cases k with
    | zero =>
      simp only [List.getElem?_cons_zero, Option.some.injEq] at h
      subst h
      have : (g []).isEmpty = false := by simpa using hg
      simp [List.countP_cons, this]
    | succ k =>
      simp only [List.getElem?_cons_succ] at h
      have := ih h
      simp only [List.modify_succ_cons, List.countP_cons]
      omega

/-- Marking node `i` as reported. -/
theorem mark_dyn {s : St} {sent : Nat → Bool} {i : Nat} {n : Node} {subs : List Sub}
    (hS : Stat ar B f s.core s.agenda s.impossible) (hD : Dyn s sent (some i)) (hi : sent i = false)
    (hn : s.nodes[i]? = some n) (hsub : subs ≠ []) (hbl : ∀ x ∈ subs, x.l = []) (P : Option Nat)
    (hP : ∀ fa, i ≠ 0 → s.nodes[n.father]? = some fa →
      (P = some n.father ↔ n.father ≠ 0 ∧ ∀ c ∈ fa.children, c = i ∨ sent c = true))
    (hP0 : ∀ j, P = some j → i ≠ 0 ∧ j = n.father) :
    Dyn (s.mark i n subs) (fun j => if j = i then true else sent j) P := by
  have hlt : i < s.nodes.length := (List.getElem?_eq_some_iff.1 hn).1
  refine ⟨fun j x hx => ?_, fun j hj => ?_⟩
  swap
  · have : (s.mark i n subs).nodes.length = s.nodes.length := by simp [St.mark, St.upd]
    rw [this]
    split at hj
    · rename_i e; rw [e]; exact hlt
    · exact hD.bound j hj
  rw [mark_get, Option.map_eq_some_iff] at hx
  obtain ⟨y, hy, rfl⟩ := hx
  obtain ⟨c1, c2, c3, -, -, -⟩ := @markN_static i n.father n.childNb subs j y
  have hd := hD.node j y hy
  have hdi := hD.node i n hn
  by_cases h0 : i = 0
  · -- the root is a leaf
    subst h0
    obtain ⟨r0, hr0, hr1, -⟩ := hS.root
    rw [core_some hn] at hr0
    obtain rfl := Option.some.inj hr0
    have hf0 : n.father = 0 := hr1
    have hch : n.children = [] := by
      by_contra hc
      exact (hdi.root hc rfl).2 rfl
    have hPn : P = none := by
      cases hP' : P with
      | none => rfl
      | some j => exact absurd rfl (hP0 j hP').1
    by_cases hj : j = 0
    · subst hj
      rw [hn] at hy
      obtain rfl := Option.some.inj hy
      constructor
      · rw [c1]; exact fun h => absurd hch h
      · rw [c1, hch]; intro k c l h; simp at h
      · have hb : n.branching = false := hS.leaf 0 n.core (core_some hn) hch
        rw [c2, hb]; intro h; cases h
      · rw [markN_slots, hf0, if_pos rfl]
        intro l hl
        rcases mem_modify hl with hl | ⟨l', hl', rfl⟩
        · exact hd.subs l hl
        · exact addSubs_blank (hd.subs l' hl') hbl
      · intro _; simp
      · rw [c1, c3]; intro h; simp; exact (hd.leaf h).1 (Or.inr rfl)
      · rw [c1]; exact fun h => absurd hch h
      · rw [c1]; exact fun h => absurd hch h
      · simp
    · have hj' : ¬ (0 = j) := fun h => hj h.symm
      have hs : (if j = 0 then true else sent j) = sent j := if_neg hj
      have hchild : ∀ c ∈ y.children, (if c = 0 then true else sent c) = sent c := by
        intro c hc
        obtain ⟨k, hk⟩ := List.mem_iff_getElem?.1 hc
        have := (hS.child j _ k c (core_some hy) hk).1
        rw [if_neg (by omega)]
      constructor
      · rw [c1, markN_slots, hf0, if_neg hj']; exact hd.len
      · rw [c1, markN_slots, hf0, if_neg hj']
        intro k c l hk hl
        rw [hchild c (List.mem_of_getElem? hk)]
        exact hd.slot k c l hk hl
      · rw [c2, markN_slots, markN_counter, hf0, if_neg hj', if_neg (fun h => hj' h.1)]; exact hd.cnt
      · rw [markN_slots, hf0, if_neg hj']; exact hd.subs
      · rw [markN_done, if_neg hj', hs]; exact hd.done
      · rw [c1, c3, hs]; intro h
        rw [← hd.leaf h, hPn]; simp [hj']
      · rw [c1, hs]; intro h hj0
        rw [hPn]
        have := hd.inner h hj0
        simp only [Option.some.injEq, hj', or_false] at this
        simp only [reduceCtorEq, or_false]
        rw [← this]
        constructor
        · intro hh c hc; rw [← hchild c hc]; exact hh c hc
        · intro hh c hc; rw [hchild c hc]; exact hh c hc
      · intro _ h; exact absurd h hj
      · rw [c1, hs, markN_slots, hf0, if_neg hj']; exact hd.blank
  · -- `i` has a father
    obtain ⟨f1, fc, hfc, f2⟩ := hS.father i _ (core_some hn) h0
    obtain ⟨fa, hfa, rfl⟩ := of_core hfc
    have f1 : n.father < i := f1
    have f2 : fa.children[n.childNb]? = some i := f2
    have hfa : s.nodes[n.father]? = some fa := hfa
    have hfne : fa.children ≠ [] := by rintro h; rw [h] at f2; simp at f2
    have himem : i ∈ fa.children := List.mem_of_getElem? f2
    have hdf := hD.node _ fa hfa
    have hsf : sent n.father = false := by
      by_cases hf0 : n.father = 0
      · rw [hf0]; exact (hdf.root hfne hf0).1
      · by_contra hc
        have := (hdf.inner hfne hf0).2 (Or.inl (by simpa using hc)) i himem
        rw [hi] at this; cases this
    have hPf := hP fa h0 hfa
    by_cases hjf : n.father = j
    · subst hjf
      rw [hfa] at hy
      obtain rfl := Option.some.inj hy
      have hji : n.father ≠ i := by omega
      have hs : (if n.father = i then true else sent n.father) = sent n.father := if_neg hji
      have hslen := hdf.len hfne
      have hk : n.childNb < fa.slots.length := by
        rw [hslen]; exact (List.getElem?_eq_some_iff.1 f2).1
      have hslot : fa.slots[n.childNb]? = some [] := by
        have e : fa.slots[n.childNb]? = some fa.slots[n.childNb] := by simp [hk]
        have := hdf.slot _ _ _ f2 e
        rw [hi] at this
        have h2 : fa.slots[n.childNb] = [] := by
          by_contra hc
          exact absurd (this.1 hc) (by simp)
        rw [e, h2]
      constructor
      · rw [c1, markN_slots, if_pos rfl]; intro h; rw [List.length_modify]; exact hdf.len h
      · rw [c1, markN_slots, if_pos rfl]
        intro k c l hkc hl
        obtain ⟨-, ncc, hncc, -, hnb⟩ := hS.child _ _ k c (core_some hfa) hkc
        by_cases hkk : n.childNb = k
        · subst hkk
          rw [f2] at hkc
          obtain rfl := Option.some.inj hkc
          rw [List.getElem?_modify, hslot] at hl
          simp only [if_true, Option.map_eq_map, Option.map_some, Option.some.injEq] at hl
          rw [← hl]
          simp [addSubs_ne hsub]
        · have hci : c ≠ i := by
            rintro rfl
            rw [core_some hn] at hncc
            obtain rfl := Option.some.inj hncc
            exact hkk hnb
          rw [List.getElem?_modify] at hl
          simp only [hkk, if_false] at hl
          rw [if_neg hci]
          refine hdf.slot k c l hkc ?_
          simpa using hl
      · rw [c2, markN_slots, if_pos rfl, markN_counter]
        intro hb
        rw [if_pos ⟨rfl, hb⟩, hdf.cnt hb]
        have := countP_modify (g := (addSubs · subs)) hslot (addSubs_ne hsub)
        omega
      · rw [markN_slots, if_pos rfl]
        intro l hl
        rcases mem_modify hl with hl | ⟨l', hl', rfl⟩
        · exact hdf.subs l hl
        · exact addSubs_blank (hdf.subs l' hl') hbl
      · rw [markN_done, if_neg (fun h => hji h.symm), hs]; exact hdf.done
      · rw [c1]; exact fun h => absurd h hfne
      · rw [c1, hs, hsf]
        intro _ hf0
        rw [hPf]
        simp only [Bool.false_eq_true, false_or]
        constructor
        · intro hh
          refine ⟨hf0, fun c hc => ?_⟩
          have := hh c hc
          by_cases hci : c = i
          · exact Or.inl hci
          · rw [if_neg hci] at this; exact Or.inr this
        · rintro ⟨-, hh⟩ c hc
          rcases hh c hc with rfl | h
          · simp
          · rw [h]; simp
      · rw [c1]
        intro _ hf0
        refine ⟨by rw [if_neg (by omega)]; rw [← hf0]; exact hsf, ?_⟩
        intro hP'
        rw [← hf0] at hP'
        exact (hPf.1 hP').1 hf0
      · rw [c1]; exact fun h => absurd h hfne
    · -- neither root nor father
      have hPj : P ≠ some j := fun h => hjf (hP0 j h).2.symm
      have hchild : ∀ c ∈ y.children, (if c = i then true else sent c) = sent c := by
        intro c hc
        obtain ⟨k, hk⟩ := List.mem_iff_getElem?.1 hc
        obtain ⟨-, nc, hnc, hncf, -⟩ := hS.child j _ k c (core_some hy) hk
        rw [if_neg]
        rintro rfl
        rw [core_some hn] at hnc
        obtain rfl := Option.some.inj hnc
        exact hjf hncf
      by_cases hji : j = i
      · subst hji
        rw [hn] at hy
        obtain rfl := Option.some.inj hy
        constructor
        · rw [c1, markN_slots, if_neg hjf]; exact hd.len
        · rw [c1, markN_slots, if_neg hjf]
          intro k c l hk hl
          rw [hchild c (List.mem_of_getElem? hk)]
          exact hd.slot k c l hk hl
        · rw [c2, markN_slots, markN_counter, if_neg hjf, if_neg (fun h => hjf h.1)]; exact hd.cnt
        · rw [markN_slots, if_neg hjf]; exact hd.subs
        · intro _; simp
        · rw [c1, c3]; intro h; simp; exact (hd.leaf h).1 (Or.inr rfl)
        · rw [c1]; intro h _
          have := (hd.inner h h0).2 (Or.inr rfl)
          simp only [if_true, true_or, iff_true]
          intro c hc; rw [hchild c hc]; exact this c hc
        · intro _ h; exact absurd h h0
        · simp
      · have hij : ¬ (i = j) := fun h => hji h.symm
        have hs : (if j = i then true else sent j) = sent j := if_neg hji
        constructor
        · rw [c1, markN_slots, if_neg hjf]; exact hd.len
        · rw [c1, markN_slots, if_neg hjf]
          intro k c l hk hl
          rw [hchild c (List.mem_of_getElem? hk)]
          exact hd.slot k c l hk hl
        · rw [c2, markN_slots, markN_counter, if_neg hjf, if_neg (fun h => hjf h.1)]; exact hd.cnt
        · rw [markN_slots, if_neg hjf]; exact hd.subs
        · rw [markN_done, if_neg hij, hs]; exact hd.done
        · rw [c1, c3, hs]; intro h
          rw [← hd.leaf h]; simp [hij, hPj]
        · rw [c1, hs]; intro h hj0
          have := hd.inner h hj0
          simp only [Option.some.injEq, hij, or_false] at this
          simp only [hPj, or_false]
          rw [← this]
          constructor
          · intro hh c hc; rw [← hchild c hc]; exact hh c hc
          · intro hh c hc; rw [hchild c hc]; exact hh c hc
        · rw [c1]; intro h hj0
          refine ⟨by rw [if_neg (by omega)]; exact (hd.root h hj0).1, ?_⟩
          rw [← hj0]; exact hPj
        · rw [c1, hs, markN_slots, if_neg hjf]; exact hd.blank

/-- **Reports never restart the search**: a report changes neither the tree nor the tasks. -/
theorem addFor_ok (k : Nat) : ∀ {s : St} {sent : Nat → Bool} {i : Nat} {subs : List Sub} {n : Node},
    Stat ar B f s.core s.agenda s.impossible → Dyn s sent (some i) → sent i = false → s.nodes[i]? = some n → i < k →
    subs ≠ [] → (∀ x ∈ subs, x.l = []) → Same s (s.addFor k i subs) ∧ ∃ sent', Dyn (s.addFor k i subs) sent' none := by
  induction k with
  | zero => intro s sent i subs n _ _ _ _ h; omega
  | succ k ih =>
    intro s sent i subs n hS hD hi hn hk hsub hbl
    have hsame := @mark_same s i n subs
    by_cases h0 : i = 0
    · subst h0
      obtain ⟨r0, hr0, hr1, -⟩ := hS.root
      rw [core_some hn] at hr0
      obtain rfl := Option.some.inj hr0
      have hf0 : n.father = 0 := hr1
      have hch : n.children = [] := by
        by_contra hc
        exact ((hD.node 0 n hn).root hc rfl).2 rfl
      have hmark := mark_dyn hS hD hi hn hsub hbl none (fun _ h => absurd rfl h) (fun j h => by cases h)
      obtain ⟨c1, c2, c3, c4, -, -⟩ := @markN_static 0 n.father n.childNb subs 0 n
      have hget : (s.mark 0 n subs).nodes[n.father]? = some (markN 0 n.father n.childNb subs 0 n) := by
        rw [mark_get, hf0, hn]; simp only [hf0, Option.map_some]
      have hb : n.branching = false := hS.leaf 0 n.core (core_some hn) hch
      rw [addFor_succ hn hget, c2, hb]
      simp only [Bool.false_and, Bool.false_eq_true, if_false]
      have : (s.mark 0 n subs).sendWith (fun s c => St.addFor k s n.father c) n.father = s.mark 0 n subs := by
        unfold St.sendWith
        simp only [hget, c2, hb, c4, if_true, Bool.false_eq_true, if_false]
        split <;> rfl
      rw [this]
      exact ⟨hsame, _, hmark⟩
    · obtain ⟨f1, fc, hfc, f2⟩ := hS.father i _ (core_some hn) h0
      obtain ⟨fa, hfa, rfl⟩ := of_core hfc
      have f1 : n.father < i := f1
      have f2 : fa.children[n.childNb]? = some i := f2
      have hfa : s.nodes[n.father]? = some fa := hfa
      have hfne : fa.children ≠ [] := by rintro h; rw [h] at f2; simp at f2
      have himem : i ∈ fa.children := List.mem_of_getElem? f2
      have hdf := hD.node _ fa hfa
      have hslen := hdf.len hfne
      have hnelen : fa.slots ≠ [] := by
        intro h; rw [h] at hslen; exact hfne (List.length_eq_zero_iff.1 hslen.symm)
      obtain ⟨c1, c2, c3, c4, c5, -⟩ := @markN_static i n.father n.childNb subs n.father fa
      have hget : (s.mark i n subs).nodes[n.father]? = some (markN i n.father n.childNb subs n.father fa) := by
        rw [mark_get, hfa]; rfl
      rw [addFor_succ hn hget]
      -- the father has heard of all its children or not
      by_cases hall : ∀ c ∈ fa.children, c = i ∨ sent c = true
      · have hmark := mark_dyn hS hD hi hn hsub hbl (if n.father = 0 then none else some n.father)
          (fun fa' _ hfa' => by
            rw [hfa] at hfa'
            obtain rfl := Option.some.inj hfa'
            split
            · simp [*]
            · simp only [true_iff]; exact ⟨by assumption, hall⟩)
          (fun j h => by
            split at h
            · cases h
            · exact ⟨h0, (Option.some.inj h).symm⟩)
        have hdm := hmark.node _ _ hget
        have hsent : ∀ c ∈ fa.children, (if c = i then true else sent c) = true := by
          intro c hc
          rcases hall c hc with rfl | h
          · simp
          · rw [h]; simp
        have hslots : ∀ l ∈ (markN i n.father n.childNb subs n.father fa).slots, l ≠ [] := by
          intro l hl
          obtain ⟨q, hq⟩ := List.mem_iff_getElem?.1 hl
          have hq' : q < fa.children.length := by
            have := (List.getElem?_eq_some_iff.1 hq).1
            rwa [hdm.len (by rw [c1]; exact hfne), c1] at this
          have he : fa.children[q]? = some fa.children[q] := by simp [hq']
          exact (hdm.slot q _ l (by rw [c1]; exact he) hq).2 (hsent _ (List.getElem_mem hq'))
        have hcnt : (markN i n.father n.childNb subs n.father fa).branching = true →
            (markN i n.father n.childNb subs n.father fa).counter = 0 := by
          intro hb
          rw [hdm.cnt hb]
          have : List.countP List.isEmpty (markN i n.father n.childNb subs n.father fa).slots = 0 := by
            rw [List.countP_eq_zero]
            intro l hl
            simpa using hslots l hl
          rw [this]; rfl
        have hcond : ((markN i n.father n.childNb subs n.father fa).branching &&
            decide ((markN i n.father n.childNb subs n.father fa).counter ≠ 0)) = false := by
          cases hb : (markN i n.father n.childNb subs n.father fa).branching with
          | false => rfl
          | true => simp [hcnt hb]
        rw [hcond]
        simp only [Bool.false_eq_true, if_false]
        have hne' : (markN i n.father n.childNb subs n.father fa).slots ≠ [] := by
          rw [markN_slots, if_pos rfl]
          intro h
          have := congrArg List.length h
          rw [List.length_modify] at this
          exact hnelen (List.length_eq_zero_iff.1 this)
        obtain ⟨k1, k2⟩ := compatibleSubs_blank hne' hdm.subs hslots
        have hcompat : (markN i n.father n.childNb subs n.father fa).compat =
            compatibleSubs (markN i n.father n.childNb subs n.father fa).slots := by
          unfold Node.compat addMissing
          have hm : fa.mgr.metas = [] := (hS.good _ _ (core_some hfa)).2.2
          rw [c5, if_pos (Or.inl hm)]
        have hsend : (s.mark i n subs).sendWith (fun s c => St.addFor k s n.father c) n.father =
            if fa.father = n.father then s.mark i n subs else St.addFor k (s.mark i n subs) n.father
              (compatibleSubs (markN i n.father n.childNb subs n.father fa).slots) := by
          unfold St.sendWith
          simp only [hget, hcompat, k1, c4, ne_eq, not_false_eq_true, if_true]
        rw [hsend]
        by_cases hf0 : n.father = 0
        · obtain ⟨r0, hr0, hr1, -⟩ := hS.root
          rw [← hf0, core_some hfa] at hr0
          obtain rfl := Option.some.inj hr0
          have hr1 : fa.father = n.father := hr1.trans hf0.symm
          rw [if_pos hr1]
          rw [if_pos hf0] at hmark
          exact ⟨hsame, _, hmark⟩
        · have hff := (hS.father _ _ (core_some hfa) hf0).1
          have hff : fa.father < n.father := hff
          rw [if_neg (by omega)]
          rw [if_neg hf0] at hmark
          have hsf : sent n.father = false := by
            by_contra hc
            have := (hdf.inner hfne hf0).2 (Or.inl (by simpa using hc)) i himem
            rw [hi] at this; cases this
          have hS' : Stat ar B f (s.mark i n subs).core (s.mark i n subs).agenda (s.mark i n subs).impossible := by
            rw [hsame.core, hsame.agenda, hsame.imp]; exact hS
          obtain ⟨i1, i2⟩ := ih hS' hmark (by rw [if_neg (by omega)]; exact hsf) hget (by omega) k1 k2
          exact ⟨hsame.trans i1, i2⟩
      · have hmark := mark_dyn hS hD hi hn hsub hbl none
          (fun fa' _ hfa' => by
            rw [hfa] at hfa'
            obtain rfl := Option.some.inj hfa'
            simp only [reduceCtorEq, false_iff, not_and]
            intro _; exact hall)
          (fun j h => by cases h)
        have hdm := hmark.node _ _ hget
        have hb : fa.branching = true := by
          by_contra hb
          have h1 := hS.single _ _ (core_some hfa) hfne (by simpa [Node.core] using hb)
          have h1 : fa.children.length = 1 := h1
          obtain ⟨x, hx⟩ := List.length_eq_one_iff.1 h1
          rw [hx] at himem hall
          simp only [List.mem_singleton] at himem hall
          exact hall fun c hc => Or.inl (by rw [hc, himem])
        have hcnt : (markN i n.father n.childNb subs n.father fa).counter ≠ 0 := by
          rw [hdm.cnt (by rw [c2]; exact hb)]
          intro h
          have h : List.countP List.isEmpty (markN i n.father n.childNb subs n.father fa).slots = 0 := by omega
          rw [List.countP_eq_zero] at h
          refine hall fun c hc => ?_
          obtain ⟨q, hq⟩ := List.mem_iff_getElem?.1 hc
          have hq' : q < (markN i n.father n.childNb subs n.father fa).slots.length := by
            rw [hdm.len (by rw [c1]; exact hfne), c1]
            exact (List.getElem?_eq_some_iff.1 hq).1
          have := (hdm.slot q c _ (by rw [c1]; exact hq) (List.getElem?_eq_getElem hq')).1
            (by simpa using h _ (List.getElem_mem hq'))
          by_cases hci : c = i
          · exact Or.inl hci
          · rw [if_neg hci] at this; exact Or.inr this
        rw [c2, hb]
        simp only [Bool.true_and, decide_eq_true hcnt, if_true]
        exact ⟨hsame, _, hmark⟩

/-! ### Steps -/

/-- Both parts of the invariant. -/
def Inv (ar : Nat → Nat) (B : Nat) (f : Form) (s : St) : Prop :=
  Stat ar B f s.core s.agenda s.impossible ∧ ∃ sent, Dyn s sent none

/-- A model of a node is a model of the root. -/
theorem Stat.up {g : Nat → Option Node} {ag : List Task} {imp : Bool} (hS : Stat ar B f g ag imp) {D : Type} (I : Interp D) (μ ρ : Nat → D) :
    ∀ (i : Nat) (n : Node), g i = some n → n.mgr.rm.holds I μ ρ → (RM.root f).holds I μ ρ := by
  intro i
  induction i using Nat.strongRecOn with
  | _ i ih =>
    intro n hn hh
    by_cases h0 : i = 0
    · subst h0
      obtain ⟨r, hr, -, e⟩ := hS.root
      rw [hn] at hr
      obtain rfl := Option.some.inj hr
      rwa [e] at hh
    · obtain ⟨h1, fn, h2, h3⟩ := hS.father i n hn h0
      have hm := List.mem_of_getElem? h3
      exact ih _ h1 fn h2 ((hS.cover _ fn h2 (List.ne_nil_of_mem hm) D I μ ρ).2 ⟨i, hm, n, hn, hh⟩)

/-- A task that sends from a leaf does nothing. -/
theorem send_leaf {s : St} {i : Nat} {n : Node} (hn : s.nodes[i]? = some n) (hb : n.branching = false) (hs : n.slots = [[]])
    (hm : n.mgr.metas = []) : s.send i = s := by
  have : n.compat = [] := by simp [Node.compat, addMissing, hs, hm, compatibleSubs]
  simp [St.send, St.sendWith, hn, this, hb]

/-- Removing the task of a leaf that will not be searched. -/
theorem Stat.drop {g : Nat → Option Node} {ag : List Task} (hS : Stat ar B f g ag true) (j : Nat) :
    Stat ar B f g (ag.eraseIdx j) true :=
  { hS with
    nodup := hS.nodup.eraseIdx j
    tasks := fun t ht => hS.tasks t (List.mem_of_mem_eraseIdx ht)
    opened := fun _ _ _ _ => Or.inr (Or.inl rfl) }

theorem mem_eraseIdx_nodup {ag : List Task} (hn : ag.Nodup) {j : Nat} {t : Task} (hj : ag[j]? = some t) {u : Task} :
    u ∈ ag.eraseIdx j ↔ u ∈ ag ∧ u ≠ t := by
  induction ag generalizing j with
  | nil => simp at hj
  | cons a ag ih =>
    rw [List.nodup_cons] at hn
    cases j with
    | zero =>
      simp only [List.getElem?_cons_zero, Option.some.injEq] at hj
      subst hj
      simp only [List.eraseIdx_cons_zero, List.mem_cons]
      constructor
      · intro h; exact ⟨Or.inr h, fun e => hn.1 (e ▸ h)⟩
      · rintro ⟨rfl | h, h2⟩
        · exact absurd rfl h2
        · exact h
    | succ j =>
      simp only [List.getElem?_cons_succ] at hj
      simp only [List.eraseIdx_cons_succ, List.mem_cons, ih hn.2 hj]
      constructor
      · rintro (rfl | ⟨h1, h2⟩)
        · exact ⟨Or.inl rfl, fun e => hn.1 (e ▸ List.mem_of_getElem? hj)⟩
        · exact ⟨Or.inr h1, h2⟩
      · rintro ⟨rfl | h1, h2⟩
        · exact Or.inl rfl
        · exact Or.inr ⟨h1, h2⟩

/-- The task is that of a leaf `i` whose state is to change; what remains. -/
structure Working (ar : Nat → Nat) (B : Nat) (f : Form) (s : St) (i : Nat) (n : Node) (sent : Nat → Bool) : Prop where
  stat : Stat ar B f s.core (Task.search i :: s.agenda) s.impossible
  dyn : Dyn s sent none
  node : s.nodes[i]? = some n
  leaf : n.children = []
  unclosed : n.isClosed = false

theorem Working.unsent {s : St} {i : Nat} {n : Node} {sent : Nat → Bool} (h : Working ar B f s i n sent) : sent i = false := by
  have := ((h.dyn.node i n h.node).leaf h.leaf)
  rw [h.unclosed] at this
  simpa using this

/-- Changing the closure flags of the leaf. -/
theorem Stat.setLeaf {g : Nat → Option Node} {i : Nat} {n n' : Node} {ag : List Task} {imp imp' : Bool}
    (hS : Stat ar B f g (Task.search i :: ag) imp) (hg : g i = some n) (hl : n.children = [])
    (e1 : n'.mgr = n.mgr) (e2 : n'.father = n.father) (e3 : n'.childNb = n.childNb) (e4 : n'.children = n.children)
    (e5 : n'.branching = n.branching) (hshut : n'.isClosed = true → n.mgr.rm.shut = true) (himp : imp = true → imp' = true)
    (hfin : n'.finished = true → imp' = true) (hmod : imp' = true → ∃ I : Interp Term, (RM.root f).holds I Term.mv Term.var)
    (hop : n'.isClosed = true ∨ imp' = true) : Stat ar B f (fun j => if j = i then some n' else g j) ag imp' := by
  have hnd := List.nodup_cons.1 hS.nodup
  have back : ∀ {j : Nat} {x : Node}, (if j = i then some n' else g j) = some x →
      ∃ y, g j = some y ∧ x.mgr = y.mgr ∧ x.father = y.father ∧ x.childNb = y.childNb ∧ x.children = y.children ∧
        x.branching = y.branching ∧ (j = i ∧ y = n ∧ x = n' ∨ j ≠ i ∧ x = y) := by
    intro j x h
    split at h
    · rename_i e
      obtain rfl := Option.some.inj h
      exact ⟨n, by rw [e]; exact hg, e1, e2, e3, e4, e5, Or.inl ⟨e, rfl, rfl⟩⟩
    · exact ⟨x, h, rfl, rfl, rfl, rfl, rfl, Or.inr ⟨by assumption, rfl⟩⟩
  have fwd : ∀ {j : Nat} {y : Node}, g j = some y → ∃ x, (if j = i then some n' else g j) = some x ∧ x.mgr = y.mgr ∧
      x.father = y.father ∧ x.childNb = y.childNb ∧ x.children = y.children := by
    intro j y h
    split
    · rename_i e
      subst e
      rw [hg] at h
      obtain rfl := Option.some.inj h
      exact ⟨n', rfl, e1, e2, e3, e4⟩
    · exact ⟨y, h, rfl, rfl, rfl, rfl⟩
  constructor
  · obtain ⟨r, hr, h1, h2⟩ := hS.root
    obtain ⟨x, hx, a, b, -, -⟩ := fwd hr
    exact ⟨x, hx, b.trans h1, by rw [a]; exact h2⟩
  · intro j x hx
    obtain ⟨y, hy, a, -⟩ := back hx
    rw [a]; exact hS.good j y hy
  · intro j x k c hx hk
    obtain ⟨y, hy, -, -, -, b, -⟩ := back hx
    rw [b] at hk
    obtain ⟨h1, nc, h2, h3, h4⟩ := hS.child j y k c hy hk
    obtain ⟨z, hz, -, c1, c2, -⟩ := fwd h2
    exact ⟨h1, z, hz, c1.trans h3, c2.trans h4⟩
  · intro j x hx hj
    obtain ⟨y, hy, -, b, c, -⟩ := back hx
    rw [b, c]
    obtain ⟨h1, fn, h2, h3⟩ := hS.father j y hy hj
    obtain ⟨z, hz, -, -, -, d⟩ := fwd h2
    exact ⟨h1, z, hz, by rw [d]; exact h3⟩
  · intro j x hx hc D I μ ρ
    obtain ⟨y, hy, a, -, -, b, -⟩ := back hx
    rw [a, b]
    rw [b] at hc
    rw [hS.cover j y hy hc D I μ ρ]
    constructor
    · rintro ⟨c, hc, nc, hnc, hh⟩
      obtain ⟨z, hz, d, -⟩ := fwd hnc
      exact ⟨c, hc, z, hz, by rw [d]; exact hh⟩
    · rintro ⟨c, hc, nc, hnc, hh⟩
      obtain ⟨z, hz, d, -⟩ := back hnc
      exact ⟨c, hc, z, hz, by rw [← d]; exact hh⟩
  · intro j x hx hc hb
    obtain ⟨y, hy, -, -, -, b, c, -⟩ := back hx
    rw [b] at hc ⊢
    exact hS.single j y hy hc (c ▸ hb)
  · intro j x hx hc
    obtain ⟨y, hy, -, -, -, b, c, -⟩ := back hx
    rw [c]
    exact hS.leaf j y hy (b ▸ hc)
  · intro j x hx hc hcl
    obtain ⟨y, hy, a, -, -, b, -, ⟨-, rfl, rfl⟩ | ⟨-, rfl⟩⟩ := back hx
    · rw [a]; exact hshut hcl
    · exact hS.shut j x hy hc hcl
  · intro j x hx hf
    obtain ⟨y, hy, -, -, -, -, -, ⟨-, rfl, rfl⟩ | ⟨-, rfl⟩⟩ := back hx
    · exact hfin hf
    · exact himp (hS.fin j x hy hf)
  · exact hmod
  · exact hnd.2
  · intro t ht
    obtain ⟨j, x, rfl, hx, h1, h2⟩ := hS.tasks t (by simp [ht])
    refine ⟨j, x, rfl, ?_, h1, h2⟩
    rw [if_neg]
    · exact hx
    · rintro rfl; exact hnd.1 ht
  · intro j x hx hc
    obtain ⟨y, hy, -, -, -, b, -, ⟨-, rfl, rfl⟩ | ⟨hj, rfl⟩⟩ := back hx
    · exact hop.imp_right Or.inl
    · rcases hS.opened j x hy hc with h | h | h
      · exact Or.inl h
      · exact Or.inr (Or.inl (himp h))
      · rcases List.mem_cons.1 h with h | h
        · exact absurd (by injection h) hj
        · exact Or.inr (Or.inr h)

theorem upd_core {s : St} {i : Nat} {n : Node} (hn : s.nodes[i]? = some n) (F : Node → Node) :
    (s.upd i F).core = fun j => if j = i then some (F n).core else s.core j := by
  funext j
  simp only [St.core, St.upd, List.getElem?_modify, Option.map_eq_map, Option.map_map]
  by_cases e : i = j
  · subst e; simp [hn]
  · rw [if_neg (fun h => e h.symm)]
    congr 1
    funext y
    simp [e]

theorem upd_get {s : St} {i j : Nat} {F : Node → Node} {x : Node} (h : (s.upd i F).nodes[j]? = some x) :
    ∃ y, s.nodes[j]? = some y ∧ (j = i ∧ x = F y ∨ j ≠ i ∧ x = y) := by
  simp only [St.upd, List.getElem?_modify, Option.map_eq_map, Option.map_eq_some_iff] at h
  obtain ⟨y, hy, rfl⟩ := h
  refine ⟨y, hy, ?_⟩
  by_cases e : i = j
  · exact Or.inl ⟨e.symm, by simp [e]⟩
  · exact Or.inr ⟨fun h => e h.symm, by simp [e]⟩

/-- A leaf without rules and closure. -/
theorem nothingToDo_ok {s : St} {i : Nat} {n : Node} {sent : Nat → Bool} (h : Working ar B f s i n sent) (hn : n.mgr.rm.next = [])
    (hs : n.mgr.rm.shut = false) : Inv ar B f (s.nothingToDo i) := by
  obtain ⟨g1, g2, g3⟩ := h.stat.good i _ (core_some h.node)
  have g2 : n.mgr.reintro = [] := g2
  have himp : (s.nothingToDo i).impossible = true := by simp [St.nothingToDo, h.node, g2]
  have hcore : (s.nothingToDo i).core = (s.upd i fun n => { n with finished := true, isClosed := false }).core := rfl
  refine ⟨?_, sent, ?_⟩
  · rw [himp, hcore, upd_core h.node]
    obtain ⟨I, hI⟩ := open_model (show n.mgr.rm.Good ar B from g1) hn hs
    exact Stat.setLeaf h.stat (core_some h.node) h.leaf rfl rfl rfl rfl rfl (fun e => by cases e) (fun _ => rfl) (fun _ => rfl)
      (fun _ => ⟨I, h.stat.up I _ _ i _ (core_some h.node) hI⟩) (Or.inr rfl)
  · refine ⟨fun j x hx => ?_, fun j hj => ?_⟩
    · obtain ⟨y, hy, ⟨rfl, rfl⟩ | ⟨-, rfl⟩⟩ := upd_get (s := s) hx
      · have := h.dyn.node _ _ hy
        rw [h.node] at hy
        obtain rfl := Option.some.inj hy
        exact { len := this.len, slot := this.slot, cnt := this.cnt, subs := this.subs, done := this.done, inner := this.inner,
                root := this.root, blank := this.blank, leaf := fun hl => by rw [this.leaf hl, h.unclosed] }
      · exact h.dyn.node _ _ hy
    · have := h.dyn.bound j hj
      simpa [St.nothingToDo, St.upd] using this

/-- A leaf that closes. -/
theorem closed_ok {s : St} {i : Nat} {n : Node} {sent : Nat → Bool} (h : Working ar B f s i n sent) (hs : n.mgr.rm.shut = true) :
    Inv ar B f ((s.upd i fun n => { n with isClosed := true, closing := [Sub.theJoker] }).addFor (s.nodes.length + 1) i [Sub.theJoker]) ∧
    (∀ j, ((s.upd i fun n => { n with isClosed := true, closing := [Sub.theJoker] }).addFor (s.nodes.length + 1) i
      [Sub.theJoker]).core j = if j = i then some ({ n with isClosed := true, closing := [Sub.theJoker] } : Node).core else s.core j) ∧
    ((s.upd i fun n => { n with isClosed := true, closing := [Sub.theJoker] }).addFor (s.nodes.length + 1) i
      [Sub.theJoker]).agenda = s.agenda := by
  have hlt : i < s.nodes.length := (List.getElem?_eq_some_iff.1 h.node).1
  generalize hs1 : (s.upd i fun n => { n with isClosed := true, closing := [Sub.theJoker] }) = s1
  have hcore : s1.core = fun j => if j = i then some ({ n with isClosed := true, closing := [Sub.theJoker] } : Node).core else s.core j := by
    rw [← hs1, upd_core h.node]
  have hag : s1.agenda = s.agenda := by rw [← hs1]; rfl
  have himp : s1.impossible = s.impossible := by rw [← hs1]; rfl
  have hS : Stat ar B f s1.core s1.agenda s1.impossible := by
    rw [hcore, hag, himp]
    exact Stat.setLeaf h.stat (core_some h.node) h.leaf rfl rfl rfl rfl rfl (fun _ => hs) (fun e => e)
      (fun e => h.stat.fin i n.core (core_some h.node) e) h.stat.impos (Or.inl rfl)
  have hget : s1.nodes[i]? = some { n with isClosed := true, closing := [Sub.theJoker] } := by
    rw [← hs1]; simp [St.upd, List.getElem?_modify, h.node]
  have hD : Dyn s1 sent (some i) := by
    refine ⟨fun j x hx => ?_, fun j hj => ?_⟩
    · rw [← hs1] at hx
      obtain ⟨y, hy, ⟨rfl, rfl⟩ | ⟨hj, rfl⟩⟩ := upd_get hx
      · have := h.dyn.node _ _ hy
        rw [h.node] at hy
        obtain rfl := Option.some.inj hy
        exact { len := this.len, slot := this.slot, cnt := this.cnt, subs := this.subs, done := this.done,
                inner := fun hc => absurd h.leaf hc,
                root := fun hc => absurd h.leaf hc, blank := this.blank, leaf := fun _ => by simp }
      · have := h.dyn.node _ _ hy
        have hne : ¬ (i = j) := fun e => hj e.symm
        exact { len := this.len, slot := this.slot, cnt := this.cnt, subs := this.subs, done := this.done, blank := this.blank,
                inner := fun hc h0 => by
                  rw [this.inner hc h0]; simp [hne]
                root := fun hc h0 => ⟨(this.root hc h0).1, by
                  intro e; exact hj (h0.trans (Option.some.inj e).symm)⟩
                leaf := fun hl => by rw [← this.leaf hl]; simp [hne] }
    · rw [← hs1]
      have := h.dyn.bound j hj
      simpa [St.upd] using this
  obtain ⟨a, sent', b⟩ := addFor_ok (s.nodes.length + 1) hS hD h.unsent hget (by omega) (subs := [Sub.theJoker]) (by simp)
    (by simp [Sub.theJoker])
  refine ⟨⟨by rw [a.core, a.agenda, a.imp]; exact hS, sent', b⟩, fun j => by rw [a.core, hcore], by rw [a.agenda, hag]⟩

/-! ### Expansion -/

/-- The node after its rule was applied, and its children. -/
theorem expand_get {s : St} {i : Nat} {n : Node} (hn : s.nodes[i]? = some n) (a : Applied) :
    ∃ n3, (s.expand i a).nodes = s.nodes.set i n3 ++ a.branches.mapIdx (fun k g => { mgr := g, father := i, childNb := k, done := n3.done }) ∧
      n3.mgr = a.own ∧ n3.father = n.father ∧ n3.childNb = n.childNb ∧ n3.finished = n.finished ∧ n3.isClosed = false ∧
      n3.children = (List.range a.branches.length).map (s.nodes.length + ·) ∧
      (showKind a.rule.form = .beta → n3.branching = true ∧ n3.slots = List.replicate a.branches.length [] ∧
        n3.counter = a.branches.length ∧ n3.done = (s.nodes[n.father]?.map (·.done)).getD []) ∧
      (showKind a.rule.form ≠ .beta → n3.branching = n.branching ∧ n3.slots = n.slots ∧ n3.counter = n.counter ∧ n3.done = n.done) := by
  simp only [St.expand, hn, isGammaRule_false, Bool.false_eq_true, if_false]
  by_cases hb : showKind a.rule.form = .beta
  · simp only [hb, if_true]
    exact ⟨_, rfl, rfl, rfl, rfl, rfl, rfl, rfl, fun _ => ⟨rfl, rfl, rfl, rfl⟩, fun h => absurd rfl h⟩
  · simp only [hb, if_false]
    exact ⟨_, rfl, rfl, rfl, rfl, rfl, rfl, rfl, fun h => absurd h (by trivial), fun _ => ⟨rfl, rfl, rfl, rfl⟩⟩

theorem expand_ok {s : St} {i : Nat} {n : Node} {sent : Nat → Bool} (h : Working ar B f s i n sent) {r : Rule} {bs : List RM}
    (hne : bs ≠ []) (hone : showKind r.form ≠ .beta → bs.length = 1) (hgood : ∀ b ∈ bs, b.Good ar B)
    (heq : ∀ (D : Type) (I : Interp D) (μ ρ : Nat → D), n.mgr.rm.holds I μ ρ ↔ ∃ b ∈ bs, b.holds I μ ρ) :
    Inv ar B f (s.expand i ⟨r, bs.map fun b => ⟨b, n.mgr.reintro, n.mgr.metas⟩, n.mgr⟩) ∧
    (s.expand i ⟨r, bs.map fun b => ⟨b, n.mgr.reintro, n.mgr.metas⟩, n.mgr⟩).agenda =
      s.agenda ++ (List.range bs.length).map (fun k => Task.search (s.nodes.length + k)) ∧
    (∀ j x, s.core j = some x → ∃ x', (s.expand i ⟨r, bs.map fun b => ⟨b, n.mgr.reintro, n.mgr.metas⟩, n.mgr⟩).core j = some x' ∧
      x'.mgr = x.mgr) ∧
    ∀ (k : Nat) (b : RM), bs[k]? = some b → ∃ x', (s.expand i ⟨r, bs.map fun b => ⟨b, n.mgr.reintro, n.mgr.metas⟩, n.mgr⟩).core
      (s.nodes.length + k) = some x' ∧ x'.mgr.rm = b := by
  have hlt : i < s.nodes.length := (List.getElem?_eq_some_iff.1 h.node).1
  have hunsent := h.unsent
  have hdi := h.dyn.node i n h.node
  have hdone : n.done = [] := by
    by_contra hc
    rw [hdi.done hc] at hunsent; cases hunsent
  have hslots := hdi.blank h.leaf hunsent
  have hbr : n.branching = false := h.stat.leaf i n.core (core_some h.node) h.leaf
  have hnd := List.nodup_cons.1 h.stat.nodup
  obtain ⟨gi1, gi2, gi3⟩ := h.stat.good i n.core (core_some h.node)
  -- nothing was reported by the father
  have hfd : (s.nodes[n.father]?.map (·.done)).getD [] = [] := by
    by_cases h0 : i = 0
    · subst h0
      obtain ⟨r0, hr0, hr1, -⟩ := h.stat.root
      rw [core_some h.node] at hr0
      obtain rfl := Option.some.inj hr0
      have hf0 : n.father = 0 := hr1
      rw [hf0, h.node]; simp [hdone]
    · obtain ⟨f1, fc, hfc, f2⟩ := h.stat.father i n.core (core_some h.node) h0
      obtain ⟨fa, hfa, rfl⟩ := of_core hfc
      have f2 : fa.children[n.childNb]? = some i := f2
      have hfa : s.nodes[n.father]? = some fa := hfa
      have himem : i ∈ fa.children := List.mem_of_getElem? f2
      have hfne : fa.children ≠ [] := List.ne_nil_of_mem himem
      have hdf := h.dyn.node _ fa hfa
      rw [hfa]
      simp only [Option.map_some, Option.getD_some]
      by_contra hc
      have hsf := hdf.done hc
      by_cases hf0 : n.father = 0
      · rw [hf0, (hdf.root hfne hf0).1] at hsf; cases hsf
      · have := (hdf.inner hfne hf0).2 (Or.inl hsf) i himem
        rw [hunsent] at this; cases this
  generalize ha : (⟨r, bs.map fun b => ⟨b, n.mgr.reintro, n.mgr.metas⟩, n.mgr⟩ : Applied) = a
  obtain ⟨n3, hnodes, m1, m2, m3, m4, m5, m6, m7, m8⟩ := expand_get h.node a
  have hbl : a.branches = bs.map fun b => (⟨b, n.mgr.reintro, n.mgr.metas⟩ : Mgr) := by rw [← ha]
  have hlen : a.branches.length = bs.length := by rw [hbl, List.length_map]
  have hrule : a.rule = r := by rw [← ha]
  have hown : a.own = n.mgr := by rw [← ha]
  rw [hrule] at m7 m8
  rw [hlen] at m6 m7
  rw [hown] at m1
  have hd3 : n3.done = [] := by
    by_cases hb : showKind r.form = .beta
    · rw [(m7 hb).2.2.2, hfd]
    · rw [(m8 hb).2.2.2, hdone]
  -- lookups
  have get_old : ∀ j, j ≠ i → j < s.nodes.length → (s.expand i a).nodes[j]? = s.nodes[j]? := by
    intro j hj hjl
    rw [hnodes, List.getElem?_append_left (by simpa using hjl), List.getElem?_set_ne (by omega)]
  have get_i : (s.expand i a).nodes[i]? = some n3 := by
    rw [hnodes, List.getElem?_append_left (by simpa using hlt), List.getElem?_set_self hlt]
  have get_new : ∀ (k : Nat) (b : RM), bs[k]? = some b → (s.expand i a).nodes[s.nodes.length + k]? =
      some { mgr := ⟨b, n.mgr.reintro, n.mgr.metas⟩, father := i, childNb := k, done := [] } := by
    intro k b hk
    rw [hnodes, List.getElem?_append_right (by simp)]
    simp [hbl, hk, hd3]
  have len_new : (s.expand i a).nodes.length = s.nodes.length + bs.length := by
    rw [hnodes]; simp [hlen]
  have back : ∀ {j : Nat} {x : Node}, (s.expand i a).nodes[j]? = some x → (j = i ∧ x = n3) ∨
      (j ≠ i ∧ j < s.nodes.length ∧ s.nodes[j]? = some x) ∨
      ∃ k b, bs[k]? = some b ∧ j = s.nodes.length + k ∧
        x = { mgr := ⟨b, n.mgr.reintro, n.mgr.metas⟩, father := i, childNb := k, done := [] } := by
    intro j x hx
    have hjl := (List.getElem?_eq_some_iff.1 hx).1
    rw [len_new] at hjl
    by_cases hji : j = i
    · subst hji; rw [get_i] at hx; exact Or.inl ⟨rfl, (Option.some.inj hx).symm⟩
    · by_cases hj : j < s.nodes.length
      · rw [get_old j hji hj] at hx; exact Or.inr (Or.inl ⟨hji, hj, hx⟩)
      · have hk : j - s.nodes.length < bs.length := by omega
        have hkb : bs[j - s.nodes.length]? = some bs[j - s.nodes.length] := by simp [hk]
        have := get_new _ _ hkb
        rw [show s.nodes.length + (j - s.nodes.length) = j by omega, hx] at this
        exact Or.inr (Or.inr ⟨_, _, hkb, by omega, Option.some.inj this⟩)
  have hids : ∀ k, n3.children[k]? = if k < bs.length then some (s.nodes.length + k) else none := by
    intro k
    rw [m6]
    by_cases hk : k < bs.length
    · simp [hk]
    · simp [hk]
  have hch3 : n3.children ≠ [] := by
    intro e
    have := congrArg List.length e
    rw [m6] at this
    simp only [List.length_map, List.length_range, List.length_nil] at this
    exact hne (List.length_eq_zero_iff.1 this)
  have mem3 : ∀ c, c ∈ n3.children ↔ ∃ k, k < bs.length ∧ c = s.nodes.length + k := by
    intro c
    rw [m6]; simp [eq_comm]
  have hag : (s.expand i a).agenda = s.agenda ++ (List.range bs.length).map (fun k => Task.search (s.nodes.length + k)) := by
    simp [St.expand, h.node, hlen, Function.comp_def]
  have himp : (s.expand i a).impossible = s.impossible := by simp [St.expand, h.node]
  -- children of old nodes are old
  have old_child : ∀ (j : Nat) (x : Node) (c : Nat), s.nodes[j]? = some x → c ∈ x.children → c < s.nodes.length := by
    intro j x c hx hc
    obtain ⟨k, hk⟩ := List.mem_iff_getElem?.1 hc
    obtain ⟨-, nc, hnc, -⟩ := h.stat.child j x.core k c (core_some hx) hk
    obtain ⟨y, hy, -⟩ := of_core hnc
    exact (List.getElem?_eq_some_iff.1 hy).1
  have old_core : ∀ j x, s.core j = some x → ∃ x', (s.expand i a).core j = some x' ∧ x'.mgr = x.mgr ∧ x'.father = x.father ∧
      x'.childNb = x.childNb := by
    intro j x hx
    obtain ⟨y, hy, rfl⟩ := of_core hx
    by_cases hji : j = i
    · subst hji
      rw [h.node] at hy
      obtain rfl := Option.some.inj hy
      exact ⟨n3.core, core_some get_i, m1, m2, m3⟩
    · exact ⟨y.core, core_some (by rw [get_old j hji (List.getElem?_eq_some_iff.1 hy).1]; exact hy), rfl, rfl, rfl⟩
  refine ⟨⟨?_, sent, ?_⟩, hag, fun j x hx => by obtain ⟨x', h1, h2, -⟩ := old_core j x hx; exact ⟨x', h1, h2⟩,
    fun k b hk => ⟨_, core_some (get_new k b hk), rfl⟩⟩
  · rw [hag, himp]
    constructor
    · obtain ⟨r0, hr0, h1, h2⟩ := h.stat.root
      obtain ⟨x', hx', a1, a2, -⟩ := old_core 0 r0 hr0
      exact ⟨x', hx', a2.trans h1, by rw [a1]; exact h2⟩
    · intro j x hx
      obtain ⟨y, hy, rfl⟩ := of_core hx
      rcases back hy with ⟨rfl, rfl⟩ | ⟨-, -, hy⟩ | ⟨k, b, hk, rfl, rfl⟩
      · have : y.core.mgr = n.mgr := m1
        rw [this]; exact ⟨gi1, gi2, gi3⟩
      · exact h.stat.good j _ (core_some hy)
      · exact ⟨hgood b (List.mem_of_getElem? hk), gi2, gi3⟩
    · intro j x k c hx hk
      obtain ⟨y, hy, rfl⟩ := of_core hx
      have hk : y.children[k]? = some c := hk
      rcases back hy with ⟨rfl, rfl⟩ | ⟨hj, hjl, hy⟩ | ⟨k', b, hk', rfl, rfl⟩
      · rw [hids] at hk
        split at hk
        · rename_i hkl
          obtain rfl := Option.some.inj hk
          exact ⟨by omega, _, core_some (get_new k bs[k] (by simp [hkl])), rfl, rfl⟩
        · cases hk
      · obtain ⟨h1, nc, h2, h3, h4⟩ := h.stat.child j _ k c (core_some hy) hk
        obtain ⟨z, hz, -, c1, c2⟩ := old_core c nc h2
        exact ⟨h1, z, hz, c1.trans h3, c2.trans h4⟩
      · simp at hk
    · intro j x hx hj0
      obtain ⟨y, hy, rfl⟩ := of_core hx
      have key : ∀ z : Node, s.nodes[j]? = some z → z.father = y.father → z.childNb = y.childNb →
          y.father < j ∧ ∃ fn, (s.expand i a).core y.father = some fn ∧ fn.children[y.childNb]? = some j := by
        intro z hz e1 e2
        obtain ⟨h1, fc, h2, h3⟩ := h.stat.father j z.core (core_some hz) hj0
        have h1 : z.father < j := h1
        rw [e1] at h1
        refine ⟨h1, ?_⟩
        have h2 : s.core z.father = some fc := h2
        have h3 : fc.children[z.childNb]? = some j := h3
        rw [e1] at h2
        rw [e2] at h3
        obtain ⟨fa, hfa, rfl⟩ := of_core h2
        have hfi : y.father ≠ i := by
          intro e
          rw [e, h.node] at hfa
          obtain rfl := Option.some.inj hfa
          have h3 : n.children[y.childNb]? = some j := h3
          rw [h.leaf] at h3; simp at h3
        exact ⟨fa.core, core_some (by rw [get_old _ hfi (List.getElem?_eq_some_iff.1 hfa).1]; exact hfa), h3⟩
      rcases back hy with ⟨rfl, rfl⟩ | ⟨hj, hjl, hy⟩ | ⟨k', b, hk', rfl, rfl⟩
      · exact key n h.node m2.symm m3.symm
      · exact key y hy rfl rfl
      · have hkl := (List.getElem?_eq_some_iff.1 hk').1
        have : n3.children[k']? = some (s.nodes.length + k') := by rw [hids, if_pos hkl]
        exact ⟨by show i < _; omega, n3.core, core_some get_i, this⟩
    · intro j x hx hc D I μ ρ
      obtain ⟨y, hy, rfl⟩ := of_core hx
      rcases back hy with ⟨rfl, rfl⟩ | ⟨hj, hjl, hy⟩ | ⟨k', b, hk', rfl, rfl⟩
      · have e : y.core.mgr.rm = n.mgr.rm := congrArg Mgr.rm m1
        rw [e, heq D I μ ρ]
        constructor
        · rintro ⟨b, hb, hh⟩
          obtain ⟨k, hk⟩ := List.mem_iff_getElem?.1 hb
          exact ⟨s.nodes.length + k, (mem3 _).2 ⟨k, (List.getElem?_eq_some_iff.1 hk).1, rfl⟩, _, core_some (get_new k b hk), hh⟩
        · rintro ⟨c, hc, nc, hnc, hh⟩
          obtain ⟨k, hk, rfl⟩ := (mem3 c).1 hc
          have hkb : bs[k]? = some bs[k] := by simp [hk]
          rw [core_some (get_new k _ hkb)] at hnc
          obtain rfl := Option.some.inj hnc
          exact ⟨_, List.getElem_mem hk, hh⟩
      · rw [h.stat.cover j _ (core_some hy) hc D I μ ρ]
        constructor
        · rintro ⟨c, hc, nc, hnc, hh⟩
          obtain ⟨z, hz, d, -⟩ := old_core c nc hnc
          exact ⟨c, hc, z, hz, by rw [d]; exact hh⟩
        · rintro ⟨c, hc, nc, hnc, hh⟩
          have hcl := old_child j y c hy hc
          have : s.nodes[c]? = some s.nodes[c] := by simp [hcl]
          obtain ⟨z, hz, d, -⟩ := old_core c _ (core_some this)
          rw [hnc] at hz
          obtain rfl := Option.some.inj hz
          exact ⟨c, hc, _, core_some this, by rw [← d]; exact hh⟩
      · exact absurd rfl hc
    · intro j x hx hc hb
      obtain ⟨y, hy, rfl⟩ := of_core hx
      rcases back hy with ⟨rfl, rfl⟩ | ⟨hj, hjl, hy⟩ | ⟨k', b, hk', rfl, rfl⟩
      · have hb : y.branching = false := hb
        show y.children.length = 1
        rw [m6]
        simp only [List.length_map, List.length_range]
        apply hone
        intro e
        rw [(m7 e).1] at hb; cases hb
      · exact h.stat.single j _ (core_some hy) hc hb
      · exact absurd rfl hc
    · intro j x hx hc
      obtain ⟨y, hy, rfl⟩ := of_core hx
      rcases back hy with ⟨rfl, rfl⟩ | ⟨hj, hjl, hy⟩ | ⟨k', b, hk', rfl, rfl⟩
      · exact absurd hc hch3
      · exact h.stat.leaf j _ (core_some hy) hc
      · rfl
    · intro j x hx hc hcl
      obtain ⟨y, hy, rfl⟩ := of_core hx
      rcases back hy with ⟨rfl, rfl⟩ | ⟨hj, hjl, hy⟩ | ⟨k', b, hk', rfl, rfl⟩
      · exact absurd hc hch3
      · exact h.stat.shut j _ (core_some hy) hc hcl
      · cases hcl
    · intro j x hx hf
      obtain ⟨y, hy, rfl⟩ := of_core hx
      rcases back hy with ⟨rfl, rfl⟩ | ⟨hj, hjl, hy⟩ | ⟨k', b, hk', rfl, rfl⟩
      · have hf : y.finished = true := hf
        rw [m4] at hf
        exact h.stat.fin j n.core (core_some h.node) hf
      · exact h.stat.fin j _ (core_some hy) hf
      · cases hf
    · exact h.stat.impos
    · rw [List.nodup_append]
      refine ⟨hnd.2, ?_, ?_⟩
      · refine List.Nodup.map ?_ List.nodup_range
        intro a b e
        injection e with e
        omega
      · intro t ht u hu e
        subst e
        obtain ⟨k, -, rfl⟩ := List.mem_map.1 hu
        obtain ⟨j, x, e, hx, -⟩ := h.stat.tasks _ (List.mem_cons_of_mem _ ht)
        obtain ⟨y, hy, -⟩ := of_core hx
        have := (List.getElem?_eq_some_iff.1 hy).1
        injection e with e
        omega
    · intro t ht
      rcases List.mem_append.1 ht with ht | ht
      · obtain ⟨j, x, rfl, hx, h1, h2⟩ := h.stat.tasks t (List.mem_cons_of_mem _ ht)
        obtain ⟨y, hy, rfl⟩ := of_core hx
        have hji : j ≠ i := by rintro rfl; exact hnd.1 ht
        exact ⟨j, y.core, rfl, core_some (by rw [get_old j hji (List.getElem?_eq_some_iff.1 hy).1]; exact hy), h1, h2⟩
      · obtain ⟨k, hk, rfl⟩ := List.mem_map.1 ht
        have hk : k < bs.length := by simpa using hk
        exact ⟨_, _, rfl, core_some (get_new k bs[k] (by simp [hk])), rfl, rfl⟩
    · intro j x hx hc
      obtain ⟨y, hy, rfl⟩ := of_core hx
      rcases back hy with ⟨rfl, rfl⟩ | ⟨hj, hjl, hy⟩ | ⟨k', b, hk', rfl, rfl⟩
      · exact absurd hc hch3
      · rcases h.stat.opened j _ (core_some hy) hc with h1 | h1 | h1
        · exact Or.inl h1
        · exact Or.inr (Or.inl h1)
        · rcases List.mem_cons.1 h1 with h1 | h1
          · exact absurd (by injection h1) hj
          · exact Or.inr (Or.inr (List.mem_append_left _ h1))
      · refine Or.inr (Or.inr (List.mem_append_right _ (List.mem_map.2 ⟨k', ?_, rfl⟩)))
        simpa using (List.getElem?_eq_some_iff.1 hk').1
  · have new_unsent : ∀ k, sent (s.nodes.length + k) = false := by
      intro k
      by_contra hc
      have := h.dyn.bound _ (by simpa using hc)
      omega
    refine ⟨fun j x hx => ?_, fun j hj => ?_⟩
    · rcases back hx with ⟨rfl, rfl⟩ | ⟨hj, hjl, hy⟩ | ⟨k', b, hk', rfl, rfl⟩
      · have hsl : x.slots = List.replicate bs.length [] := by
          by_cases hb : showKind r.form = .beta
          · exact (m7 hb).2.1
          · rw [(m8 hb).2.1, hone hb, hslots]; rfl
        constructor
        · intro _; rw [hsl, m6]; simp
        · intro k c l hk hl
          rw [hsl] at hl
          obtain rfl : l = [] := (List.mem_replicate.1 (List.mem_of_getElem? hl)).2
          rw [hids] at hk
          split at hk
          · obtain rfl := Option.some.inj hk
            simp [new_unsent]
          · cases hk
        · intro hb
          by_cases hbe : showKind r.form = .beta
          · rw [(m7 hbe).2.2.1, hsl]
            simp [List.countP_replicate]
          · rw [(m8 hbe).1, hbr] at hb; cases hb
        · intro l hl y hy
          rw [hsl] at hl
          obtain rfl := (List.mem_replicate.1 hl).2
          cases hy
        · intro hc; exact absurd hd3 hc
        · intro hc; exact absurd hc hch3
        · intro _ _
          rw [hunsent]
          simp only [Bool.false_eq_true, reduceCtorEq, or_self, iff_false]
          intro hall
          have := hall (s.nodes.length + 0) ((mem3 _).2 ⟨0, List.length_pos_iff.2 hne, rfl⟩)
          rw [new_unsent] at this; cases this
        · intro _ e
          exact ⟨e ▸ hunsent, by simp⟩
        · intro hc; exact absurd hc hch3
      · exact h.dyn.node j x hy
      · constructor
        · intro hc; exact absurd rfl hc
        · intro k c l hk; simp at hk
        · intro hb; cases hb
        · intro l hl y hy
          simp only [List.mem_singleton] at hl
          subst hl; cases hy
        · intro hc; exact absurd rfl hc
        · intro _; simp [new_unsent]
        · intro hc; exact absurd rfl hc
        · intro hc; exact absurd rfl hc
        · intro _ _; rfl
    · rw [len_new]
      have := h.dyn.bound j hj
      omega

/-! ### Whole runs -/

/-- The cost of a task: every leaf has at most `max 2 B` children, each with less work left. -/
def cost (B : Nat) (s : St) : Task → Nat
  | .search i => match s.core i with
    | some n => (max 2 B + 1) ^ n.mgr.rm.wt
    | none => 0
  | .keep _ => 0

/-- The cost of all tasks. -/
def St.cost (B : Nat) (s : St) : Nat := (s.agenda.map (Incr.cost B s)).sum

theorem cost_congr {s s' : St} (h : ∀ j x, s.core j = some x → ∃ x', s'.core j = some x' ∧ x'.mgr = x.mgr) {t : Task}
    (ht : ∃ i n, t = .search i ∧ s.core i = some n) : Incr.cost B s' t = Incr.cost B s t := by
  obtain ⟨i, n, rfl, hn⟩ := ht
  obtain ⟨x', h1, h2⟩ := h i n hn
  simp [cost, hn, h1, h2]

theorem sum_eraseIdx {l : List Task} {j : Nat} {t : Task} (h : l[j]? = some t) (c : Task → Nat) :
    ((l.eraseIdx j).map c).sum + c t = (l.map c).sum := by
  induction l generalizing j with
  | nil => simp at h
  | cons a l ih =>
    cases j with
    | zero =>
      simp only [List.getElem?_cons_zero, Option.some.injEq] at h
      subst h
      simp; omega
    | succ j =>
      simp only [List.getElem?_cons_succ] at h
      have := ih h
      simp only [List.eraseIdx_cons_succ, List.map_cons, List.sum_cons]
      omega

/-- One step keeps the invariant and costs something. -/
theorem step_ok {U : Oracle} (hU : Faithful U) {s s' : St} (h : Inv ar B f s) {j : Nat} (hs : s.step U j = some s') :
    Inv ar B f s' ∧ s'.cost B < s.cost B := by
  obtain ⟨hS, sent, hD⟩ := h
  unfold St.step at hs
  split at hs
  · cases hs
  rename_i t ht
  obtain ⟨i, nc, rfl, hnc, hl, hcl⟩ := hS.tasks t (List.mem_of_getElem? ht)
  obtain ⟨n, hn, rfl⟩ := of_core hnc
  have hl : n.children = [] := hl
  have hcl : n.isClosed = false := hcl
  generalize hs0 : ({ s with agenda := s.agenda.eraseIdx j, time := s.time + 1 } : St) = s0 at hs
  have hcore0 : s0.core = s.core := by rw [← hs0]; rfl
  have hag0 : s0.agenda = s.agenda.eraseIdx j := by rw [← hs0]
  have himp0 : s0.impossible = s.impossible := by rw [← hs0]
  have hn0 : s0.nodes[i]? = some n := by rw [← hs0]; exact hn
  have hmem := @mem_eraseIdx_nodup _ hS.nodup _ _ ht
  have hperm : ∀ u, u ∈ Task.search i :: s0.agenda ↔ u ∈ s.agenda := by
    intro u
    rw [List.mem_cons, hag0, hmem]
    constructor
    · rintro (rfl | h)
      · exact List.mem_of_getElem? ht
      · exact h.1
    · intro h
      by_cases e : u = .search i
      · exact Or.inl e
      · exact Or.inr ⟨h, e⟩
  have hD0 : Dyn s0 sent none := by
    rw [← hs0]; exact ⟨hD.node, hD.bound⟩
  have hW : Working ar B f s0 i n sent := by
    refine ⟨?_, hD0, hn0, hl, hcl⟩
    rw [hcore0, himp0]
    exact { hS with
      nodup := by
        rw [List.nodup_cons, hag0]
        exact ⟨fun h => (hmem.1 h).2 rfl, hS.nodup.eraseIdx j⟩
      tasks := fun u hu => hS.tasks u ((hperm u).1 hu)
      opened := fun k x hx hc => by rw [hperm]; exact hS.opened k x hx hc }
  obtain ⟨g1, g2, g3⟩ := hS.good i _ hnc
  have g1 : n.mgr.rm.Good ar B := g1
  have g2 : n.mgr.reintro = [] := g2
  have g3 : n.mgr.metas = [] := g3
  have hcost : s0.cost B + (max 2 B + 1) ^ n.mgr.rm.wt = s.cost B := by
    have := sum_eraseIdx ht (Incr.cost B s)
    rw [← hag0] at this
    have e : ∀ u, Incr.cost B s0 u = Incr.cost B s u := by
      intro u; cases u <;> simp [cost, hcore0]
    have e2 : Incr.cost B s (.search i) = (max 2 B + 1) ^ n.mgr.rm.wt := by simp [cost, hnc, Node.core]
    unfold St.cost
    rw [List.map_congr_left fun u _ => e u, ← e2]
    exact this
  have hpos : 0 < (max 2 B + 1) ^ n.mgr.rm.wt := Nat.pow_pos (by omega)
  -- tasks of the old agenda keep their cost
  have old : ∀ t ∈ s0.agenda, ∃ i n, t = .search i ∧ s0.core i = some n := by
    intro t ht
    obtain ⟨i, n, e, h, -⟩ := hW.stat.tasks t (List.mem_cons_of_mem _ ht)
    exact ⟨i, n, e, h⟩
  have same_cost : ∀ s2 : St, s2.agenda = s0.agenda → (∀ j x, s0.core j = some x → ∃ x', s2.core j = some x' ∧ x'.mgr = x.mgr) →
      s2.cost B = s0.cost B := by
    intro s2 h1 h2
    unfold St.cost
    rw [h1, List.map_congr_left fun t ht => cost_congr h2 (old t ht)]
  simp only [St.doTask, hn0, hcl, Bool.not_false, Bool.true_and] at hs
  split at hs
  · rename_i hcond
    simp only [St.searchNode, hn0] at hs
    split at hs
    · cases hs
    · rename_i hclosure
      have hx := closure_ground hU g1 hclosure
      have hshut : n.mgr.rm.shut = false := by
        by_contra hc
        rw [if_pos (by simpa using hc)] at hx; cases hx
      simp only [St.nonClosure, hn0] at hs
      split at hs
      · rename_i hnext
        have : n.mgr.reintroduce s0.m s0.sk = some none := by unfold Mgr.reintroduce; rw [g2]; rfl
        rw [this] at hs
        obtain rfl := Option.some.inj hs
        refine ⟨nothingToDo_ok hW hnext hshut, ?_⟩
        rw [same_cost (s0.nothingToDo i) rfl]
        · omega
        · intro k x hx
          have : (s0.nothingToDo i).core = (s0.upd i fun n => { n with finished := true, isClosed := false }).core := rfl
          rw [this, upd_core hn0]
          dsimp only
          split
          · rename_i e
            subst e
            rw [core_some hn0] at hx
            obtain rfl := Option.some.inj hx
            exact ⟨_, rfl, rfl⟩
          · exact ⟨x, hx, rfl⟩
      · rename_i hnext
        obtain ⟨r, bs, happ, hne, hlen, hone, hbs, heq⟩ := tryToApply_ground (m := s0.m) (sk := s0.sk) g1 hnext
        rw [happ] at hs
        simp only [List.map_eq_nil_iff, hne, if_false, Option.some.injEq] at hs
        subst hs
        obtain ⟨e1, e2, e3, e4⟩ := expand_ok hW hne hone (fun b hb => (hbs b hb).1) heq
        refine ⟨e1, ?_⟩
        unfold St.cost at hcost ⊢
        rw [e2, List.map_append, List.sum_append, List.map_congr_left fun t ht => cost_congr e3 (old t ht), List.map_map]
        have hw : ∀ k ∈ List.range bs.length, (Incr.cost B (s0.expand i ⟨r, bs.map fun b => ⟨b, n.mgr.reintro, n.mgr.metas⟩, n.mgr⟩) ∘
            fun k => Task.search (s0.nodes.length + k)) k ≤ (max 2 B + 1) ^ (n.mgr.rm.wt - 1) := by
          intro k hk
          have hk : k < bs.length := by simpa using hk
          obtain ⟨x', hx', ex⟩ := e4 k bs[k] (by simp [hk])
          simp only [Function.comp_apply, cost, hx', ex]
          have := (hbs bs[k] (List.getElem_mem hk)).2
          exact Nat.pow_le_pow_right (by omega) (by omega)
        have hsum : ∀ l : List Nat, ∀ g : Nat → Nat, ∀ C, (∀ k ∈ l, g k ≤ C) → (l.map g).sum ≤ l.length * C := by
          intro l g C
          induction l with
          | nil => simp
          | cons a l ih =>
            intro h
            have h1 := h a (by simp)
            have h2 := ih fun k hk => h k (by simp [hk])
            simp only [List.map_cons, List.sum_cons, List.length_cons, Nat.add_mul]
            omega
        have hs1 := hsum _ _ _ hw
        rw [List.length_range] at hs1
        have hwpos : 0 < n.mgr.rm.wt := by
          obtain ⟨b, hb⟩ := List.exists_mem_of_ne_nil _ hne
          have := (hbs b hb).2
          omega
        have hpow : (max 2 B + 1) ^ n.mgr.rm.wt = (max 2 B + 1) ^ (n.mgr.rm.wt - 1) * (max 2 B + 1) := by
          rw [← Nat.pow_succ]; congr 1; omega
        have hp1 : 0 < (max 2 B + 1) ^ (n.mgr.rm.wt - 1) := Nat.pow_pos (by omega)
        have hlt : bs.length * (max 2 B + 1) ^ (n.mgr.rm.wt - 1) < (max 2 B + 1) ^ n.mgr.rm.wt := by
          rw [hpow, Nat.mul_comm]
          exact Nat.mul_lt_mul_of_pos_left (by omega) hp1
        have hfun : (fun t => Incr.cost B s0 t) = Incr.cost B s0 := rfl
        rw [hfun]
        generalize (max 2 B + 1) ^ n.mgr.rm.wt = X at *
        generalize bs.length * (max 2 B + 1) ^ (n.mgr.rm.wt - 1) = Y at *
        omega
    · rename_i subs hclosure
      have hx := closure_ground hU g1 hclosure
      have hshut : n.mgr.rm.shut = true := by
        by_contra hc
        rw [if_neg (by simpa using hc)] at hx; cases hx
      rw [if_pos hshut] at hx
      obtain rfl := Option.some.inj hx
      have hdone : n.done = [] := by
        by_contra hc
        have := (hD0.node i n hn0).done hc
        rw [hW.unsent] at this; cases this
      simp only [hdone, hasNew, List.isEmpty_nil, Bool.true_or, if_true, Option.some.injEq] at hs
      subst hs
      obtain ⟨c1, c2, c3⟩ := closed_ok hW hshut
      refine ⟨c1, ?_⟩
      rw [same_cost _ c3]
      · omega
      · intro k x hx
        rw [c2]
        split
        · rename_i e
          subst e
          rw [core_some hn0] at hx
          obtain rfl := Option.some.inj hx
          exact ⟨_, rfl, rfl⟩
        · exact ⟨x, hx, rfl⟩
  · rename_i hcond
    have himp : s.impossible = true := by
      simp only [Bool.and_eq_true, Bool.not_eq_true', not_and, Bool.not_eq_false] at hcond
      rw [← himp0]
      by_cases hf : n.finished = true
      · rw [himp0]; exact hS.fin i _ hnc hf
      · exact hcond (by simpa using hf)
    rw [send_leaf hn0 (hS.leaf i n.core hnc hl) ((hD0.node i n hn0).blank hl hW.unsent) g3] at hs
    obtain rfl := Option.some.inj hs
    refine ⟨⟨?_, sent, hD0⟩, by omega⟩
    rw [hcore0, hag0, himp0, himp]
    rw [himp] at hS
    exact hS.drop j

theorem init_inv (hf : Plain ar B f) (m sk : Nat) : Inv ar B f (St.init f m sk) := by
  have hget : ∀ {j x}, (St.init f m sk).nodes[j]? = some x → j = 0 ∧ x = { mgr := { rm := RM.root f }, father := 0 } := by
    intro j x h
    cases j with
    | zero => exact ⟨rfl, (Option.some.inj h).symm⟩
    | succ j => simp [St.init] at h
  have hget' : ∀ {j x}, (St.init f m sk).core j = some x → j = 0 ∧ x = ({ mgr := { rm := RM.root f }, father := 0 } : Node).core := by
    intro j x h
    obtain ⟨y, hy, rfl⟩ := of_core h
    obtain ⟨rfl, rfl⟩ := hget hy
    exact ⟨rfl, rfl⟩
  refine ⟨?_, fun _ => false, ?_⟩
  · constructor
    · exact ⟨_, rfl, rfl, rfl⟩
    · intro i n h; obtain ⟨-, rfl⟩ := hget' h; exact ⟨RM.Good.root hf, rfl, rfl⟩
    · intro i n k c h hk; obtain ⟨-, rfl⟩ := hget' h; simp [Node.core] at hk
    · intro i n h h0; exact absurd (hget' h).1 h0
    · intro i n h hc; obtain ⟨-, rfl⟩ := hget' h; exact absurd rfl hc
    · intro i n h hc; obtain ⟨-, rfl⟩ := hget' h; exact absurd rfl hc
    · intro i n h _; obtain ⟨-, rfl⟩ := hget' h; rfl
    · intro i n h _ hc; obtain ⟨-, rfl⟩ := hget' h; cases hc
    · intro i n h hc; obtain ⟨-, rfl⟩ := hget' h; cases hc
    · intro h; cases h
    · simp [St.init]
    · intro t ht
      simp only [St.init, List.mem_singleton] at ht
      exact ⟨0, _, ht, rfl, rfl, rfl⟩
    · intro i n h _
      obtain ⟨rfl, -⟩ := hget' h
      simp [St.init]
  · refine ⟨fun i n h => ?_, fun i hi => by cases hi⟩
    obtain ⟨rfl, rfl⟩ := hget h
    constructor <;> simp

theorem run_ok {U : Oracle} (hU : Faithful U) (js : List Nat) {s s' : St} (h : Inv ar B f s) (hs : s.run U js = some s') :
    Inv ar B f s' ∧ s'.cost B + js.length ≤ s.cost B := by
  induction js generalizing s with
  | nil => obtain rfl := Option.some.inj hs; exact ⟨h, by simp⟩
  | cons j js ih =>
    simp only [St.run] at hs
    split at hs
    · cases hs
    · rename_i s1 h1
      obtain ⟨a, b⟩ := step_ok hU h h1
      obtain ⟨c, d⟩ := ih a hs
      exact ⟨c, by simp only [List.length_cons]; omega⟩

/-! ### The verdict -/

theorem treeClosed_unsat {g : St} (hS : Stat ar B f g.core g.agenda g.impossible) {D : Type} (I : Interp D) (μ ρ : Nat → D) (k : Nat) :
    ∀ i n, g.nodes[i]? = some n → g.treeClosed k i = true → ¬ n.mgr.rm.holds I μ ρ := by
  induction k with
  | zero => intro i n _ h; simp [St.treeClosed] at h
  | succ k ih =>
    intro i n hn h hh
    simp only [St.treeClosed, hn] at h
    split at h
    · rename_i hc
      obtain ⟨c, hcm, nc, hnc, hh'⟩ := (hS.cover i n.core (core_some hn) hc D I μ ρ).1 hh
      obtain ⟨y, hy, rfl⟩ := of_core hnc
      rw [List.all_eq_true] at h
      exact ih c y hy (h c hcm) hh'
    · rename_i hc
      exact shut_unsat (hS.shut i n.core (core_some hn) (by simpa [Node.core] using hc) h) I μ ρ hh

theorem treeClosed_of {g : St} (hS : Stat ar B f g.core g.agenda g.impossible) (ha : g.agenda = []) (hi : g.impossible = false) (k : Nat) :
    ∀ i n, g.nodes[i]? = some n → g.nodes.length ≤ i + k → g.treeClosed k i = true := by
  induction k with
  | zero => intro i n hn h; have := (List.getElem?_eq_some_iff.1 hn).1; omega
  | succ k ih =>
    intro i n hn h
    simp only [St.treeClosed, hn]
    split
    · rw [List.all_eq_true]
      intro c hc
      obtain ⟨q, hq⟩ := List.mem_iff_getElem?.1 hc
      obtain ⟨h1, nc, hnc, -⟩ := hS.child i n.core q c (core_some hn) hq
      obtain ⟨y, hy, -⟩ := of_core hnc
      exact ih c y hy (by omega)
    · rename_i hc
      rcases hS.opened i n.core (core_some hn) (by simpa [Node.core] using hc) with h1 | h1 | h1
      · exact h1
      · rw [hi] at h1; cases h1
      · rw [ha] at h1; cases h1

theorem root_holds {D : Type u} (I : Interp D) (μ ρ : Nat → D) : (RM.root f).holds I μ ρ ↔ Form.holds I μ ρ f := by
  have hmem : ∀ r, r ∈ (RM.root f).all ↔ r = ⟨f, []⟩ := by
    intro r; rw [RM.root, mem_insert]; simp [RM.all]
  simp only [RM.holds, hmem, forall_eq]

/-- **C64, ground formulas, every schedule ends**: the number of steps is bounded. -/
theorem C64_ground_ends {U : Oracle} (hU : Faithful U) (hf : Plain ar B f) (m sk : Nat) (sched : List Nat) (s : St)
    (h : (St.init f m sk).run U sched = some s) : sched.length ≤ (max 2 B + 1) ^ weight true f := by
  have h1 := (run_ok hU sched (init_inv hf m sk) h).2
  have h2 : (St.init f m sk).cost B = (max 2 B + 1) ^ (RM.root f).wt := by
    simp [St.cost, St.init, cost, St.core, Node.core]
  have h3 : (RM.root f).wt ≤ weight true f := by
    have := @RM.wt_insert {} ⟨f, []⟩
    simpa [RM.root, RM.wt, wt, weightL] using this
  have h4 : (max 2 B + 1) ^ (RM.root f).wt ≤ (max 2 B + 1) ^ weight true f := Nat.pow_le_pow_right (by omega) h3
  omega

/-- **C64, ground formulas, the verdict is exact**: whatever the schedule, when no task is left the tree is
closed exactly when the formula has no model. -/
theorem C64_ground_exact {U : Oracle} (hU : Faithful U) (hf : Plain ar B f) (m sk : Nat) (b : Bool) (h : Verdict U f m sk b) :
    b = true ↔ ∀ (D : Type) (I : Interp D) (μ ρ : Nat → D), ¬ Form.holds I μ ρ f := by
  obtain ⟨sched, s, hrun, ha, rfl⟩ := h
  obtain ⟨⟨hS, -⟩, -⟩ := run_ok hU sched (init_inv hf m sk) hrun
  obtain ⟨r, hr, -, er⟩ := hS.root
  obtain ⟨n, hn, rfl⟩ := of_core hr
  have er : n.mgr.rm = RM.root f := er
  constructor
  · intro h D I μ ρ hh
    exact treeClosed_unsat hS I μ ρ _ 0 n hn h (by rw [er, root_holds]; exact hh)
  · intro h
    refine treeClosed_of hS ha ?_ _ 0 n hn (by omega)
    by_contra hi
    obtain ⟨I, hI⟩ := hS.impos (by simpa using hi)
    exact h Term I _ _ (root_holds I _ _ |>.1 hI)

/-! ### Any universe, progress -/

mutual
theorem holds_herbrand {D : Type u} (I : Interp D) (μ ρ : Nat → D) : ∀ {g : Form}, Plain ar B g →
    (Form.holds (herbrand fun p tys ts => I.pr p tys (Term.evalL I ρ μ ts)) Term.mv Term.var g ↔ Form.holds I μ ρ g)
  | .pred p tys args, _ => by simp only [Form.holds, evalL_herbrand]; rfl
  | .top, _ => by simp only [Form.holds]
  | .bot, _ => by simp only [Form.holds]
  | .neg g, h => by simp only [Plain] at h; simp only [Form.holds, holds_herbrand I μ ρ h]
  | .and gs, h => by simp only [Plain] at h; simp only [Form.holds, holdsAll_herbrand I μ ρ h.2.2]
  | .or gs, h => by simp only [Plain] at h; simp only [Form.holds, holdsAny_herbrand I μ ρ h.2.2]
  | .imp g g', h => by simp only [Plain] at h; simp only [Form.holds, holds_herbrand I μ ρ h.1, holds_herbrand I μ ρ h.2]
  | .equ g g', h => by simp only [Plain] at h; simp only [Form.holds, holds_herbrand I μ ρ h.1, holds_herbrand I μ ρ h.2]
  | .all _ _, h => by simp [Plain] at h
  | .ex _ _, h => by simp [Plain] at h
theorem holdsAll_herbrand {D : Type u} (I : Interp D) (μ ρ : Nat → D) : ∀ {gs : List Form}, PlainL ar B gs →
    (Form.holdsAll (herbrand fun p tys ts => I.pr p tys (Term.evalL I ρ μ ts)) Term.mv Term.var gs ↔ Form.holdsAll I μ ρ gs)
  | [], _ => by simp only [Form.holdsAll]
  | g :: gs, h => by
    simp only [PlainL] at h; simp only [Form.holdsAll, holds_herbrand I μ ρ h.1, holdsAll_herbrand I μ ρ h.2]
theorem holdsAny_herbrand {D : Type u} (I : Interp D) (μ ρ : Nat → D) : ∀ {gs : List Form}, PlainL ar B gs →
    (Form.holdsAny (herbrand fun p tys ts => I.pr p tys (Term.evalL I ρ μ ts)) Term.mv Term.var gs ↔ Form.holdsAny I μ ρ gs)
  | [], _ => by simp only [Form.holdsAny]
  | g :: gs, h => by
    simp only [PlainL] at h; simp only [Form.holdsAny, holds_herbrand I μ ρ h.1, holdsAny_herbrand I μ ρ h.2]
end

/-- **C64, ground formulas.** If the search reports a ground formula closed, no interpretation whatsoever satisfies it. Missing for
the full statement: formulas with quantifiers, for which it is false (`C64_statement_false`). -/
theorem C64_ground_partial {U : Oracle} (hU : Faithful U) (hf : Plain ar B f) (m sk : Nat) (h : Verdict U f m sk true) (D : Type u)
    (I : Interp D) (μ ρ : Nat → D) : ¬ Form.holds I μ ρ f := by
  intro hh
  exact (C64_ground_exact hU hf m sk true h).1 rfl _ _ _ _ ((holds_herbrand I μ ρ hf).2 hh)

/-- **C64, ground formulas, no crash**: as long as a task is left, any of them can be executed, if the index answers
for ground formulas (`C30_ground_answers`). -/
theorem C64_ground_progress {U : Oracle} (hU : Faithful U) (hf : Plain ar B f) (m sk : Nat) (sched : List Nat) (s : St)
    (h : (St.init f m sk).run U sched = some s) (hans : Answers ar U) (j : Nat) (hj : j < s.agenda.length) :
    ∃ s', s.step U j = some s' := by
  obtain ⟨⟨hS, -⟩, -⟩ := run_ok hU sched (init_inv hf m sk) h
  have ht : s.agenda[j]? = some s.agenda[j] := by simp [hj]
  obtain ⟨i, nc, et, hnc, hl, hcl⟩ := hS.tasks s.agenda[j] (List.getElem_mem hj)
  obtain ⟨n, hn, rfl⟩ := of_core hnc
  have hl : n.children = [] := hl
  have hcl : n.isClosed = false := hcl
  have g1 : n.mgr.rm.Good ar B := (hS.good i _ hnc).1
  have g2 : n.mgr.reintro = [] := (hS.good i _ hnc).2.1
  have hmap : ∀ (time : Nat) (neg l : List Atom), (∀ a ∈ neg, Atom.Gd ar a) → (∀ a ∈ l, Atom.Gd ar a) → (l.mapM fun p => U time neg p) ≠ none := by
    intro time neg l hn hp
    induction l with
    | nil => simp
    | cons a l ih =>
      obtain ⟨x, hx⟩ := Option.ne_none_iff_exists'.1 (hans time neg a hn (hp a (by simp)))
      obtain ⟨y, hy⟩ := Option.ne_none_iff_exists'.1 (ih fun b hb => hp b (by simp [hb]))
      simp [List.mapM_cons, hx, hy]
  have hpos : ∀ a ∈ atomsOf n.mgr.rm.atomic, Atom.Gd ar a := by
    intro a ha
    obtain ⟨r, hr, p, tys, args, e, rfl⟩ := mem_atomsOf_pos g1.pos ha
    have := g1.plain r (by simp [RM.all, hr])
    rw [e] at this
    exact plain_pred this
  have hneg : ∀ a ∈ atomsOf n.mgr.rm.atomicNot, Atom.Gd ar a := by
    intro a ha
    obtain ⟨r, hr, p, tys, args, e, rfl⟩ := mem_atomsOf_neg g1.neg ha
    have := g1.plain r (by simp [RM.all, hr])
    rw [e, Plain] at this
    exact plain_pred this
  have hclo : ∀ time, ∃ x, n.mgr.rm.closure U time = some x := by
    intro time
    unfold RM.closure
    split
    · exact ⟨_, rfl⟩
    · obtain ⟨y, hy⟩ := Option.ne_none_iff_exists'.1 (hmap time (atomsOf n.mgr.rm.atomicNot) (atomsOf n.mgr.rm.atomic) hneg hpos)
      unfold RM.substClosure
      rw [hy]; exact ⟨_, rfl⟩
  have hnon : ∀ s2 : St, ∀ n2 : Node, s2.nodes[i]? = some n2 → n2.mgr = n.mgr → ∃ s', s2.nonClosure i = some s' := by
    intro s2 n2 h2 e
    simp only [St.nonClosure, h2, e]
    split
    · have : n.mgr.reintroduce s2.m s2.sk = some none := by unfold Mgr.reintroduce; rw [g2]; rfl
      rw [this]; exact ⟨_, rfl⟩
    · rename_i hnext
      obtain ⟨r, bs, happ, hne, -⟩ := tryToApply_ground (m := s2.m) (sk := s2.sk) g1 hnext
      rw [happ]
      simp only
      split <;> exact ⟨_, rfl⟩
  simp only [St.step, ht, et, St.doTask, hn]
  split
  · simp only [St.searchNode, hn]
    obtain ⟨x, hx⟩ := hclo (s.time + 1)
    rw [hx]
    cases x with
    | none => exact hnon _ n hn rfl
    | some subs =>
      simp only
      split
      · exact ⟨_, rfl⟩
      · exact hnon _ { n with isClosed := true, closing := subs } (by simp [St.upd, List.getElem?_modify, hn]) rfl
  · exact ⟨_, rfl⟩

namespace Sample

/-- `(p(a) ∨ (q(a) ∧ p(b))) ∧ ¬p(a) ∧ (q(a) ⇒ ¬p(b))`. -/
def ground : Form := .and [.or [P1 (c 61), .and [Q1 (c 61), P1 (c 62)]], .neg (P1 (c 61)), .imp (Q1 (c 61)) (.neg (P1 (c 62)))]

end Sample
open Sample

/-- It meets the hypotheses, and the search closes it. -/
example : Plain (fun p => if p < 60 then 1 else 0) 3 ground ∧ Verdict (realU 9) ground 0 200 true := by
  constructor
  · simp [ground, P1, Q1, c, Plain, PlainL, TPlain, TPlainL]
  · exact verdict_of _ _ _ 7 _ (by decide +kernel)

/-- An index as `C64_ground_progress` asks for. -/
example : Faithful anyU ∧ Answers (fun p => if p < 60 then 1 else 0) anyU := ⟨anyU_faithful, anyU_answers⟩

end Verif.Search.Incr
