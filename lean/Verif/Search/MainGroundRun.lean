import Verif.Search.MainGround
import Verif.Search.MainUnsound
import Verif.Search.IncrGroundRun
/-!
# C65: the main search decides ground formulas and those the delta rule is enough for

Formulas without variables and without equality, and formulas without equality whose quantifiers all assert the existence of something
(`Exist`). Whatever the schedule, the search ends, and it says "closed" exactly when
the formula has no model. The proof follows the tree of processes: `Ok` says in which states a process can be, `sat`
what its answer will be, `cost` how many steps are left.
-/

namespace Verif.Search.Main
open Verif.AST Verif.Search Verif.Unif Incr

variable {ar : Nat → Nat} {B eq : Nat} {cb : Option Nat}

/-! ### States of a process -/

/-- The process has been told to wait: its answer is of no use any more. -/
def Pc.held : Pc → Bool
  | .waitF => true
  | .close true .wait => true
  | .reply true .wait => true
  | _ => false

/-- Some child the process has to answer to waits for it. -/
def Waits (ks : List (Bool × Proc)) : Prop := ∃ i k, isNext ks i = true ∧ ks[i]? = some (true, k) ∧ k.pc = .waitF

/-- The states a process can be in on such a formula. -/
def Here (ar : Nat → Nat) (B eq : Nat) (cb : Option Nat) (d : Data) (ks : List (Bool × Proc)) : Pc → Prop
  | .search s => s = [] ∧ Good ar B eq cb d ∧ ks = []
  | .send true n => n = false ∧ Tidy d ∧ ks = []
  | .send false _ => ks = []
  | .waitF => ks = []
  | .collect cur bt acc => cur = [] ∧ bt = [] ∧ acc = {} ∧ Tidy d ∧ ∀ k ∈ ks, k.1 = true ∧ k.2.pc.held = false
  | .give _ _ _ => False
  | .close true (.send true n) => n = false ∧ Tidy d ∧ ks = []
  | .close true (.send false _) => ∀ k ∈ ks, k.1 = true
  | .close true .wait => ∀ k ∈ ks, k.1 = true
  | .close false .giveUp => True
  | .close _ _ => False
  | .reply true (.send false _) => (∀ k ∈ ks, k.1 = true) ∧ Waits ks
  | .reply true .wait => (∀ k ∈ ks, k.1 = true) ∧ Waits ks
  | .reply false .giveUp => Waits ks
  | .reply _ _ => False

mutual
/-- The process and its children are in such states. -/
def Proc.Ok (ar : Nat → Nat) (B eq : Nat) (cb : Option Nat) : Proc → Prop
  | .mk d _ pc ks => Here ar B eq cb d ks pc ∧ OkL ar B eq cb ks
def OkL (ar : Nat → Nat) (B eq : Nat) (cb : Option Nat) : List (Bool × Proc) → Prop
  | [] => True
  | k :: ks => OkP ar B eq cb k ∧ OkL ar B eq cb ks
def OkP (ar : Nat → Nat) (B eq : Nat) (cb : Option Nat) : Bool × Proc → Prop
  | (_, p) => p.Ok ar B eq cb
end

theorem OkL_iff {ks : List (Bool × Proc)} : OkL ar B eq cb ks ↔ ∀ k ∈ ks, k.2.Ok ar B eq cb := by
  induction ks with
  | nil => simp [OkL]
  | cons k ks ih => obtain ⟨b, p⟩ := k; simp [OkL, OkP, ih]

mutual
/-- The branches of the process have a model. -/
def Proc.sat : Proc → Prop
  | .mk d _ pc ks => match pc with
    | .search _ => ∃ I, d.holds I
    | .send c _ => c = false
    | .collect _ _ _ => satL ks
    | .close _ (.send true _) => False
    | _ => True
def satL : List (Bool × Proc) → Prop
  | [] => False
  | k :: ks => satP k ∨ satL ks
def satP : Bool × Proc → Prop
  | (_, p) => p.sat
end

theorem satL_iff {ks : List (Bool × Proc)} : satL ks ↔ ∃ k ∈ ks, k.2.sat := by
  induction ks with
  | nil => simp [satL]
  | cons k ks ih => obtain ⟨b, p⟩ := k; simp [satL, satP, ih]

/-- A bound on the steps of the process itself. -/
def Pc.cost (K : Nat) (d : Data) (ks : List (Bool × Proc)) : Pc → Nat
  | .search _ => (3 * K + 6) ^ (d.wt + 1)
  | .send _ _ => 2
  | .waitF => 1
  | .collect _ _ _ => 5 + 2 * ks.length
  | .give _ _ _ => 0
  | .close true .wait => 2
  | .close true _ => 3
  | .close false _ => 4 + 2 * ks.countP (·.1)
  | .reply true .wait => 2
  | .reply true _ => 3
  | .reply false _ => 4 + 2 * ks.countP (·.1)

mutual
/-- A bound on the steps of the process and its children. -/
def Proc.cost (K : Nat) : Proc → Nat
  | .mk d _ pc ks => pc.cost K d ks + costL K ks
def costL (K : Nat) : List (Bool × Proc) → Nat
  | [] => 0
  | k :: ks => costP K k + costL K ks
def costP (K : Nat) : Bool × Proc → Nat
  | (_, p) => p.cost K
end

theorem costL_cons {K : Nat} {k : Bool × Proc} {ks : List (Bool × Proc)} : costL K (k :: ks) = k.2.cost K + costL K ks := by
  obtain ⟨b, p⟩ := k; simp [costL, costP]

theorem costL_erase {K : Nat} : ∀ {ks : List (Bool × Proc)} {i : Nat} {k : Bool × Proc}, ks[i]? = some k →
    costL K (ks.eraseIdx i) + k.2.cost K = costL K ks
  | [], i, k, h => by simp at h
  | x :: ks, 0, k, h => by
    simp only [List.getElem?_cons_zero, Option.some.injEq] at h; subst h
    simp only [List.eraseIdx_cons_zero, costL_cons]; omega
  | x :: ks, i + 1, k, h => by
    simp only [List.getElem?_cons_succ] at h
    have := costL_erase (K := K) h
    simp only [List.eraseIdx_cons_succ, costL_cons]; omega

theorem costL_set {K : Nat} {k' : Bool × Proc} : ∀ {ks : List (Bool × Proc)} {i : Nat} {k : Bool × Proc}, ks[i]? = some k →
    costL K (ks.set i k') + k.2.cost K = costL K ks + k'.2.cost K
  | [], i, k, h => by simp at h
  | x :: ks, 0, k, h => by
    simp only [List.getElem?_cons_zero, Option.some.injEq] at h; subst h
    simp only [List.set_cons_zero, costL_cons]; omega
  | x :: ks, i + 1, k, h => by
    simp only [List.getElem?_cons_succ] at h
    have := costL_set (K := K) (k' := k') h
    simp only [List.set_cons_succ, costL_cons]; omega

theorem countP_set' {k' : Bool × Proc} : ∀ {ks : List (Bool × Proc)} {i : Nat} {k : Bool × Proc}, ks[i]? = some k →
    (ks.set i k').countP (·.1) + k.1.toNat = ks.countP (·.1) + k'.1.toNat
  | [], i, k, h => by simp at h
  | x :: ks, 0, k, h => by
    simp only [List.getElem?_cons_zero, Option.some.injEq] at h; subst h
    simp only [List.set_cons_zero, List.countP_cons]
    cases x.1 <;> cases k'.1 <;> simp
  | x :: ks, i + 1, k, h => by
    simp only [List.getElem?_cons_succ] at h
    have := countP_set' (k' := k') h
    simp only [List.set_cons_succ, List.countP_cons]; omega

theorem countP_erase : ∀ {ks : List (Bool × Proc)} {i : Nat} {k : Bool × Proc}, ks[i]? = some k →
    (ks.eraseIdx i).countP (·.1) + k.1.toNat = ks.countP (·.1)
  | [], i, k, h => by simp at h
  | x :: ks, 0, k, h => by
    simp only [List.getElem?_cons_zero, Option.some.injEq] at h; subst h
    simp only [List.eraseIdx_cons_zero, List.countP_cons]
    cases x.1 <;> simp
  | x :: ks, i + 1, k, h => by
    simp only [List.getElem?_cons_succ] at h
    have := countP_erase h
    simp only [List.eraseIdx_cons_succ, List.countP_cons]; omega

theorem costL_all {K : Nat} {ks : List (Bool × Proc)} : costL K (all ks) = costL K ks := by
  induction ks with
  | nil => rfl
  | cons k ks ih => simp only [all, List.map_cons, costL_cons] at ih ⊢; omega

theorem mem_all {ks : List (Bool × Proc)} {k : Bool × Proc} (h : k ∈ all ks) : k.1 = true ∧ ∃ x ∈ ks, k.2 = x.2 := by
  obtain ⟨x, hx, rfl⟩ := List.mem_map.1 h
  exact ⟨rfl, x, hx, rfl⟩

theorem OkL_all {ks : List (Bool × Proc)} (h : OkL ar B eq cb ks) : OkL ar B eq cb (all ks) := by
  rw [OkL_iff] at h ⊢
  intro k hk
  obtain ⟨-, x, hx, e⟩ := mem_all hk
  rw [e]; exact h x hx

theorem OkL_erase {ks : List (Bool × Proc)} (h : OkL ar B eq cb ks) (i : Nat) : OkL ar B eq cb (ks.eraseIdx i) := by
  rw [OkL_iff] at h ⊢
  exact fun k hk => h k (List.mem_of_mem_eraseIdx hk)

theorem OkL_set {ks : List (Bool × Proc)} (h : OkL ar B eq cb ks) (i : Nat) {k : Bool × Proc} (hk : k.2.Ok ar B eq cb) : OkL ar B eq cb (ks.set i k) := by
  rw [OkL_iff] at h ⊢
  intro x hx
  rcases List.mem_or_eq_of_mem_set hx with hx | rfl
  · exact h x hx
  · exact hk

theorem OkL_get {ks : List (Bool × Proc)} (h : OkL ar B eq cb ks) {i : Nat} {k : Bool × Proc} (hk : ks[i]? = some k) : k.2.Ok ar B eq cb :=
  OkL_iff.1 h k (List.mem_of_getElem? hk)

theorem done_nil {ks : List (Bool × Proc)} (h : done ks = true) (ht : ∀ k ∈ ks, k.1 = true) : ks = [] := by
  cases ks with
  | nil => rfl
  | cons k ks =>
    simp only [done, List.all_cons, Bool.and_eq_true] at h
    have := ht k (by simp)
    rw [this] at h; simp at h

theorem sent_ok {p : Proc} (h : p.Ok ar B eq cb) {c n : Bool} (hp : p.pc = .send c n) : p.sent.Ok ar B eq cb ∧ p.sent.pc = .waitF ∧
    ∀ K, p.sent.cost K + 1 = p.cost K := by
  obtain ⟨d, g, pc, ks⟩ := p
  obtain rfl : pc = .send c n := hp
  have hk : ks = [] := by
    have := h
    simp only [Proc.Ok] at this
    cases c
    · exact this.1
    · exact this.1.2.2
  subst hk
  exact ⟨by simp [Proc.sent, Proc.Ok, Here, OkL], rfl, by intro K; simp [Proc.sent, Proc.cost, Pc.cost, costL]⟩

theorem hold_ok {p p' : Proc} (h : p.Ok ar B eq cb) (hp : p.hold = some p') : p'.Ok ar B eq cb ∧ ∀ K, p'.cost K ≤ p.cost K + 1 := by
  obtain ⟨d, g, pc, ks⟩ := p
  have key : ∀ g', Proc.Ok ar B eq cb (.mk d g' (.close true .wait) (all ks)) := by
    intro g'
    simp only [Proc.Ok] at h
    exact ⟨fun k hk => (mem_all hk).1, OkL_all h.2⟩
  cases pc <;> simp only [Proc.hold, Option.some.injEq, reduceCtorEq] at hp
  · subst hp
    refine ⟨key _, fun K => ?_⟩
    simp only [Proc.cost, Pc.cost, costL_all]
    have : 1 ≤ (3 * K + 6) ^ (d.wt + 1) := Nat.one_le_pow _ _ (by omega)
    omega
  · subst hp
    refine ⟨key _, fun K => ?_⟩
    simp only [Proc.cost, Pc.cost, costL_all]; omega
  · subst hp
    refine ⟨key _, fun K => ?_⟩
    simp only [Proc.cost, Pc.cost, costL_all]; omega
  · subst hp
    refine ⟨key _, fun K => ?_⟩
    simp only [Proc.cost, Pc.cost, costL_all]; omega

theorem cost_pos {p : Proc} (h : p.Ok ar B eq cb) {K : Nat} : 1 ≤ p.cost K := by
  obtain ⟨d, g, pc, ks⟩ := p
  simp only [Proc.Ok] at h
  simp only [Proc.cost]
  have : 1 ≤ pc.cost K d ks := by
    unfold Pc.cost
    split <;> try omega
    · exact Nat.one_le_pow _ _ (by omega)
    · exact absurd h.1 (by simp [Here])
  omega

theorem isNext_set {ks : List (Bool × Proc)} {i j : Nat} {b : Bool} {k k' : Proc} (h : ks[j]? = some (b, k)) :
    isNext (ks.set j (b, k')) i = isNext ks i := by
  unfold isNext done
  have : ∀ l : List (Bool × Proc), (l.all fun k => !k.1) = (l.map (·.1)).all (!·) := by intro l; simp [List.all_map, Function.comp_def]
  rw [this, this]
  congr 1
  apply List.ext_getElem?
  intro n
  simp only [List.getElem?_map, List.getElem?_take]
  split
  · rw [List.getElem?_set]
    split
    · rename_i e; subst e
      split
      · simp [h]
      · rename_i hn; simp at hn; simp [hn] at h
    · rfl
  · rfl

theorem Here.up {d : Data} {ks : List (Bool × Proc)} {pc : Pc} (h : Here ar B eq cb d ks pc) : Here ar B eq (up cb) d ks pc := by
  unfold Here at h ⊢
  split at h <;> first | exact h | exact ⟨h.1, h.2.1.up, h.2.2⟩

mutual
theorem Ok.up : ∀ {p : Proc}, p.Ok ar B eq cb → p.Ok ar B eq (up cb)
  | .mk d g pc ks, h => by
    simp only [Proc.Ok] at h ⊢
    exact ⟨h.1.up, OkL_up h.2⟩
theorem OkL_up : ∀ {ks : List (Bool × Proc)}, OkL ar B eq cb ks → OkL ar B eq (up cb) ks
  | [], h => trivial
  | (b, p) :: ks, h => by
    simp only [OkL, OkP] at h ⊢
    exact ⟨Ok.up h.1, OkL_up h.2⟩
end

/-! ### Steps -/

/-- What a step of a process keeps. -/
structure Keeps (ar : Nat → Nat) (B eq : Nat) (cb : Option Nat) (p p' : Proc) : Prop where
  ok : p'.Ok ar B eq cb
  held : p'.pc.held = p.pc.held
  sat : p.pc.held = false → (p'.sat ↔ p.sat)
  cost : p'.cost (max 2 B) < p.cost (max 2 B)

theorem Keeps.up {p p' : Proc} (h : Keeps ar B eq cb p p') : Keeps ar B eq (up cb) p p' := ⟨Ok.up h.ok, h.held, h.sat, h.cost⟩

theorem cost_again {K n m : Nat} (h : n < m) : (3 * K + 6) ^ (n + 1) < (3 * K + 6) ^ (m + 1) :=
  Nat.pow_lt_pow_right (by omega) (by omega)

theorem cost_kids {K : Nat} {m : Nat} : ∀ (ds : List Data), (∀ d ∈ ds, d.wt < m) →
    costL K (ds.map fun d => (true, fresh [] d)) ≤ ds.length * (3 * K + 6) ^ m
  | [], _ => by simp [costL]
  | d :: ds, h => by
    have h1 := cost_kids (K := K) ds fun x hx => h x (by simp [hx])
    have h2 : (3 * K + 6) ^ (d.wt + 1) ≤ (3 * K + 6) ^ m := Nat.pow_le_pow_right (by omega) (h d (by simp))
    simp only [List.map_cons, costL_cons, List.length_cons, fresh, Proc.cost, Pc.cost, costL] at h1 ⊢
    rw [Nat.add_mul]
    omega

theorem own_keeps {e : Env} (hU : Deep e.U) (hfu : 0 < e.fuel) {w : Now} (hw : Fresh ar e cb w.sk) {rnd : Nat}
    {p p' : Proc} (h : p.Ok ar B e.eq cb)
    (hs : p.own e w rnd = some p') : Keeps ar B e.eq (up cb) p p' := by
  obtain ⟨d, g, pc, ks⟩ := p
  simp only [Proc.Ok] at h
  obtain ⟨hh, hk⟩ := h
  replace hk := OkL_up hk
  cases pc with
  | search s =>
    obtain ⟨rfl, hg, rfl⟩ := hh
    simp only [Proc.own] at hs
    cases hr : round e w [] d with
    | none => rw [hr] at hs; cases hs
    | some o =>
      have ho := round_ok hU hfu hw hg hr
      rw [hr] at hs
      cases o with
      | again d' =>
        cases hs
        obtain ⟨a, b, c⟩ := ho
        refine ⟨by simp [Proc.Ok, Here, OkL, a], rfl, fun _ => ?_, ?_⟩
        · simp only [Proc.sat, c]
        · simp only [Proc.cost, Pc.cost, costL, Nat.add_zero]; exact cost_again b
      | answer c n d' =>
        cases hs
        have h1 : 2 < (3 * (max 2 B) + 6) ^ (d.wt + 1) := by
          have := Nat.pow_le_pow_right (n := 3 * (max 2 B) + 6) (by omega) (Nat.le_add_left 1 d.wt)
          rw [Nat.pow_one] at this; omega
        cases c with
        | true =>
          obtain ⟨rfl, b, c⟩ := ho
          refine ⟨by simp [Proc.Ok, Here, OkL, b], rfl, fun _ => ?_, ?_⟩
          · simp [Proc.sat, c]
          · simpa [Proc.cost, Pc.cost, costL] using h1
        | false =>
          obtain ⟨b, c⟩ := ho
          refine ⟨by simp [Proc.Ok, Here, OkL], rfl, fun _ => ?_, ?_⟩
          · simp [Proc.sat, c]
          · simpa [Proc.cost, Pc.cost, costL] using h1
      | split d' ds =>
        cases hs
        obtain ⟨a, b, c, q⟩ := ho
        refine ⟨⟨⟨rfl, rfl, rfl, a, ?_⟩, ?_⟩, rfl, fun _ => ?_, ?_⟩
        · intro k hk
          obtain ⟨x, hx, rfl⟩ := List.mem_map.1 hk
          exact ⟨rfl, rfl⟩
        · rw [OkL_iff]
          intro k hk
          obtain ⟨x, hx, rfl⟩ := List.mem_map.1 hk
          simp [fresh, Proc.Ok, Here, OkL, (c x hx).1]
        · simp only [Proc.sat, satL_iff, List.mem_map, q]
          constructor
          · rintro ⟨k, ⟨x, hx, rfl⟩, I, hI⟩
            exact ⟨I, x, hx, hI⟩
          · rintro ⟨I, x, hx, hI⟩
            exact ⟨_, ⟨x, hx, rfl⟩, I, hI⟩
        · have h1 := cost_kids (K := max 2 B) ds fun x hx => (c x hx).2
          have h2 : ds.length * (3 * max 2 B + 6) ^ d.wt ≤ max 2 B * (3 * max 2 B + 6) ^ d.wt := Nat.mul_le_mul_right _ b
          have h3 : 1 ≤ (3 * max 2 B + 6) ^ d.wt := Nat.one_le_pow _ _ (by omega)
          have h4 : (2 * max 2 B + 6) * 1 ≤ (2 * max 2 B + 6) * (3 * max 2 B + 6) ^ d.wt := Nat.mul_le_mul_left _ h3
          have h5 : (3 * max 2 B + 6) ^ (d.wt + 1) = max 2 B * (3 * max 2 B + 6) ^ d.wt + (2 * max 2 B + 6) * (3 * max 2 B + 6) ^ d.wt := by
            rw [Nat.pow_succ, ← Nat.add_mul, Nat.mul_comm]
            congr 1; omega
          simp only [Proc.cost, Pc.cost, costL, List.length_map, Nat.add_zero]
          omega
  | send c n => simp [Proc.own] at hs
  | waitF => simp [Proc.own] at hs
  | collect cur bt acc =>
    obtain ⟨rfl, rfl, rfl, ht, hm⟩ := hh
    simp only [Proc.own] at hs
    split at hs
    · rename_i hd
      obtain rfl := done_nil hd fun k hk => (hm k hk).1
      have e1 : Select.finish (mrg e.fuel) [] none {} = some (.closeByItself, []) := rfl
      simp only [collected, e1, cleaned, ht.applied, ht.mm, clean_nil hfu, if_true, Option.some.injEq] at hs
      subst hs
      refine ⟨⟨⟨rfl, ⟨rfl, rfl, rfl⟩, rfl⟩, trivial⟩, rfl, fun _ => ?_, ?_⟩
      · simp [Proc.sat, satL]
      · simp [Proc.cost, Pc.cost, costL, all]
    · cases hs
  | give s cur bt => exact absurd hh (by simp [Here])
  | close kill nx =>
    simp only [Proc.own] at hs
    split at hs
    · rename_i hd
      cases kill <;> cases nx <;> try exact False.elim hh
      · simp only [closed, Option.some.injEq] at hs; subst hs
        refine ⟨⟨fun k hk => (mem_all hk).1, OkL_all hk⟩, rfl, fun _ => ?_, ?_⟩
        · simp [Proc.sat]
        · simp only [Proc.cost, Pc.cost, costL_all]; omega
      · rename_i c n
        simp only [closed, Option.some.injEq] at hs; subst hs
        cases c with
        | true =>
          obtain ⟨rfl, ht, rfl⟩ := hh
          refine ⟨⟨⟨rfl, ht, rfl⟩, hk⟩, rfl, fun _ => ?_, ?_⟩
          · simp [Proc.sat]
          · simp [Proc.cost, Pc.cost]
        | false =>
          obtain rfl := done_nil hd hh
          refine ⟨⟨rfl, hk⟩, rfl, fun _ => ?_, ?_⟩
          · simp [Proc.sat]
          · simp [Proc.cost, Pc.cost]
      · simp only [closed, Option.some.injEq] at hs; subst hs
        obtain rfl := done_nil hd hh
        refine ⟨⟨rfl, hk⟩, rfl, fun h => ?_, ?_⟩
        · simp [Proc.pc, Pc.held] at h
        · simp [Proc.cost, Pc.cost]
    · cases hs
  | reply kill nx => simp [Proc.own] at hs

theorem Ok.sends {p : Proc} (h : p.Ok ar B eq cb) {n : Bool} (hp : p.pc = .send true n) : n = false ∧ p.sends = [] ∧ ¬ p.sat := by
  obtain ⟨d, g, pc, ks⟩ := p
  obtain rfl : pc = .send true n := hp
  simp only [Proc.Ok] at h
  exact ⟨h.1.1, h.1.2.1.sends, by simp [Proc.sat]⟩

theorem Ok.open_ {p : Proc} {n : Bool} (hp : p.pc = .send false n) : p.sat := by
  obtain ⟨d, g, pc, ks⟩ := p
  obtain rfl : pc = .send false n := hp
  simp [Proc.sat]

/-- A process in the loop that closes its children: whether it still has to, the same afterwards. -/
theorem Here.close_iff {d : Data} {ks : List (Bool × Proc)} {kill : Bool} {nx : Next} (h : Here ar B eq cb d ks (.close kill nx)) (hne : ks ≠ []) :
    (kill = true → ∀ k ∈ ks, k.1 = true) ∧ ∀ ks', (kill = true → ∀ k ∈ ks', k.1 = true) → (Here ar B eq cb d ks' (.close kill nx) ∧ (Waits ks' → Here ar B eq cb d ks' (.reply kill nx))) ∧
      ∀ g, (Proc.mk d g (.close kill nx) ks').sat ∧ (Proc.mk d g (.reply kill nx) ks').sat ∧ (Proc.mk d g (.close kill nx) ks).sat := by
  cases kill <;> cases nx <;> (try exact False.elim h)
  · exact ⟨by simp, fun ks' _ => ⟨⟨trivial, fun h => h⟩, fun g => ⟨by simp [Proc.sat], by simp [Proc.sat], by simp [Proc.sat]⟩⟩⟩
  · rename_i c n
    cases c
    · exact ⟨fun _ => h, fun ks' h' => ⟨⟨h' rfl, fun h => ⟨h' rfl, h⟩⟩, fun g => ⟨by simp [Proc.sat], by simp [Proc.sat], by simp [Proc.sat]⟩⟩⟩
    · exact absurd h.2.2 hne
  · exact ⟨fun _ => h, fun ks' h' => ⟨⟨h' rfl, fun h => ⟨h' rfl, h⟩⟩, fun g => ⟨by simp [Proc.sat], by simp [Proc.sat], by simp [Proc.sat]⟩⟩⟩

theorem Here.reply_iff {d : Data} {ks : List (Bool × Proc)} {kill : Bool} {nx : Next} (h : Here ar B eq cb d ks (.reply kill nx)) :
    Waits ks ∧ (kill = true → ∀ k ∈ ks, k.1 = true) ∧ ∀ ks', (kill = true → ∀ k ∈ ks', k.1 = true) →
      (Here ar B eq cb d ks' (.close kill nx) ∧ (Waits ks' → Here ar B eq cb d ks' (.reply kill nx))) ∧
      ∀ g, (Proc.mk d g (.close kill nx) ks').sat ∧ (Proc.mk d g (.reply kill nx) ks).sat ∧ (Proc.mk d g (.reply kill nx) ks').sat := by
  cases kill <;> cases nx <;> (try exact False.elim h)
  · exact ⟨h, by simp, fun ks' _ => ⟨⟨trivial, fun h => h⟩, fun g => ⟨by simp [Proc.sat], by simp [Proc.sat], by simp [Proc.sat]⟩⟩⟩
  · rename_i c n
    cases c
    · exact ⟨h.2, fun _ => h.1, fun ks' h' => ⟨⟨h' rfl, fun h => ⟨h' rfl, h⟩⟩, fun g => ⟨by simp [Proc.sat], by simp [Proc.sat], by simp [Proc.sat]⟩⟩⟩
    · exact absurd h (by simp [Here])
  · exact ⟨h.2, fun _ => h.1, fun ks' h' => ⟨⟨h' rfl, fun h => ⟨h' rfl, h⟩⟩, fun g => ⟨by simp [Proc.sat], by simp [Proc.sat], by simp [Proc.sat]⟩⟩⟩

/-- The cost of the loop that closes the children. -/
theorem cost_close {K : Nat} {d : Data} {ks : List (Bool × Proc)} {kill : Bool} {nx : Next} :
    (Pc.reply kill nx).cost K d ks = (Pc.close kill nx).cost K d ks ∧ ∀ ks' : List (Bool × Proc), ∃ c : Nat,
    (Pc.close kill nx).cost K d ks = c + (if kill then 0 else 2 * ks.countP (·.1)) ∧
    (Pc.close kill nx).cost K d ks' = c + (if kill then 0 else 2 * ks'.countP (·.1)) := by
  cases kill <;> cases nx <;> simp [Pc.cost]

theorem held_reply {kill : Bool} {nx : Next} : (Pc.reply kill nx).held = (Pc.close kill nx).held := by
  cases kill <;> cases nx <;> rfl

theorem ne_of_get {ks : List (Bool × Proc)} {i : Nat} {k : Bool × Proc} (h : ks[i]? = some k) : ks ≠ [] := by
  rintro rfl; simp at h

theorem recv_keeps {i : Nat} {p p' : Proc} (h : p.Ok ar B eq cb) (hs : p.recv i = some p') : Keeps ar B eq cb p p' := by
  obtain ⟨d, g, pc, ks⟩ := p
  simp only [Proc.Ok] at h
  obtain ⟨hh, hk⟩ := h
  cases pc with
  | search s => simp [Proc.recv] at hs
  | send c n => simp [Proc.recv] at hs
  | waitF => simp [Proc.recv] at hs
  | give s cur bt => exact False.elim hh
  | reply kill nx => simp [Proc.recv] at hs
  | collect cur bt acc =>
    obtain ⟨rfl, rfl, rfl, ht, hm⟩ := hh
    simp only [Proc.recv] at hs
    cases hi : ks[i]? with
    | none => rw [hi] at hs; cases hs
    | some x =>
      obtain ⟨b, k⟩ := x
      have hko : k.Ok ar B eq cb := OkL_get hk hi
      obtain rfl : b = true := (hm _ (List.mem_of_getElem? hi)).1
      rw [hi] at hs
      simp only at hs
      have hce := costL_erase (K := max 2 B) hi
      have hlen : (ks.eraseIdx i).length + 1 = ks.length := by
        rw [List.length_eraseIdx, if_pos (List.getElem?_eq_some_iff.1 hi).1]
        have := (List.getElem?_eq_some_iff.1 hi).1; omega
      split at hs
      · rename_i need hpc
        obtain ⟨rfl, h1, h2⟩ := Ok.sends hko hpc
        cases hs
        refine ⟨⟨⟨rfl, rfl, by rw [h1]; rfl, ht, fun x hx => hm x (List.mem_of_mem_eraseIdx hx)⟩, OkL_erase hk i⟩, rfl, fun _ => ?_, ?_⟩
        · simp only [Proc.sat, satL_iff, keep, Bool.false_eq_true, if_false]
          constructor
          · rintro ⟨x, hx, y⟩; exact ⟨x, List.mem_of_mem_eraseIdx hx, y⟩
          · rintro ⟨x, hx, y⟩
            obtain ⟨j, hj, e⟩ := List.mem_iff_getElem.1 hx
            refine ⟨x, List.mem_eraseIdx_iff_getElem?.2 ⟨j, ?_, by rw [List.getElem?_eq_getElem hj, e]⟩, y⟩
            rintro rfl
            rw [List.getElem?_eq_getElem hj, e] at hi
            cases hi
            exact h2 y
        · simp only [Proc.cost, Pc.cost, keep, Bool.false_eq_true, if_false]; omega
      · rename_i need hpc
        cases hs
        have hsat : ∃ x ∈ ks, x.2.sat := ⟨_, List.mem_of_getElem? hi, Ok.open_ hpc⟩
        obtain ⟨s1, s2, s3⟩ := sent_ok hko hpc
        refine ⟨⟨trivial, OkL_all ?_⟩, rfl, fun _ => ?_, ?_⟩
        · unfold keep
          split
          · exact OkL_set hk i s1
          · exact OkL_erase hk i
        · simp only [Proc.sat, satL_iff, hsat, if_true]
        · simp only [Proc.cost, Pc.cost, costL_all, if_true]
          have hcount : (all (keep ks i k need)).countP (·.1) ≤ (keep ks i k need).length := by
            have := List.countP_le_length (p := fun x : Bool × Proc => x.1) (l := all (keep ks i k need))
            simpa [all] using this
          unfold keep at hcount ⊢
          split
          · rename_i hn
            have := costL_set (K := max 2 B) (k' := (false, k.sent)) hi
            have := s3 (max 2 B)
            rw [if_pos hn, List.length_set] at hcount
            dsimp only at *
            omega
          · rename_i hn
            rw [if_neg hn] at hcount
            omega
      · cases hs
  | close kill nx =>
    simp only [Proc.recv] at hs
    split at hs
    · rename_i hnext
      cases hi : ks[i]? with
      | none => rw [hi] at hs; cases hs
      | some x =>
        obtain ⟨b, k⟩ := x
        have hko : k.Ok ar B eq cb := OkL_get hk hi
        rw [hi] at hs
        cases b with
        | false => cases hs
        | true =>
          simp only at hs
          obtain ⟨c1, c2⟩ := hh.close_iff (ne_of_get hi)
          split at hs
          · rename_i c hpc
            cases hs
            obtain ⟨s1, s2, s3⟩ := sent_ok hko hpc
            have hW : Waits (ks.set i (true, k.sent)) := ⟨i, k.sent, by rw [isNext_set hi]; exact hnext,
              by simp [List.getElem?_set, (List.getElem?_eq_some_iff.1 hi).1], s2⟩
            obtain ⟨c3, c4⟩ := c2 (ks.set i (true, k.sent)) (by
              intro hkill x hx
              rcases List.mem_or_eq_of_mem_set hx with hx | rfl
              · exact c1 hkill x hx
              · rfl)
            refine ⟨⟨c3.2 hW, OkL_set hk i s1⟩, held_reply, fun _ => ⟨fun _ => (c4 g).2.2, fun _ => (c4 g).2.1⟩, ?_⟩
            simp only [Proc.cost]
            rw [cost_close.1]
            obtain ⟨c, e1, e2⟩ := (@cost_close (max 2 B) d ks kill nx).2 (ks.set i (true, k.sent))
            rw [e1, e2]
            have h1 := countP_set' (k' := (true, k.sent)) hi
            have h2 := costL_set (K := max 2 B) (k' := (true, k.sent)) hi
            have h3 := s3 (max 2 B)
            dsimp only at *
            split <;> omega
          · rename_i c hpc
            cases hs
            obtain ⟨c3, c4⟩ := c2 (ks.eraseIdx i) (fun hkill x hx => c1 hkill x (List.mem_of_mem_eraseIdx hx))
            refine ⟨⟨c3.1, OkL_erase hk i⟩, rfl, fun _ => ⟨fun _ => (c4 g).2.2, fun _ => (c4 g).1⟩, ?_⟩
            simp only [Proc.cost]
            obtain ⟨c, e1, e2⟩ := (@cost_close (max 2 B) d ks kill nx).2 (ks.eraseIdx i)
            rw [e1, e2]
            have h1 := countP_erase hi
            have h2 := costL_erase (K := max 2 B) hi
            have h3 := cost_pos hko (K := max 2 B)
            dsimp only at *
            split <;> omega
          · cases hs
    · cases hs

theorem order_keeps {i : Nat} {p p' : Proc} (h : p.Ok ar B eq cb) (hs : p.order i = some p') : Keeps ar B eq cb p p' := by
  obtain ⟨d, g, pc, ks⟩ := p
  simp only [Proc.Ok] at h
  obtain ⟨hh, hk⟩ := h
  cases pc with
  | search s => simp [Proc.order] at hs
  | send c n => simp [Proc.order] at hs
  | waitF => simp [Proc.order] at hs
  | give s cur bt => exact False.elim hh
  | collect cur bt acc => simp [Proc.order] at hs
  | close kill nx =>
    simp only [Proc.order] at hs
    split at hs
    · cases hi : ks[i]? with
      | none => rw [hi] at hs; cases hs
      | some x =>
        obtain ⟨b, k⟩ := x
        have hko : k.Ok ar B eq cb := OkL_get hk hi
        rw [hi] at hs
        cases b with
        | false => cases hs
        | true =>
          obtain ⟨c1, c2⟩ := hh.close_iff (ne_of_get hi)
          simp only at hs
          split at hs
          · rename_i hkill
            split at hs
            · cases hs
              obtain ⟨c3, c4⟩ := c2 (ks.eraseIdx i) (fun hkill x hx => c1 hkill x (List.mem_of_mem_eraseIdx hx))
              refine ⟨⟨c3.1, OkL_erase hk i⟩, rfl, fun _ => ⟨fun _ => (c4 g).2.2, fun _ => (c4 g).1⟩, ?_⟩
              simp only [Proc.cost]
              obtain ⟨c, e1, e2⟩ := (@cost_close (max 2 B) d ks kill nx).2 (ks.eraseIdx i)
              rw [e1, e2, if_pos hkill, if_pos hkill]
              have h2 := costL_erase (K := max 2 B) hi
              have h3 := cost_pos hko (K := max 2 B)
              dsimp only at *
              omega
            · cases hs
          · rename_i hkill
            obtain ⟨k', hk', rfl⟩ := Option.map_eq_some_iff.1 hs
            obtain ⟨o1, o2⟩ := hold_ok hko hk'
            obtain ⟨c3, c4⟩ := c2 (ks.set i (false, k')) (fun h => absurd h hkill)
            refine ⟨⟨c3.1, OkL_set hk i o1⟩, rfl, fun _ => ⟨fun _ => (c4 g).2.2, fun _ => (c4 g).1⟩, ?_⟩
            simp only [Proc.cost]
            obtain ⟨c, e1, e2⟩ := (@cost_close (max 2 B) d ks kill nx).2 (ks.set i (false, k'))
            rw [e1, e2, if_neg hkill, if_neg hkill]
            have h1 := countP_set' (k' := (false, k')) hi
            have h2 := costL_set (K := max 2 B) (k' := (false, k')) hi
            have h3 := o2 (max 2 B)
            simp only [Bool.toNat_true, Bool.toNat_false] at h1
            dsimp only at *
            omega
    · cases hs
  | reply kill nx =>
    simp only [Proc.order] at hs
    split at hs
    · cases hi : ks[i]? with
      | none => rw [hi] at hs; cases hs
      | some x =>
        obtain ⟨b, k⟩ := x
        have hko : k.Ok ar B eq cb := OkL_get hk hi
        rw [hi] at hs
        cases b with
        | false => cases hs
        | true =>
          obtain ⟨-, c1, c2⟩ := hh.reply_iff
          simp only at hs
          split at hs
          · split at hs
            · rename_i hkill
              cases hs
              obtain ⟨c3, c4⟩ := c2 (ks.eraseIdx i) (fun hkill x hx => c1 hkill x (List.mem_of_mem_eraseIdx hx))
              refine ⟨⟨c3.1, OkL_erase hk i⟩, held_reply.symm, fun _ => ⟨fun _ => (c4 g).2.1, fun _ => (c4 g).1⟩, ?_⟩
              simp only [Proc.cost]
              rw [cost_close.1]
              obtain ⟨c, e1, e2⟩ := (@cost_close (max 2 B) d ks kill nx).2 (ks.eraseIdx i)
              rw [e1, e2, if_pos hkill, if_pos hkill]
              have h2 := costL_erase (K := max 2 B) hi
              have h3 := cost_pos hko (K := max 2 B)
              dsimp only at *
              omega
            · rename_i hkill
              obtain ⟨k', hk', rfl⟩ := Option.map_eq_some_iff.1 hs
              obtain ⟨o1, o2⟩ := hold_ok hko hk'
              obtain ⟨c3, c4⟩ := c2 (ks.set i (false, k')) (fun h => absurd h hkill)
              refine ⟨⟨c3.1, OkL_set hk i o1⟩, held_reply.symm, fun _ => ⟨fun _ => (c4 g).2.1, fun _ => (c4 g).1⟩, ?_⟩
              simp only [Proc.cost]
              rw [cost_close.1]
              obtain ⟨c, e1, e2⟩ := (@cost_close (max 2 B) d ks kill nx).2 (ks.set i (false, k'))
              rw [e1, e2, if_neg hkill, if_neg hkill]
              have h1 := countP_set' (k' := (false, k')) hi
              have h2 := costL_set (K := max 2 B) (k' := (false, k')) hi
              have h3 := o2 (max 2 B)
              simp only [Bool.toNat_true, Bool.toNat_false] at h1
              dsimp only at *
              omega
          · cases hs
    · cases hs

theorem act_keeps {e : Env} (hU : Deep e.U) (hfu : 0 < e.fuel) {w : Now} (hw : Fresh ar e cb w.sk) {a : Act} {p p' : Proc}
    (h : p.Ok ar B e.eq cb) (hs : p.act e w a = some p') : Keeps ar B e.eq (up cb) p p' := by
  cases a with
  | own rnd => exact own_keeps hU hfu hw h hs
  | recv i => exact (recv_keeps h hs).up
  | order i => exact (order_keeps h hs).up
  | give i =>
    obtain ⟨d, g, pc, ks⟩ := p
    simp only [Proc.Ok] at h
    cases pc <;> first | exact False.elim h.1 | (simp [Proc.act, Proc.give] at hs)

/-- A process that waits for its father does nothing. -/
theorem waits_still {e : Env} {w : Now} {a : Act} {path : List Nat} {p p' : Proc} (h : p.Ok ar B e.eq cb) (hp : p.pc = .waitF)
    (hs : p.step e w a path = some p') : False := by
  obtain ⟨d, g, pc, ks⟩ := p
  obtain rfl : pc = .waitF := hp
  simp only [Proc.Ok] at h
  obtain rfl : ks = [] := h.1
  cases path with
  | nil => cases a <;> simp [Proc.step, Proc.act, Proc.own, Proc.recv, Proc.order, Proc.give] at hs
  | cons i path => simp [Proc.step] at hs

/-- **A step anywhere in the tree** keeps what the process stands for and lowers the bound. -/
theorem step_keeps {e : Env} (hU : Deep e.U) (hfu : 0 < e.fuel) {w : Now} (hw : Fresh ar e cb w.sk) {a : Act} :
    ∀ (path : List Nat) {p p' : Proc}, p.Ok ar B e.eq cb → p.step e w a path = some p' → Keeps ar B e.eq (up cb) p p'
  | [], p, p', h, hs => act_keeps hU hfu hw h (by simpa [Proc.step] using hs)
  | i :: path, .mk d g pc ks, p', h, hs => by
    simp only [Proc.Ok] at h
    obtain ⟨hh, hk⟩ := h
    simp only [Proc.step] at hs
    cases hi : ks[i]? with
    | none => rw [hi] at hs; cases hs
    | some x =>
      obtain ⟨b, k⟩ := x
      have hko : k.Ok ar B e.eq cb := OkL_get hk hi
      rw [hi] at hs
      obtain ⟨k', hk', rfl⟩ := Option.map_eq_some_iff.1 hs
      have ih := step_keeps hU hfu hw path hko hk'
      have hne := ne_of_get hi
      have hOk := OkL_set (OkL_up hk) i (k := (b, k')) ih.ok
      have hmarks : (∀ x ∈ ks, x.1 = true) → ∀ x ∈ ks.set i (b, k'), x.1 = true := by
        intro h1 x hx
        rcases List.mem_or_eq_of_mem_set hx with hx | rfl
        · exact h1 x hx
        · exact h1 (b, k) (List.mem_of_getElem? hi)
      have hW : Waits ks → Waits (ks.set i (b, k')) := by
        rintro ⟨j, y, w1, w2, w3⟩
        refine ⟨j, y, by rw [isNext_set hi]; exact w1, ?_, w3⟩
        rw [List.getElem?_set]
        split
        · rename_i e1; subst e1
          rw [hi] at w2; cases w2
          exact (waits_still hko w3 hk').elim
        · exact w2
      have hset := costL_set (K := max 2 B) (k' := (b, k')) hi
      have hcnt := countP_set' (k' := (b, k')) hi
      have hcost : pc.cost (max 2 B) d (ks.set i (b, k')) = pc.cost (max 2 B) d ks := by
        have : (ks.set i (b, k')).countP (·.1) = ks.countP (·.1) := by dsimp only at hcnt; omega
        unfold Pc.cost
        split <;> simp [this]
      have hlt : (Proc.mk d g pc (ks.set i (b, k'))).cost (max 2 B) < (Proc.mk d g pc ks).cost (max 2 B) := by
        simp only [Proc.cost, hcost]
        have := ih.cost
        dsimp only at *
        omega
      replace hh := hh.up
      cases pc with
      | search s => exact absurd hh.2.2 hne
      | send c n =>
        cases c
        · exact absurd hh hne
        · exact absurd hh.2.2 hne
      | waitF => exact absurd hh hne
      | give s cur bt => exact False.elim hh
      | collect cur bt acc =>
        obtain ⟨h1, h2, h3, ht, hm⟩ := hh
        refine ⟨⟨⟨h1, h2, h3, ht, ?_⟩, hOk⟩, rfl, fun _ => ?_, hlt⟩
        · intro x hx
          rcases List.mem_or_eq_of_mem_set hx with hx | rfl
          · exact hm x hx
          · have := hm _ (List.mem_of_getElem? hi)
            exact ⟨this.1, ih.held.trans this.2⟩
        · have hkk := ih.sat (hm _ (List.mem_of_getElem? hi)).2
          simp only [Proc.sat, satL_iff]
          constructor
          · rintro ⟨x, hx, y⟩
            rcases List.mem_or_eq_of_mem_set hx with hx | rfl
            · exact ⟨x, hx, y⟩
            · exact ⟨_, List.mem_of_getElem? hi, hkk.1 y⟩
          · rintro ⟨x, hx, y⟩
            obtain ⟨j, hj, e1⟩ := List.mem_iff_getElem.1 hx
            have hlt : i < ks.length := (List.getElem?_eq_some_iff.1 hi).1
            by_cases hij : i = j
            · subst hij
              rw [List.getElem?_eq_getElem hj, e1] at hi
              cases hi
              exact ⟨(b, k'), List.mem_set hlt _, hkk.2 y⟩
            · exact ⟨x, List.mem_of_getElem? (i := j) (by rw [List.getElem?_set, if_neg hij, List.getElem?_eq_getElem hj, e1]), y⟩
      | close kill nx =>
        obtain ⟨c1, c2⟩ := hh.close_iff hne
        obtain ⟨c3, c4⟩ := c2 (ks.set i (b, k')) (fun h => hmarks (c1 h))
        exact ⟨⟨c3.1, hOk⟩, rfl, fun _ => ⟨fun _ => (c4 g).2.2, fun _ => (c4 g).1⟩, hlt⟩
      | reply kill nx =>
        obtain ⟨c0, c1, c2⟩ := hh.reply_iff
        obtain ⟨c3, c4⟩ := c2 (ks.set i (b, k')) (fun h => hmarks (c1 h))
        exact ⟨⟨c3.2 (hW c0), hOk⟩, rfl, fun _ => ⟨fun _ => (c4 g).2.1, fun _ => (c4 g).2.2⟩, hlt⟩

/-! ### Progress -/

theorem first_marked : ∀ {ks : List (Bool × Proc)}, done ks = false → ∃ i k, isNext ks i = true ∧ ks[i]? = some (true, k)
  | [], h => by simp [done] at h
  | (true, k) :: ks, _ => ⟨0, k, by simp [isNext, done], rfl⟩
  | (false, k) :: ks, h => by
    have h' : done ks = false := by simpa [done] using h
    obtain ⟨i, k', a, b⟩ := first_marked h'
    exact ⟨i + 1, k', by simpa [isNext, done] using a, by simpa using b⟩

/-- A process can go on unless it waits for its father. -/
theorem can_step {e : Env} (hU : Deep e.U) (hfu : 0 < e.fuel) (hans : Incr.Answers ar e.U) {w : Now} (hw : Fresh ar e cb w.sk) (n : Nat) :
    ∀ {p : Proc}, p.cost (max 2 B) ≤ n → p.Ok ar B e.eq cb → (∃ c m, p.pc = .send c m) ∨ p.pc = .waitF ∨
      ∃ path a p', p.step e w a path = some p' := by
  induction n with
  | zero => intro p h1 h; have := cost_pos h (K := max 2 B); omega
  | succ n ih =>
    intro p hn h
    obtain ⟨d, g, pc, ks⟩ := p
    have hO := h
    simp only [Proc.Ok] at h
    obtain ⟨hh, hk⟩ := h
    have child : ∀ (i : Nat) (b : Bool) (k : Proc), ks[i]? = some (b, k) → k.Ok ar B e.eq cb ∧ (1 ≤ pc.cost (max 2 B) d ks → (∃ c m, k.pc = .send c m) ∨ k.pc = .waitF ∨
        ∃ path a p', k.step e w a path = some p') := by
      intro i b k hi
      have hko : k.Ok ar B e.eq cb := OkL_get hk hi
      refine ⟨hko, fun h1 => ih ?_ hko⟩
      have := costL_erase (K := max 2 B) hi
      simp only [Proc.cost] at hn
      dsimp only at this
      omega
    have up : ∀ (i : Nat) (b : Bool) (k : Proc), ks[i]? = some (b, k) → (∃ path a p', k.step e w a path = some p') → ∃ path a p', (Proc.mk d g pc ks).step e w a path = some p' := by
      rintro i b k hi ⟨path, a, p', hs⟩
      exact ⟨i :: path, a, _, by simp [Proc.step, hi, hs]; rfl⟩
    cases pc with
    | search s =>
      obtain ⟨rfl, hg, rfl⟩ := hh
      obtain ⟨o, ho⟩ := round_some hU hfu hans hw hg
      refine Or.inr (Or.inr ⟨[], .own 0, ?_⟩)
      simp only [Proc.step, Proc.act, Proc.own, ho]
      cases o <;> exact ⟨_, rfl⟩
    | send c m => exact Or.inl ⟨c, m, rfl⟩
    | waitF => exact Or.inr (Or.inl rfl)
    | give s cur bt => exact False.elim hh
    | collect cur bt acc =>
      obtain ⟨rfl, rfl, rfl, ht, hm⟩ := hh
      refine Or.inr (Or.inr ?_)
      cases hks : ks with
      | nil =>
        refine ⟨[], .own 0, ?_⟩
        have e1 : Select.finish (mrg e.fuel) [] none {} = some (.closeByItself, []) := rfl
        simp [Proc.step, Proc.act, Proc.own, done, collected, e1, cleaned, ht.applied, ht.mm, clean_nil hfu]
      | cons x xs =>
        rw [← hks]
        obtain ⟨b, k⟩ := x
        have h0 : ks[0]? = some (b, k) := by rw [hks]; rfl
        obtain ⟨rfl, hheld⟩ := hm _ (List.mem_of_getElem? h0)
        obtain ⟨hko, hc⟩ := child 0 _ k h0
        rcases hc (by simp only [Pc.cost]; omega) with ⟨c, m, hp⟩ | hp | hp
        · refine ⟨[], .recv 0, ?_⟩
          simp only [Proc.step, Proc.act, Proc.recv, h0, hp]
          cases c <;> exact ⟨_, rfl⟩
        · rw [hp] at hheld; cases hheld
        · exact up 0 _ k h0 hp
    | close kill nx =>
      refine Or.inr (Or.inr ?_)
      by_cases hd : done ks = true
      · refine ⟨[], .own 0, ?_⟩
        simp only [Proc.step, Proc.act, Proc.own, hd, if_true]
        cases kill <;> cases nx <;> first | exact False.elim hh | exact ⟨_, rfl⟩
      · obtain ⟨i, k, h1, h2⟩ := first_marked (by simpa using hd)
        obtain ⟨hko, hc⟩ := child i _ k h2
        have hpos : 1 ≤ (Pc.close kill nx).cost (max 2 B) d ks := by
          cases kill <;> cases nx <;> simp only [Pc.cost] <;> omega
        rcases hc hpos with ⟨c, m, hp⟩ | hp | hp
        · refine ⟨[], .recv i, ?_⟩
          simp only [Proc.step, Proc.act, Proc.recv, h1, if_true, h2, hp]
          cases m <;> exact ⟨_, rfl⟩
        · refine ⟨[], .order i, ?_⟩
          obtain ⟨d', g', pc', ks'⟩ := k
          obtain rfl : pc' = .waitF := hp
          simp only [Proc.step, Proc.act, Proc.order, h1, if_true, h2]
          cases kill <;> exact ⟨_, rfl⟩
        · exact up i _ k h2 hp
    | reply kill nx =>
      refine Or.inr (Or.inr ?_)
      obtain ⟨⟨i, k, h1, h2, h3⟩, -⟩ := hh.reply_iff
      refine ⟨[], .order i, ?_⟩
      obtain ⟨d', g', pc', ks'⟩ := k
      obtain rfl : pc' = .waitF := h3
      simp only [Proc.step, Proc.act, Proc.order, h1, if_true, h2, Proc.pc]
      cases kill <;> exact ⟨_, rfl⟩

/-! ### The whole search -/

variable {f : Form}

theorem start_good (hf : Gr ar B eq cb f) (limit : Nat) : Good ar B eq cb { n := limit, lf := [⟨f, []⟩] } := by
  constructor <;> simp [fs, Data.parts, hf]

/-- The bound for the symbols at some time, for formulas with quantifiers (`q`) or without. -/
def lim (q : Bool) (b : Start) (t : Nat) : Option Nat := if q then some (b.sk + t) else none

/-- What the results ask of the Skolem terms, if there are quantifiers: the symbols from `b.sk` on are constants, and the arguments are
metavariables of the branch or of the formula. -/
def Skolem (ar : Nat → Nat) (e : Env) (b : Start) : Prop := (∀ i, b.sk ≤ i → ar i = 0) ∧ ∀ F : Form, F.metas = [] → e.sko [] F = []

theorem up_lim {q : Bool} {b : Start} {t : Nat} : up (lim q b t) = lim q b (t + 1) := by cases q <;> rfl

theorem fresh_lim {q : Bool} {b : Start} {e : Env} (h : q = true → Skolem ar e b) (t : Nat) : Fresh ar e (lim q b t) (b.now t).sk := by
  intro c hc
  cases q with
  | false => cases hc
  | true =>
    cases hc
    exact ⟨rfl, (h rfl).1 _ (Nat.le_add_right _ _), (h rfl).2⟩

theorem run_keeps {e : Env} (hU : Deep e.U) (hfu : 0 < e.fuel) {q : Bool} {b : Start} (hw : q = true → Skolem ar e b) : ∀ (cs : List Choice)
    {s s' : Sys}, s.root.Ok ar B e.eq (lim q b s.time) →
    s.root.pc.held = false → (∀ c, s.result = some c → (s.root.sat ↔ c = false)) → s.run e b cs = some s' →
    s'.root.Ok ar B e.eq (lim q b s'.time) ∧ s'.root.pc.held = false ∧ (s'.root.sat ↔ s.root.sat) ∧ (∀ c, s'.result = some c → (s'.root.sat ↔ c = false)) ∧
      cs.length + s'.root.cost (max 2 B) + (if s'.result = none then 1 else 0) ≤ s.root.cost (max 2 B) + (if s.result = none then 1 else 0)
  | [], s, s', h1, h2, h3, hs => by
    cases hs
    exact ⟨h1, h2, Iff.rfl, h3, by simp⟩
  | c :: cs, s, s', h1, h2, h3, hs => by
    simp only [Sys.run] at hs
    cases hc : s.step e b c with
    | none => rw [hc] at hs; cases hs
    | some t =>
      rw [hc] at hs
      cases c with
      | proc path a =>
        simp only [Sys.step] at hc
        split at hc
        · rename_i hr
          obtain ⟨p', hp, rfl⟩ := Option.map_eq_some_iff.1 hc
          have K := step_keeps hU hfu (fresh_lim hw s.time) path h1 hp
          rw [up_lim] at K
          obtain ⟨a1, a2, a3, a4, a5⟩ := run_keeps hU hfu hw cs (s := { s with root := p', time := s.time + 1 }) K.ok (K.held.trans h2)
            (by intro c h; rw [hr] at h; cases h) hs
          refine ⟨a1, a2, a3.trans (K.sat h2), a4, ?_⟩
          have := K.cost
          simp only [List.length_cons]
          dsimp only at *
          omega
        · cases hc
      | result =>
        simp only [Sys.step] at hc
        split at hc
        · rename_i hr
          split at hc
          · rename_i c n hpc
            cases hc
            have hsat : s.root.sat ↔ c = false := by
              obtain ⟨⟨d, g, pc, ks⟩, tm, res⟩ := s
              obtain rfl : pc = .send c n := hpc
              simp [Proc.sat]
            obtain ⟨a1, a2, a3, a4, a5⟩ := run_keeps hU hfu hw cs (s := { s with result := some c, time := s.time + 1 }) (by
              have := Ok.up h1; rwa [up_lim] at this) h2 (by intro c' h; cases h; exact hsat) hs
            refine ⟨a1, a2, a3, a4, ?_⟩
            simp only [hr, if_true, List.length_cons]
            simp only [reduceCtorEq, if_false] at a5
            omega
          · cases hc
        · cases hc

theorem start_ok {q : Bool} {b : Start} (hf : Gr ar B eq (lim q b 0) f) (limit : Nat) :
    (start limit f).root.Ok ar B eq (lim q b 0) ∧ (start limit f).root.pc.held = false ∧
    ((start limit f).root.sat ↔ ∃ I : Mod, Form.holds I.I I.μ I.ρ f) ∧
    (start limit f).root.cost (max 2 B) = (3 * max 2 B + 6) ^ (weight true f + 1) := by
  refine ⟨⟨⟨rfl, start_good hf limit, rfl⟩, trivial⟩, rfl, ?_, ?_⟩
  · simp [start, fresh, Proc.sat, Data.holds, Holds, fs, Data.parts]
  · simp [start, fresh, Proc.cost, Pc.cost, costL, Data.wt, Data.parts, fs, weightL]

section
variable {e : Env} (hU : Deep e.U) (hfu : 0 < e.fuel) {q : Bool} {b : Start} (hw : q = true → Skolem ar e b) (limit : Nat)
  (hf : Gr ar B e.eq (lim q b 0) f)
include hU hfu hw hf

theorem run_ends (cs : List Choice) (s : Sys) (h : (start limit f).run e b cs = some s) : cs.length ≤ (3 * max 2 B + 6) ^ (weight true f + 1) := by
  obtain ⟨s1, s2, s3, s4⟩ := start_ok hf limit
  obtain ⟨r1, -, -, -, r5⟩ := run_keeps hU hfu hw cs s1 s2 (by intro c hc; cases hc) h
  have := cost_pos r1 (K := max 2 B)
  rw [s4] at r5
  have e1 : (start limit f).result = none := rfl
  rw [if_pos e1] at r5
  omega

theorem run_exact (closed : Bool) (h : Verdict e b limit f closed) :
    closed = true ↔ ∀ (D : Type) (I : Interp D) (μ ρ : Nat → D), ¬ Form.holds I μ ρ f := by
  obtain ⟨s, ⟨cs, hs⟩, hr⟩ := h
  obtain ⟨s1, s2, s3, -⟩ := start_ok hf limit
  obtain ⟨-, -, r3, r4, -⟩ := run_keeps hU hfu hw cs s1 s2 (by intro c hc; cases hc) hs
  have key : (∃ I : Mod, Form.holds I.I I.μ I.ρ f) ↔ closed = false := s3.symm.trans (r3.symm.trans (r4 _ hr))
  constructor
  · rintro rfl D I μ ρ hI
    have := key.1 ⟨⟨D, I, μ, ρ⟩, hI⟩
    cases this
  · intro hno
    by_contra hc
    obtain ⟨I, hI⟩ := key.2 (by simpa using hc)
    exact hno _ I.I _ _ hI

theorem run_progress (hans : Incr.Answers ar e.U) (cs : List Choice) (s : Sys) (h : (start limit f).run e b cs = some s)
    (hr : s.result = none) : ∃ c s', s.step e b c = some s' := by
  obtain ⟨s1, s2, s3, -⟩ := start_ok hf limit
  obtain ⟨r1, r2, -⟩ := run_keeps hU hfu hw cs s1 s2 (by intro c hc; cases hc) h
  rcases can_step hU hfu hans (fresh_lim hw s.time) _ (Nat.le_refl _) r1 with ⟨c, m, hp⟩ | hp | ⟨path, a, p', hp⟩
  · exact ⟨.result, _, by simp only [Sys.step, hr, if_true, hp]; rfl⟩
  · rw [hp] at r2; cases r2
  · exact ⟨.proc path a, _, by simp only [Sys.step, hr, if_true, hp]; rfl⟩

theorem run_decides (hans : Incr.Answers ar e.U) (cs : List Choice) (s : Sys) (h : (start limit f).run e b cs = some s) :
    ∃ cs' s' closed, (start limit f).run e b (cs ++ cs') = some s' ∧ s'.result = some closed ∧
      (closed = true ↔ ∀ (D : Type) (I : Interp D) (μ ρ : Nat → D), ¬ Form.holds I μ ρ f) := by
  have app : ∀ (l l' : List Choice) (t u : Sys), t.run e b l = some u → t.run e b (l ++ l') = u.run e b l' := by
    intro l
    induction l with
    | nil => intro l' t u h; cases h; rfl
    | cons c l ih =>
      intro l' t u h
      simp only [Sys.run, List.cons_append] at h ⊢
      split at h
      · exact ih _ _ _ h
      · cases h
  have main : ∀ (n : Nat) (cs : List Choice) (s : Sys), (start limit f).run e b cs = some s → (3 * max 2 B + 6) ^ (weight true f + 1) - cs.length ≤ n →
      ∃ cs' s' closed, (start limit f).run e b (cs ++ cs') = some s' ∧ s'.result = some closed := by
    intro n
    induction n with
    | zero =>
      intro cs s h hn
      cases hr : s.result with
      | some c => exact ⟨[], s, c, by simpa using h, hr⟩
      | none =>
        obtain ⟨c, s', hc⟩ := run_progress hU hfu hw limit hf hans cs s h hr
        have h' : (start limit f).run e b (cs ++ [c]) = some s' := by rw [app _ _ _ _ h]; simp [Sys.run, hc]
        have := run_ends hU hfu hw limit hf _ _ h'
        simp only [List.length_append, List.length_cons, List.length_nil] at this
        omega
    | succ n ih =>
      intro cs s h hn
      cases hr : s.result with
      | some c => exact ⟨[], s, c, by simpa using h, hr⟩
      | none =>
        obtain ⟨c, s', hc⟩ := run_progress hU hfu hw limit hf hans cs s h hr
        have h' : (start limit f).run e b (cs ++ [c]) = some s' := by rw [app _ _ _ _ h]; simp [Sys.run, hc]
        obtain ⟨cs', t, cl, a1, a2⟩ := ih (cs ++ [c]) s' h' (by simp only [List.length_append, List.length_cons, List.length_nil]; omega)
        exact ⟨c :: cs', t, cl, by simpa using a1, a2⟩
  obtain ⟨cs', s', cl, h1, h2⟩ := main _ cs s h (Nat.le_refl _)
  exact ⟨cs', s', cl, h1, h2, run_exact hU hfu hw limit hf cl ⟨s', ⟨_, h1⟩, h2⟩⟩

end

/-! ### Ground formulas -/

/-- **C65, ground formulas, the search ends**: no schedule is longer than a bound that depends on the formula only. -/
theorem C65_ground_ends {e : Env} (hU : Deep e.U) (hfu : 0 < e.fuel) (b : Start) (limit : Nat) (hf : Plain ar B f) (hq : NoPred e.eq f)
    (cs : List Choice) (s : Sys) (h : (start limit f).run e b cs = some s) : cs.length ≤ (3 * max 2 B + 6) ^ (weight true f + 1) :=
  run_ends hU hfu (q := false) (fun h => nomatch h) limit ⟨hf, hq⟩ cs s h

/-- **C65, ground formulas, the verdict is exact**: whatever the schedule, the search says "closed" exactly when the
formula has no model. -/
theorem C65_ground_exact {e : Env} (hU : Deep e.U) (hfu : 0 < e.fuel) (b : Start) (limit : Nat) (hf : Plain ar B f) (hq : NoPred e.eq f)
    (closed : Bool) (h : Verdict e b limit f closed) : closed = true ↔ ∀ (D : Type) (I : Interp D) (μ ρ : Nat → D), ¬ Form.holds I μ ρ f :=
  run_exact hU hfu (q := false) (fun h => nomatch h) limit ⟨hf, hq⟩ closed h

/-- **C65, ground formulas**: what the search reports as closed has no model, in any universe. -/
theorem C65_ground_partial {e : Env} (hU : Deep e.U) (hfu : 0 < e.fuel) (b : Start) (limit : Nat) (hf : Plain ar B f) (hq : NoPred e.eq f)
    (h : Verdict e b limit f true) (D : Type u) (I : Interp D) (μ ρ : Nat → D) : ¬ Form.holds I μ ρ f := by
  intro hh
  exact (C65_ground_exact hU hfu b limit hf hq true h).1 rfl _ _ _ _ ((holds_herbrand I μ ρ hf).2 hh)

/-- **C65, ground formulas, no deadlock and no crash**: as long as there is no result, some process can go on or the result can be
taken, if the index answers for ground formulas (`C30_ground_answers`). -/
theorem C65_ground_progress {e : Env} (hU : Deep e.U) (hfu : 0 < e.fuel) (hans : Incr.Answers ar e.U) (b : Start) (limit : Nat)
    (hf : Plain ar B f) (hq : NoPred e.eq f) (cs : List Choice) (s : Sys) (h : (start limit f).run e b cs = some s) (hr : s.result = none) :
    ∃ c s', s.step e b c = some s' :=
  run_progress hU hfu (q := false) (fun h => nomatch h) limit ⟨hf, hq⟩ hans cs s h hr

/-- **C65, ground formulas, a decision procedure**: every run can be continued to a verdict, and this verdict is right. -/
theorem C65_ground_decides {e : Env} (hU : Deep e.U) (hfu : 0 < e.fuel) (hans : Incr.Answers ar e.U) (b : Start) (limit : Nat)
    (hf : Plain ar B f) (hq : NoPred e.eq f) (cs : List Choice) (s : Sys) (h : (start limit f).run e b cs = some s) :
    ∃ cs' s' closed, (start limit f).run e b (cs ++ cs') = some s' ∧ s'.result = some closed ∧
      (closed = true ↔ ∀ (D : Type) (I : Interp D) (μ ρ : Nat → D), ¬ Form.holds I μ ρ f) :=
  run_decides hU hfu (q := false) (fun h => nomatch h) limit ⟨hf, hq⟩ hans cs s h

/-! ### Formulas the delta rule is enough for -/

/-- **C65, formulas whose quantifiers all assert the existence of something**: the search ends, whatever the schedule. -/
theorem C65_delta_ends {e : Env} (hU : Deep e.U) (hfu : 0 < e.fuel) (b : Start) (hw : Skolem ar e b) (limit : Nat) (hf : Exist ar B true f)
    (hwf : WF f b.sk) (hq : NoPred e.eq f) (cs : List Choice) (s : Sys) (h : (start limit f).run e b cs = some s) :
    cs.length ≤ (3 * max 2 B + 6) ^ (weight true f + 1) :=
  run_ends hU hfu (q := true) (fun _ => hw) limit ⟨⟨hf, hwf⟩, hq⟩ cs s h

/-- **C65, formulas whose quantifiers all assert the existence of something**: the verdict is exact, whatever the schedule. -/
theorem C65_delta_exact {e : Env} (hU : Deep e.U) (hfu : 0 < e.fuel) (b : Start) (hw : Skolem ar e b) (limit : Nat) (hf : Exist ar B true f)
    (hwf : WF f b.sk) (hq : NoPred e.eq f) (closed : Bool) (h : Verdict e b limit f closed) :
    closed = true ↔ ∀ (D : Type) (I : Interp D) (μ ρ : Nat → D), ¬ Form.holds I μ ρ f :=
  run_exact hU hfu (q := true) (fun _ => hw) limit ⟨⟨hf, hwf⟩, hq⟩ closed h

/-- **C65, formulas whose quantifiers all assert the existence of something**: every run can be continued to a verdict, and it is right. -/
theorem C65_delta_decides {e : Env} (hU : Deep e.U) (hfu : 0 < e.fuel) (hans : Incr.Answers ar e.U) (b : Start) (hw : Skolem ar e b)
    (limit : Nat) (hf : Exist ar B true f) (hwf : WF f b.sk) (hq : NoPred e.eq f) (cs : List Choice) (s : Sys)
    (h : (start limit f).run e b cs = some s) : ∃ cs' s' closed, (start limit f).run e b (cs ++ cs') = some s' ∧ s'.result = some closed ∧
      (closed = true ↔ ∀ (D : Type) (I : Interp D) (μ ρ : Nat → D), ¬ Form.holds I μ ρ f) :=
  run_decides hU hfu (q := true) (fun _ => hw) limit ⟨⟨hf, hwf⟩, hq⟩ hans cs s h

namespace Bad
/-- `(p(a) ∨ q(a)) ∧ ¬p(a) ∧ ¬q(a)`. -/
def groundNo : Form := .and [.or [P 10 [c 1], P 11 [c 1]], .neg (P 10 [c 1]), .neg (P 11 [c 1])]
/-- `(p(a) ∨ q(a)) ∧ ¬p(a) ∧ ¬q(b)`. -/
def groundYes : Form := .and [.or [P 10 [c 1], P 11 [c 1]], .neg (P 10 [c 1]), .neg (P 11 [c 2])]
/-- `¬∀X (p(X) ⇒ q(X) ∨ p(X))`. -/
def deltaNo : Form := .neg (.all [X 50] (.imp (P 10 [v 50]) (.or [P 11 [v 50], P 10 [v 50]])))
/-- `∃X p(X) ∧ ∃Y ¬p(Y)`. -/
def deltaYes : Form := .and [.ex [X 50] (P 10 [v 50]), .ex [X 51] (.neg (P 10 [v 51]))]
end Bad
open Bad

/-- Two formulas that meet the hypotheses; the search closes one of them. -/
example : Deep env.U ∧ 0 < env.fuel ∧ Plain (fun p => if p < 10 then 0 else 1) 3 groundNo ∧ NoPred env.eq groundNo ∧
    Plain (fun p => if p < 10 then 0 else 1) 3 groundYes ∧ NoPred env.eq groundYes ∧
    Verdict env ⟨0, 100⟩ 5 groundNo true ∧ Verdict env ⟨0, 100⟩ 5 groundYes false := by
  refine ⟨realU_deep 18, by decide, ?_, ?_, ?_, ?_, ?_, ?_⟩
  · simp [groundNo, P, c, Plain, PlainL, Incr.TPlain, TPlainL]
  · simp [groundNo, P, env, NoPred, NoPredL]
  · simp [groundYes, P, c, Plain, PlainL, Incr.TPlain, TPlainL]
  · simp [groundYes, P, env, NoPred, NoPredL]
  · exact verdict_of _ [r, r, o 0, recv 0, o 0, recv 0, r, r, .result] _ (by decide +kernel)
  · exact verdict_of _ [r, r, o 0, recv 0, o 0, recv 0, r, r, .result] _ (by decide +kernel)

/-- An index as `C65_ground_progress` and `C65_ground_decides` ask for. -/
example : Deep Incr.anyU ∧ Incr.Answers (fun p => if p < 10 then 0 else 1) Incr.anyU := ⟨Incr.anyU_deep, Incr.anyU_answers⟩

/-- Two formulas with quantifiers that meet the hypotheses; the search closes one of them. -/
example : Skolem (fun p => if p = 10 ∨ p = 11 then 1 else 0) env ⟨0, 100⟩ ∧ Exist (fun p => if p = 10 ∨ p = 11 then 1 else 0) 3 true deltaNo ∧
    WF deltaNo 100 ∧ NoPred env.eq deltaNo ∧ Exist (fun p => if p = 10 ∨ p = 11 then 1 else 0) 3 true deltaYes ∧
    WF deltaYes 100 ∧ NoPred env.eq deltaYes ∧ Verdict env ⟨0, 100⟩ 5 deltaNo true ∧ Verdict env ⟨0, 100⟩ 5 deltaYes false := by
  refine ⟨⟨?_, fun _ _ => rfl⟩, ?_, ?_, ?_, ?_, ?_, ?_, ?_, ?_⟩
  · intro i hi
    simp only [Start.sk] at hi
    simp only [ite_eq_right_iff, Nat.add_eq_zero_iff]
    omega
  · simp [deltaNo, P, v, Exist, ExistL, TOk, TOkL]
  · refine ⟨?_, by decide +kernel, by decide +kernel, by decide +kernel, ?_⟩
    · simp [deltaNo, FO, FOL, P, X, isTType]
    · have : deltaNo.fvs = [] := by decide +kernel
      simp [this]
  · simp [deltaNo, P, env, NoPred, NoPredL]
  · simp [deltaYes, P, v, Exist, ExistL, TOk, TOkL]
  · refine ⟨?_, by decide +kernel, by decide +kernel, by decide +kernel, ?_⟩
    · simp [deltaYes, FO, FOL, P, X, isTType]
    · have : deltaYes.fvs = [] := by decide +kernel
      simp [this]
  · simp [deltaYes, P, env, NoPred, NoPredL]
  · exact verdict_of _ [r, r, r, r, .result] _ (by decide +kernel)
  · exact verdict_of _ [r, r, r, r, .result] _ (by decide +kernel)

end Verif.Search.Main
