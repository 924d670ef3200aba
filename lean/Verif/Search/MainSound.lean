import Verif.Search.MainGroundRun
/-!
# C65: when the verdict "closed" of the main search is right

A scheme for proofs of soundness. `G t` describes the branches that can occur at time `t`, `S` says that a branch has a model. If no
round of the search on such a branch loses the model (`Keeping`), and no branch of this kind asks its father for a substitution, then
the search says "closed" only of branches without a model, whatever the schedule.
-/

namespace Verif.Search.Main.Sound
open Verif.AST Verif.Search Verif.Unif Incr

variable {G : Nat → Data → Prop} {S : Data → Prop} {t : Nat}

/-- What a round may lead to. -/
def RoundOk (G : Nat → Data → Prop) (S : Data → Prop) (t : Nat) (d : Data) : Out → Prop
  | .again d' => G t d' ∧ (S d → S d')
  | .answer true need d' => need = false ∧ Tidy d' ∧ ¬ S d
  | .answer false _ _ => True
  | .split d' ds => Tidy d' ∧ (∀ k ∈ ds, G t k) ∧ (S d → ∃ k ∈ ds, S k)

/-- No round loses a model. -/
structure Keeping (e : Env) (b : Start) (G : Nat → Data → Prop) (S : Data → Prop) : Prop where
  mono : ∀ t d, G t d → G (t + 1) d
  round : ∀ t d o, G t d → round e (b.now t) [] d = some o → RoundOk G S (t + 1) d o

/-- The states a process can be in. -/
def Here (G : Nat → Data → Prop) (t : Nat) (d : Data) (ks : List (Bool × Proc)) : Pc → Prop
  | .search s => s = [] ∧ G t d ∧ ks = []
  | .send true n => n = false ∧ Tidy d ∧ ks = []
  | .send false _ => ks = []
  | .waitF => ks = []
  | .collect cur bt acc => cur = [] ∧ bt = [] ∧ acc = {} ∧ Tidy d ∧ ∀ k ∈ ks, k.1 = true ∧ k.2.pc.held = false
  | .give _ _ _ => False
  | .close true (.send true n) => n = false ∧ Tidy d ∧ ks = []
  | .close true (.send false _) => ∀ k ∈ ks, k.1 = true
  | .close true .wait => ∀ k ∈ ks, k.1 = true
  | .close false .giveUp => True
  | .close _ _ => False
  | .reply true (.send false _) => ∀ k ∈ ks, k.1 = true
  | .reply true .wait => ∀ k ∈ ks, k.1 = true
  | .reply false .giveUp => True
  | .reply _ _ => False

mutual
/-- The process and its children are in such states. -/
def Ok (G : Nat → Data → Prop) (t : Nat) : Proc → Prop
  | .mk d _ pc ks => Here G t d ks pc ∧ OkL G t ks
def OkL (G : Nat → Data → Prop) (t : Nat) : List (Bool × Proc) → Prop
  | [] => True
  | k :: ks => OkP G t k ∧ OkL G t ks
def OkP (G : Nat → Data → Prop) (t : Nat) : Bool × Proc → Prop
  | (_, p) => Ok G t p
end

theorem OkL_iff {ks : List (Bool × Proc)} : OkL G t ks ↔ ∀ k ∈ ks, Ok G t k.2 := by
  induction ks with
  | nil => simp [OkL]
  | cons k ks ih => obtain ⟨b, p⟩ := k; simp [OkL, OkP, ih]

mutual
/-- Some branch of the process has a model. -/
def sat (S : Data → Prop) : Proc → Prop
  | .mk d _ pc ks => match pc with
    | .search _ => S d
    | .send c _ => c = false
    | .collect _ _ _ => satL S ks
    | .close _ (.send true _) => False
    | _ => True
def satL (S : Data → Prop) : List (Bool × Proc) → Prop
  | [] => False
  | k :: ks => satP S k ∨ satL S ks
def satP (S : Data → Prop) : Bool × Proc → Prop
  | (_, p) => sat S p
end

theorem satL_iff {ks : List (Bool × Proc)} : satL S ks ↔ ∃ k ∈ ks, sat S k.2 := by
  induction ks with
  | nil => simp [satL]
  | cons k ks ih => obtain ⟨b, p⟩ := k; simp [satL, satP, ih]

theorem OkL_all {ks : List (Bool × Proc)} (h : OkL G t ks) : OkL G t (all ks) := by
  rw [OkL_iff] at h ⊢
  intro k hk
  obtain ⟨-, x, hx, e⟩ := mem_all hk
  rw [e]; exact h x hx

theorem OkL_erase {ks : List (Bool × Proc)} (h : OkL G t ks) (i : Nat) : OkL G t (ks.eraseIdx i) := by
  rw [OkL_iff] at h ⊢
  exact fun k hk => h k (List.mem_of_mem_eraseIdx hk)

theorem OkL_set {ks : List (Bool × Proc)} (h : OkL G t ks) (i : Nat) {k : Bool × Proc} (hk : Ok G t k.2) : OkL G t (ks.set i k) := by
  rw [OkL_iff] at h ⊢
  intro x hx
  rcases List.mem_or_eq_of_mem_set hx with hx | rfl
  · exact h x hx
  · exact hk

theorem OkL_get {ks : List (Bool × Proc)} (h : OkL G t ks) {i : Nat} {k : Bool × Proc} (hk : ks[i]? = some k) : Ok G t k.2 :=
  OkL_iff.1 h k (List.mem_of_getElem? hk)

theorem sent_ok {p : Proc} (h : Ok G t p) {c n : Bool} (hp : p.pc = .send c n) : Ok G t p.sent := by
  obtain ⟨d, g, pc, ks⟩ := p
  obtain rfl : pc = .send c n := hp
  have hk : ks = [] := by
    have := h
    simp only [Ok] at this
    cases c
    · exact this.1
    · exact this.1.2.2
  subst hk
  simp [Proc.sent, Ok, Here, OkL]

theorem hold_ok {p p' : Proc} (h : Ok G t p) (hp : p.hold = some p') : Ok G t p' := by
  obtain ⟨d, g, pc, ks⟩ := p
  have key : ∀ g', Ok G t (.mk d g' (.close true .wait) (all ks)) := by
    intro g'
    simp only [Ok] at h
    exact ⟨fun k hk => (mem_all hk).1, OkL_all h.2⟩
  cases pc <;> simp only [Proc.hold, Option.some.injEq, reduceCtorEq] at hp <;> subst hp <;> exact key _

theorem Here.up (hm : ∀ t d, G t d → G (t + 1) d) {d : Data} {ks : List (Bool × Proc)} {pc : Pc} (h : Here G t d ks pc) :
    Here G (t + 1) d ks pc := by
  unfold Here at h ⊢
  split at h <;> first | exact h | exact ⟨h.1, hm _ _ h.2.1, h.2.2⟩

mutual
theorem Ok.up (hm : ∀ t d, G t d → G (t + 1) d) : ∀ {p : Proc}, Ok G t p → Ok G (t + 1) p
  | .mk d g pc ks, h => by
    simp only [Ok] at h ⊢
    exact ⟨h.1.up hm, OkL_up hm h.2⟩
theorem OkL_up (hm : ∀ t d, G t d → G (t + 1) d) : ∀ {ks : List (Bool × Proc)}, OkL G t ks → OkL G (t + 1) ks
  | [], h => trivial
  | (b, p) :: ks, h => by
    simp only [OkL, OkP] at h ⊢
    exact ⟨Ok.up hm h.1, OkL_up hm h.2⟩
end

/-- What a step of a process keeps. -/
structure Keeps (G : Nat → Data → Prop) (S : Data → Prop) (t : Nat) (p p' : Proc) : Prop where
  ok : Ok G t p'
  held : p'.pc.held = p.pc.held
  sat : p.pc.held = false → sat S p → sat S p'

section
variable {e : Env} {b : Start}

theorem own_keeps (hK : Keeping e b G S) (hfu : 0 < e.fuel) {rnd : Nat} {p p' : Proc} (h : Ok G t p)
    (hs : p.own e (b.now t) rnd = some p') : Keeps G S (t + 1) p p' := by
  obtain ⟨d, g, pc, ks⟩ := p
  simp only [Ok] at h
  obtain ⟨hh, hk⟩ := h
  replace hk := OkL_up hK.mono hk
  cases pc with
  | search s =>
    obtain ⟨rfl, hg, rfl⟩ := hh
    simp only [Proc.own] at hs
    cases hr : round e (b.now t) [] d with
    | none => rw [hr] at hs; cases hs
    | some o =>
      have ho := hK.round t d o hg hr
      rw [hr] at hs
      cases o with
      | again d' =>
        cases hs
        exact ⟨⟨⟨rfl, ho.1, rfl⟩, trivial⟩, rfl, fun _ h => by simp only [sat] at h ⊢; exact ho.2 h⟩
      | answer c n d' =>
        cases hs
        cases c with
        | true =>
          obtain ⟨rfl, b, c⟩ := ho
          exact ⟨⟨⟨rfl, b, rfl⟩, trivial⟩, rfl, fun _ h => absurd (by simpa [sat] using h) c⟩
        | false => exact ⟨⟨rfl, trivial⟩, rfl, fun _ h => by simp [sat]⟩
      | split d' ds =>
        cases hs
        obtain ⟨a, c, q⟩ := ho
        refine ⟨⟨⟨rfl, rfl, rfl, a, ?_⟩, ?_⟩, rfl, fun _ h => ?_⟩
        · intro k hk
          obtain ⟨x, hx, rfl⟩ := List.mem_map.1 hk
          exact ⟨rfl, rfl⟩
        · rw [OkL_iff]
          intro k hk
          obtain ⟨x, hx, rfl⟩ := List.mem_map.1 hk
          exact ⟨⟨rfl, c x hx, rfl⟩, trivial⟩
        · simp only [sat] at h
          obtain ⟨x, hx, hI⟩ := q h
          simp only [sat, satL_iff, List.mem_map]
          exact ⟨_, ⟨x, hx, rfl⟩, by simpa [fresh, sat] using hI⟩
  | send c n => simp [Proc.own] at hs
  | waitF => simp [Proc.own] at hs
  | collect cur bt acc =>
    obtain ⟨rfl, rfl, rfl, ht, hm⟩ := hh
    simp only [Proc.own] at hs
    split at hs
    · rename_i hd
      obtain rfl := done_nil hd fun k hk => (hm k hk).1
      have e1 : Select.finish (mrg e.fuel) [] none {} = some (.closeByItself, []) := rfl
      simp only [collected, e1, cleaned, ht.applied, ht.mm, clean_nil hfu, if_true, Option.some.injEq] at hs
      subst hs
      exact ⟨⟨⟨rfl, ⟨rfl, rfl, rfl⟩, rfl⟩, trivial⟩, rfl, fun _ h => by simp [sat, satL] at h⟩
    · cases hs
  | give s cur bt => exact absurd hh (by simp [Here])
  | close kill nx =>
    simp only [Proc.own] at hs
    split at hs
    · rename_i hd
      cases kill <;> cases nx <;> try exact False.elim hh
      · simp only [closed, Option.some.injEq] at hs; subst hs
        exact ⟨⟨fun k hk => (mem_all hk).1, OkL_all hk⟩, rfl, fun _ _ => by simp [sat]⟩
      · rename_i c n
        simp only [closed, Option.some.injEq] at hs; subst hs
        cases c with
        | true =>
          obtain ⟨rfl, ht, rfl⟩ := hh
          exact ⟨⟨⟨rfl, ht, rfl⟩, hk⟩, rfl, fun _ h => by simp [sat] at h⟩
        | false =>
          obtain rfl := done_nil hd hh
          exact ⟨⟨rfl, hk⟩, rfl, fun _ _ => by simp [sat]⟩
      · simp only [closed, Option.some.injEq] at hs; subst hs
        obtain rfl := done_nil hd hh
        exact ⟨⟨rfl, hk⟩, rfl, fun h => by simp [Proc.pc, Pc.held] at h⟩
    · cases hs
  | reply kill nx => simp [Proc.own] at hs

theorem Ok.sends {p : Proc} (h : Ok G t p) {n : Bool} (hp : p.pc = .send true n) : n = false ∧ p.sends = [] ∧ ¬ sat S p := by
  obtain ⟨d, g, pc, ks⟩ := p
  obtain rfl : pc = .send true n := hp
  simp only [Ok] at h
  exact ⟨h.1.1, h.1.2.1.sends, by simp [sat]⟩

theorem Here.close_iff {d : Data} {ks : List (Bool × Proc)} {kill : Bool} {nx : Next} (h : Here G t d ks (.close kill nx)) (hne : ks ≠ []) :
    (kill = true → ∀ k ∈ ks, k.1 = true) ∧ ∀ ks', (kill = true → ∀ k ∈ ks', k.1 = true) →
      Here G t d ks' (.close kill nx) ∧ Here G t d ks' (.reply kill nx) ∧
      ∀ g, sat S (Proc.mk d g (.close kill nx) ks') ∧ sat S (Proc.mk d g (.reply kill nx) ks') := by
  cases kill <;> cases nx <;> (try exact False.elim h)
  · exact ⟨by simp, fun ks' _ => ⟨trivial, trivial, fun g => ⟨by simp [sat], by simp [sat]⟩⟩⟩
  · rename_i c n
    cases c
    · exact ⟨fun _ => h, fun ks' h' => ⟨h' rfl, h' rfl, fun g => ⟨by simp [sat], by simp [sat]⟩⟩⟩
    · exact absurd h.2.2 hne
  · exact ⟨fun _ => h, fun ks' h' => ⟨h' rfl, h' rfl, fun g => ⟨by simp [sat], by simp [sat]⟩⟩⟩

theorem Here.reply_iff {d : Data} {ks : List (Bool × Proc)} {kill : Bool} {nx : Next} (h : Here G t d ks (.reply kill nx)) :
    (kill = true → ∀ k ∈ ks, k.1 = true) ∧ ∀ ks', (kill = true → ∀ k ∈ ks', k.1 = true) →
      Here G t d ks' (.close kill nx) ∧ Here G t d ks' (.reply kill nx) ∧
      ∀ g, sat S (Proc.mk d g (.close kill nx) ks') ∧ sat S (Proc.mk d g (.reply kill nx) ks') := by
  cases kill <;> cases nx <;> (try exact False.elim h)
  · exact ⟨by simp, fun ks' _ => ⟨trivial, trivial, fun g => ⟨by simp [sat], by simp [sat]⟩⟩⟩
  · rename_i c n
    cases c
    · exact ⟨fun _ => h, fun ks' h' => ⟨h' rfl, h' rfl, fun g => ⟨by simp [sat], by simp [sat]⟩⟩⟩
    · exact False.elim h
  · exact ⟨fun _ => h, fun ks' h' => ⟨h' rfl, h' rfl, fun g => ⟨by simp [sat], by simp [sat]⟩⟩⟩

theorem recv_keeps {i : Nat} {p p' : Proc} (h : Ok G t p) (hs : p.recv i = some p') : Keeps G S t p p' := by
  obtain ⟨d, g, pc, ks⟩ := p
  simp only [Ok] at h
  obtain ⟨hh, hk⟩ := h
  cases pc with
  | search s => simp [Proc.recv] at hs
  | send c n => simp [Proc.recv] at hs
  | waitF => simp [Proc.recv] at hs
  | give s cur bt => exact False.elim hh
  | reply kill nx => simp [Proc.recv] at hs
  | collect cur bt acc =>
    obtain ⟨rfl, rfl, rfl, ht, hm⟩ := hh
    simp only [Proc.recv] at hs
    cases hi : ks[i]? with
    | none => rw [hi] at hs; cases hs
    | some x =>
      obtain ⟨b, k⟩ := x
      have hko : Ok G t k := OkL_get hk hi
      obtain rfl : b = true := (hm _ (List.mem_of_getElem? hi)).1
      rw [hi] at hs
      simp only at hs
      split at hs
      · rename_i need hpc
        obtain ⟨rfl, h1, h2⟩ := Ok.sends (S := S) hko hpc
        cases hs
        refine ⟨⟨⟨rfl, rfl, by rw [h1]; rfl, ht, fun x hx => hm x (List.mem_of_mem_eraseIdx hx)⟩, OkL_erase hk i⟩, rfl, fun _ => ?_⟩
        simp only [sat, satL_iff, keep, Bool.false_eq_true, if_false]
        rintro ⟨x, hx, y⟩
        obtain ⟨j, hj, e⟩ := List.mem_iff_getElem.1 hx
        refine ⟨x, List.mem_eraseIdx_iff_getElem?.2 ⟨j, ?_, by rw [List.getElem?_eq_getElem hj, e]⟩, y⟩
        rintro rfl
        rw [List.getElem?_eq_getElem hj, e] at hi
        cases hi
        exact h2 y
      · rename_i need hpc
        cases hs
        refine ⟨⟨trivial, OkL_all ?_⟩, rfl, fun _ _ => by simp [sat]⟩
        unfold keep
        split
        · exact OkL_set hk i (sent_ok hko hpc)
        · exact OkL_erase hk i
      · cases hs
  | close kill nx =>
    simp only [Proc.recv] at hs
    split at hs
    · cases hi : ks[i]? with
      | none => rw [hi] at hs; cases hs
      | some x =>
        obtain ⟨b, k⟩ := x
        have hko : Ok G t k := OkL_get hk hi
        rw [hi] at hs
        cases b with
        | false => cases hs
        | true =>
          simp only at hs
          obtain ⟨c1, c2⟩ := hh.close_iff (S := S) (ne_of_get hi)
          split at hs
          · rename_i c hpc
            cases hs
            obtain ⟨c3, c4, c5⟩ := c2 (ks.set i (true, k.sent)) (by
              intro hkill x hx
              rcases List.mem_or_eq_of_mem_set hx with hx | rfl
              · exact c1 hkill x hx
              · rfl)
            exact ⟨⟨c4, OkL_set hk i (sent_ok hko hpc)⟩, held_reply, fun _ _ => (c5 g).2⟩
          · rename_i c hpc
            cases hs
            obtain ⟨c3, c4, c5⟩ := c2 (ks.eraseIdx i) (fun hkill x hx => c1 hkill x (List.mem_of_mem_eraseIdx hx))
            exact ⟨⟨c3, OkL_erase hk i⟩, rfl, fun _ _ => (c5 g).1⟩
          · cases hs
    · cases hs

theorem order_keeps {i : Nat} {p p' : Proc} (h : Ok G t p) (hs : p.order i = some p') : Keeps G S t p p' := by
  obtain ⟨d, g, pc, ks⟩ := p
  simp only [Ok] at h
  obtain ⟨hh, hk⟩ := h
  cases pc with
  | search s => simp [Proc.order] at hs
  | send c n => simp [Proc.order] at hs
  | waitF => simp [Proc.order] at hs
  | give s cur bt => exact False.elim hh
  | collect cur bt acc => simp [Proc.order] at hs
  | close kill nx =>
    simp only [Proc.order] at hs
    split at hs
    · cases hi : ks[i]? with
      | none => rw [hi] at hs; cases hs
      | some x =>
        obtain ⟨b, k⟩ := x
        have hko : Ok G t k := OkL_get hk hi
        rw [hi] at hs
        cases b with
        | false => cases hs
        | true =>
          obtain ⟨c1, c2⟩ := hh.close_iff (S := S) (ne_of_get hi)
          simp only at hs
          split at hs
          · split at hs
            · cases hs
              obtain ⟨c3, c4, c5⟩ := c2 (ks.eraseIdx i) (fun hkill x hx => c1 hkill x (List.mem_of_mem_eraseIdx hx))
              exact ⟨⟨c3, OkL_erase hk i⟩, rfl, fun _ _ => (c5 g).1⟩
            · cases hs
          · rename_i hkill
            obtain ⟨k', hk', rfl⟩ := Option.map_eq_some_iff.1 hs
            obtain ⟨c3, c4, c5⟩ := c2 (ks.set i (false, k')) (fun h => absurd h hkill)
            exact ⟨⟨c3, OkL_set hk i (hold_ok hko hk')⟩, rfl, fun _ _ => (c5 g).1⟩
    · cases hs
  | reply kill nx =>
    simp only [Proc.order] at hs
    split at hs
    · cases hi : ks[i]? with
      | none => rw [hi] at hs; cases hs
      | some x =>
        obtain ⟨b, k⟩ := x
        have hko : Ok G t k := OkL_get hk hi
        rw [hi] at hs
        cases b with
        | false => cases hs
        | true =>
          obtain ⟨c1, c2⟩ := hh.reply_iff (S := S)
          simp only at hs
          split at hs
          · split at hs
            · cases hs
              obtain ⟨c3, c4, c5⟩ := c2 (ks.eraseIdx i) (fun hkill x hx => c1 hkill x (List.mem_of_mem_eraseIdx hx))
              exact ⟨⟨c3, OkL_erase hk i⟩, held_reply.symm, fun _ _ => (c5 g).1⟩
            · rename_i hkill
              obtain ⟨k', hk', rfl⟩ := Option.map_eq_some_iff.1 hs
              obtain ⟨c3, c4, c5⟩ := c2 (ks.set i (false, k')) (fun h => absurd h hkill)
              exact ⟨⟨c3, OkL_set hk i (hold_ok hko hk')⟩, held_reply.symm, fun _ _ => (c5 g).1⟩
          · cases hs
    · cases hs

theorem act_keeps (hK : Keeping e b G S) (hfu : 0 < e.fuel) {a : Act} {p p' : Proc} (h : Ok G t p)
    (hs : p.act e (b.now t) a = some p') : Keeps G S (t + 1) p p' := by
  cases a with
  | own rnd => exact own_keeps hK hfu h hs
  | recv i => have := recv_keeps (S := S) h hs; exact ⟨this.ok.up hK.mono, this.held, this.sat⟩
  | order i => have := order_keeps (S := S) h hs; exact ⟨this.ok.up hK.mono, this.held, this.sat⟩
  | give i =>
    obtain ⟨d, g, pc, ks⟩ := p
    simp only [Ok] at h
    cases pc <;> first | exact False.elim h.1 | (simp [Proc.act, Proc.give] at hs)

/-- **A step anywhere in the tree** loses no model. -/
theorem step_keeps (hK : Keeping e b G S) (hfu : 0 < e.fuel) {a : Act} :
    ∀ (path : List Nat) {p p' : Proc}, Ok G t p → p.step e (b.now t) a path = some p' → Keeps G S (t + 1) p p'
  | [], p, p', h, hs => act_keeps hK hfu h (by simpa [Proc.step] using hs)
  | i :: path, .mk d g pc ks, p', h, hs => by
    simp only [Ok] at h
    obtain ⟨hh, hk⟩ := h
    simp only [Proc.step] at hs
    cases hi : ks[i]? with
    | none => rw [hi] at hs; cases hs
    | some x =>
      obtain ⟨m, k⟩ := x
      have hko : Ok G t k := OkL_get hk hi
      rw [hi] at hs
      obtain ⟨k', hk', rfl⟩ := Option.map_eq_some_iff.1 hs
      have ih := step_keeps hK hfu path hko hk'
      have hne := ne_of_get hi
      have hOk := OkL_set (OkL_up hK.mono hk) i (k := (m, k')) ih.ok
      have hmarks : (∀ x ∈ ks, x.1 = true) → ∀ x ∈ ks.set i (m, k'), x.1 = true := by
        intro h1 x hx
        rcases List.mem_or_eq_of_mem_set hx with hx | rfl
        · exact h1 x hx
        · exact h1 (m, k) (List.mem_of_getElem? hi)
      replace hh := hh.up hK.mono
      cases pc with
      | search s => exact absurd hh.2.2 hne
      | send c n =>
        cases c
        · exact absurd hh hne
        · exact absurd hh.2.2 hne
      | waitF => exact absurd hh hne
      | give s cur bt => exact False.elim hh
      | collect cur bt acc =>
        obtain ⟨h1, h2, h3, ht, hm⟩ := hh
        refine ⟨⟨⟨h1, h2, h3, ht, ?_⟩, hOk⟩, rfl, fun _ => ?_⟩
        · intro x hx
          rcases List.mem_or_eq_of_mem_set hx with hx | rfl
          · exact hm x hx
          · have := hm _ (List.mem_of_getElem? hi)
            exact ⟨this.1, ih.held.trans this.2⟩
        · have hkk := ih.sat (hm _ (List.mem_of_getElem? hi)).2
          simp only [sat, satL_iff]
          rintro ⟨x, hx, y⟩
          obtain ⟨j, hj, e1⟩ := List.mem_iff_getElem.1 hx
          have hlt : i < ks.length := (List.getElem?_eq_some_iff.1 hi).1
          by_cases hij : i = j
          · subst hij
            rw [List.getElem?_eq_getElem hj, e1] at hi
            cases hi
            exact ⟨(m, k'), List.mem_set hlt _, hkk y⟩
          · exact ⟨x, List.mem_of_getElem? (i := j) (by rw [List.getElem?_set, if_neg hij, List.getElem?_eq_getElem hj, e1]), y⟩
      | close kill nx =>
        obtain ⟨c1, c2⟩ := hh.close_iff (S := S) hne
        obtain ⟨c3, c4, c5⟩ := c2 (ks.set i (m, k')) (fun h => hmarks (c1 h))
        exact ⟨⟨c3, hOk⟩, rfl, fun _ _ => (c5 g).1⟩
      | reply kill nx =>
        obtain ⟨c1, c2⟩ := hh.reply_iff (S := S)
        obtain ⟨c3, c4, c5⟩ := c2 (ks.set i (m, k')) (fun h => hmarks (c1 h))
        exact ⟨⟨c4, hOk⟩, rfl, fun _ _ => (c5 g).2⟩

theorem run_keeps (hK : Keeping e b G S) (hfu : 0 < e.fuel) : ∀ (cs : List Choice) {s s' : Sys}, Ok G s.time s.root →
    s.root.pc.held = false → sat S s.root → (∀ c, s.result = some c → c = false) → s.run e b cs = some s' →
    ∀ c, s'.result = some c → c = false
  | [], s, s', h1, h2, h3, h4, hs => by cases hs; exact h4
  | c :: cs, s, s', h1, h2, h3, h4, hs => by
    simp only [Sys.run] at hs
    cases hc : s.step e b c with
    | none => rw [hc] at hs; cases hs
    | some u =>
      rw [hc] at hs
      cases c with
      | proc path a =>
        simp only [Sys.step] at hc
        split at hc
        · rename_i hr
          obtain ⟨p', hp, rfl⟩ := Option.map_eq_some_iff.1 hc
          have K := step_keeps hK hfu path h1 hp
          exact run_keeps hK hfu cs (s := { s with root := p', time := s.time + 1 }) K.ok (K.held.trans h2) (K.sat h2 h3) h4 hs
        · cases hc
      | result =>
        simp only [Sys.step] at hc
        split at hc
        · rename_i hr
          split at hc
          · rename_i c n hpc
            cases hc
            have hsat : c = false := by
              obtain ⟨⟨d, g, pc, ks⟩, tm, res⟩ := s
              obtain rfl : pc = .send c n := hpc
              simpa [sat] using h3
            exact run_keeps hK hfu cs (s := { s with result := some c, time := s.time + 1 }) (h1.up hK.mono) h2 h3
              (by intro c' h; cases h; exact hsat) hs
          · cases hc
        · cases hc

/-- If no round loses a model, the formulas the search reports as closed have none. -/
theorem verdict_sound (hK : Keeping e b G S) (hfu : 0 < e.fuel) {limit : Nat} {f : Form} (hG : G 0 { n := limit, lf := [⟨f, []⟩] })
    (h : Verdict e b limit f true) : ¬ S { n := limit, lf := [⟨f, []⟩] } := by
  intro hS
  obtain ⟨s, ⟨cs, hs⟩, hr⟩ := h
  have := run_keeps hK hfu cs (s := start limit f) ⟨⟨rfl, hG, rfl⟩, trivial⟩ rfl (by simpa [start, fresh, sat] using hS)
    (by intro c hc; cases hc) hs _ hr
  cases this

end
end Verif.Search.Main.Sound
