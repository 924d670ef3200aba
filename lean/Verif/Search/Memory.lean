/-!
# Memory shared by goroutines

The memory that Go slices, maps and pointers refer to: a list of arrays, an address being a position in the
list. A cell is a number or the address of an array. The offset and length of a slice do not matter for the
question which arrays can be reached, so a reference is an address.

A goroutine may load from, and store to, everything it can reach, and nothing else. Goroutines are started
and send messages by deep copies.
-/

namespace Verif.Search.Mem

inductive Cell where
  | val (n : Nat)
  | ref (a : Nat)
deriving DecidableEq, Repr

abbrev Heap := List (List Cell)

/-- A piece of data as a reader sees it. -/
inductive Val where
  | num (n : Nat)
  | arr (l : List Val)

/-! ### Reading -/

mutual
/-- Following all references from a cell yields this data. -/
inductive Reads (h : Heap) : Cell → Val → Prop where
  | num (n : Nat) : Reads h (.val n) (.num n)
  | arr {a : Nat} {cs : List Cell} {vs : List Val} : h[a]? = some cs → ReadsL h cs vs → Reads h (.ref a) (.arr vs)
inductive ReadsL (h : Heap) : List Cell → List Val → Prop where
  | nil : ReadsL h [] []
  | cons {c : Cell} {cs : List Cell} {v : Val} {vs : List Val} : Reads h c v → ReadsL h cs vs →
    ReadsL h (c :: cs) (v :: vs)
end

/-- The arrays that can be reached from some addresses. -/
inductive Reach (h : Heap) (K : Nat → Prop) : Nat → Prop where
  | base {a : Nat} : K a → Reach h K a
  | step {a b : Nat} {cs : List Cell} : Reach h K a → h[a]? = some cs → .ref b ∈ cs → Reach h K b

/-- The arrays that can be reached from a cell. -/
def FromCell (c : Cell) (a : Nat) : Prop := c = .ref a

theorem Reach.mono {h : Heap} {K K' : Nat → Prop} (hk : ∀ a, K a → K' a) {a : Nat} (r : Reach h K a) :
    Reach h K' a := by
  induction r with
  | base h1 => exact .base (hk _ h1)
  | step _ h1 h2 ih => exact .step ih h1 h2

/-- What is reached from what can be reached can be reached. -/
theorem Reach.trans {h : Heap} {K K' : Nat → Prop} (hk : ∀ a, K a → Reach h K' a) {a : Nat} (r : Reach h K a) :
    Reach h K' a := by
  induction r with
  | base h1 => exact hk _ h1
  | step _ h1 h2 ih => exact .step ih h1 h2

/-- Reading depends only on the arrays that can be reached. -/
theorem Reads.congr {h h' : Heap} {c : Cell} {v : Val}
    (hh : ∀ a, Reach h (FromCell c) a → h'[a]? = h[a]?) (r : Reads h c v) : Reads h' c v := by
  have key : ∀ (c : Cell) (v : Val), Reads h c v → (∀ a, Reach h (FromCell c) a → h'[a]? = h[a]?) → Reads h' c v := by
    intro c v r
    induction r using Reads.rec (motive_2 := fun cs vs _ =>
      (∀ c ∈ cs, ∀ a, Reach h (FromCell c) a → h'[a]? = h[a]?) → ReadsL h' cs vs) with
    | num n => intro _; exact .num n
    | arr e _ ih =>
      intro hh
      refine .arr ((hh _ (.base rfl)).trans e) (ih fun c hc a ra => ?_)
      refine hh a (ra.trans fun b hb => ?_)
      cases hb
      exact .step (.base rfl) e hc
    | nil => exact .nil
    | cons _ _ ih1 ih2 =>
      rename_i hh
      exact .cons (ih1 (hh _ (List.mem_cons_self ..))) (ih2 fun c hc => hh c (List.mem_cons_of_mem _ hc))
  exact key c v r hh

/-- Two readers see the same. -/
theorem Reads.unique {h : Heap} {c : Cell} {v v' : Val} (r : Reads h c v) (r' : Reads h c v') : v = v' := by
  have key : ∀ (c : Cell) (v : Val), Reads h c v → ∀ v', Reads h c v' → v = v' := by
    intro c v r
    induction r using Reads.rec (motive_2 := fun cs vs _ => ∀ vs', ReadsL h cs vs' → vs = vs') with
    | num n => intro v' r'; cases r'; rfl
    | arr e _ ih =>
      intro v' r'
      cases r' with
      | arr e' l' =>
        rw [e] at e'; cases e'
        rw [ih _ l']
    | nil => rename_i r'; cases r'; rfl
    | cons _ _ ih1 ih2 =>
      rename_i r'
      cases r' with
      | cons a b => rw [ih1 _ a, ih2 _ b]
  exact key c v r v' r'

/-! ### Deep copies -/

mutual
/-- Fresh arrays with the given contents: what the copy functions return. -/
def build (h : Heap) : Val → Heap × Cell
  | .num n => (h, .val n)
  | .arr vs => let r := buildL h vs; (r.1 ++ [r.2], .ref r.1.length)
def buildL (h : Heap) : List Val → Heap × List Cell
  | [] => (h, [])
  | v :: vs => let r := build h v; let r' := buildL r.1 vs; (r'.1, r.2 :: r'.2)
end

theorem Val.ind {P : Val → Prop} {Q : List Val → Prop} (h1 : ∀ n, P (.num n)) (h2 : ∀ l, Q l → P (.arr l))
    (h3 : Q []) (h4 : ∀ v l, P v → Q l → Q (v :: l)) : (∀ v, P v) ∧ ∀ l, Q l :=
  ⟨fun v => Val.rec (motive_1 := P) (motive_2 := Q) h1 h2 h3 h4 v,
   fun l => Val.rec_1 (motive_1 := P) (motive_2 := Q) h1 h2 h3 h4 l⟩

/-- No reference leads outside the memory. -/
def Sound (h : Heap) : Prop := ∀ (a : Nat) (cs : List Cell), h[a]? = some cs → ∀ b, .ref b ∈ cs → b < h.length

theorem Reach.lt {h : Heap} (hs : Sound h) {K : Nat → Prop} (hk : ∀ a, K a → a < h.length) {a : Nat}
    (r : Reach h K a) : a < h.length := by
  cases r with
  | base h1 => exact hk _ h1
  | step _ h1 h2 => exact hs _ _ h1 _ h2

/-- Old arrays are untouched by an extension of the memory. -/
theorem prefix_get {h h' : Heap} (p : h <+: h') {a : Nat} (ha : a < h.length) : h'[a]? = h[a]? := by
  obtain ⟨t, rfl⟩ := p
  exact List.getElem?_append_left ha

/-- Nothing new can be reached from old arrays after an extension. -/
theorem Reach.of_prefix {h h' : Heap} (hs : Sound h) (p : h <+: h') {K : Nat → Prop} (hk : ∀ a, K a → a < h.length)
    {a : Nat} (r : Reach h' K a) : Reach h K a := by
  induction r with
  | base h1 => exact .base h1
  | step _ h1 h2 ih => exact .step ih ((prefix_get p (ih.lt hs hk)).symm.trans h1) h2

theorem Reach.to_prefix {h h' : Heap} (p : h <+: h') {K : Nat → Prop} {a : Nat} (r : Reach h K a) : Reach h' K a := by
  induction r with
  | base h1 => exact .base h1
  | step _ h1 h2 ih =>
    refine .step ih ((prefix_get p ?_).trans h1) h2
    exact (List.getElem?_eq_some_iff.1 h1).1

/-- References at or above a bound only lead to references at or above it. -/
def Above (n : Nat) (h : Heap) : Prop := ∀ (a : Nat) (cs : List Cell), n ≤ a → h[a]? = some cs → ∀ b, .ref b ∈ cs → n ≤ b

theorem Reads.extend {h h' : Heap} (p : h <+: h') {c : Cell} {v : Val} (r : Reads h c v) : Reads h' c v := by
  have key : ∀ (c : Cell) (v : Val), Reads h c v → Reads h' c v := by
    intro c v r
    induction r using Reads.rec (motive_2 := fun cs vs _ => ReadsL h' cs vs) with
    | num n => exact .num n
    | arr e _ ih => exact .arr ((prefix_get p (List.getElem?_eq_some_iff.1 e).1).trans e) ih
    | nil => exact .nil
    | cons _ _ ih1 ih2 => exact .cons ih1 ih2
  exact key c v r

theorem build_spec :
    (∀ (v : Val) (h : Heap) (n : Nat), Sound h → Above n h → n ≤ h.length →
      h <+: (build h v).1 ∧ Sound (build h v).1 ∧ Above n (build h v).1 ∧ Reads (build h v).1 (build h v).2 v ∧
      ∀ a, (build h v).2 = .ref a → h.length ≤ a ∧ a < (build h v).1.length) ∧
    (∀ (vs : List Val) (h : Heap) (n : Nat), Sound h → Above n h → n ≤ h.length →
      h <+: (buildL h vs).1 ∧ Sound (buildL h vs).1 ∧ Above n (buildL h vs).1 ∧
      ReadsL (buildL h vs).1 (buildL h vs).2 vs ∧
      ∀ a, .ref a ∈ (buildL h vs).2 → h.length ≤ a ∧ a < (buildL h vs).1.length) := by
  apply Val.ind
  · intro n h m hs ha _
    exact ⟨List.prefix_rfl, hs, ha, .num n, fun a e => by cases e⟩
  · intro l ih h n hs ha hn
    obtain ⟨p, hs', ha', hr, hb⟩ := ih h n hs ha hn
    have hlen := p.length_le
    refine ⟨p.trans (List.prefix_append _ _), ?_, ?_, ?_, ?_⟩
    · intro a cs e b hbm
      simp only [build, List.length_append, List.length_cons, List.length_nil] at e ⊢
      rcases Nat.lt_or_ge a (buildL h l).1.length with hlt | hge
      · rw [List.getElem?_append_left hlt] at e
        have := hs' _ _ e _ hbm
        omega
      · rw [List.getElem?_append_right hge] at e
        have h0 : a - (buildL h l).1.length = 0 := by
          rcases Nat.eq_zero_or_pos (a - (buildL h l).1.length) with h0 | h0
          · exact h0
          · rw [List.getElem?_eq_none (by simp only [List.length_cons, List.length_nil]; omega)] at e; cases e
        rw [h0] at e; simp only [List.getElem?_cons_zero, Option.some.injEq] at e
        subst e
        have := (hb _ hbm).2
        omega
    · intro a cs hna e b hbm
      simp only [build] at e
      rcases Nat.lt_or_ge a (buildL h l).1.length with hlt | hge
      · rw [List.getElem?_append_left hlt] at e
        exact ha' _ _ hna e _ hbm
      · rw [List.getElem?_append_right hge] at e
        have h0 : a - (buildL h l).1.length = 0 := by
          rcases Nat.eq_zero_or_pos (a - (buildL h l).1.length) with h0 | h0
          · exact h0
          · rw [List.getElem?_eq_none (by simp only [List.length_cons, List.length_nil]; omega)] at e; cases e
        rw [h0] at e; simp only [List.getElem?_cons_zero, Option.some.injEq] at e
        subst e
        have := (hb _ hbm).1
        omega
    · refine .arr (cs := (buildL h l).2) ?_ ?_
      · simp only [build]
        rw [List.getElem?_append_right (Nat.le_refl _)]; simp
      · have key : ∀ (cs : List Cell) (vs : List Val), ReadsL (buildL h l).1 cs vs →
            ReadsL ((buildL h l).1 ++ [(buildL h l).2]) cs vs := by
          intro cs vs r
          induction vs generalizing cs with
          | nil => cases r; exact .nil
          | cons v vs ih => cases r with | cons a b => exact .cons (a.extend (List.prefix_append _ _)) (ih _ b)
        exact key _ _ hr
    · intro a e
      simp only [build, Cell.ref.injEq] at e
      subst e
      simp only [build, List.length_append, List.length_cons, List.length_nil]
      omega
  · intro h n hs ha _
    exact ⟨List.prefix_rfl, hs, ha, .nil, fun a e => by cases e⟩
  · intro v l ih1 ih2 h n hs ha hn
    obtain ⟨p, hs', ha', hr, hb⟩ := ih1 h n hs ha hn
    have hl := p.length_le
    obtain ⟨p2, hs2, ha2, hr2, hb2⟩ := ih2 (build h v).1 n hs' ha' (by omega)
    have hl2 := p2.length_le
    refine ⟨p.trans p2, hs2, ha2, .cons (hr.extend p2) hr2, ?_⟩
    intro a e
    simp only [buildL, List.mem_cons] at e ⊢
    rcases e with e | e
    · have := hb a e.symm; omega
    · have := hb2 a e; omega

/-- A deep copy is seen as the original, in arrays that did not exist before. -/
theorem build_fresh {h : Heap} (hs : Sound h) (v : Val) :
    h <+: (build h v).1 ∧ Sound (build h v).1 ∧ Reads (build h v).1 (build h v).2 v ∧
    ∀ a, Reach (build h v).1 (FromCell (build h v).2) a → h.length ≤ a ∧ a < (build h v).1.length := by
  have ha : Above h.length h := by
    intro a cs hge e
    rw [List.getElem?_eq_none hge] at e; cases e
  obtain ⟨p, hs', ha', hr, hb⟩ := build_spec.1 v h h.length hs ha (Nat.le_refl _)
  refine ⟨p, hs', hr, fun a r => ?_⟩
  have hlt := r.lt hs' (fun b e => (hb b e).2)
  refine ⟨?_, hlt⟩
  clear hlt
  induction r with
  | base e => exact (hb _ e).1
  | step _ e hm ih => exact ha' _ _ ih e _ hm

/-! ### Goroutines -/

/-- A goroutine: the addresses it holds, and the cells that make up its search state. -/
structure Thread where
  known : List Nat
  state : List Cell

structure Sys where
  heap : Heap
  threads : List Thread

/-- A cell a goroutine can write: a number or an address it holds. -/
def Thread.Has (t : Thread) : Cell → Prop
  | .val _ => True
  | .ref a => a ∈ t.known

/-- The addresses in some cells. -/
def refs : List Cell → List Nat
  | [] => []
  | .val _ :: l => refs l
  | .ref a :: l => a :: refs l

theorem mem_refs {l : List Cell} {a : Nat} : a ∈ refs l ↔ .ref a ∈ l := by
  induction l with
  | nil => simp [refs]
  | cons c l ih => cases c <;> simp [refs, ih]

/-- One step of one goroutine, with number `i`. The data read for a copy is given by `Reads`. -/
inductive Step : Nat → Sys → Sys → Prop where
  /-- `x := a[p]` -/
  | load {h : Heap} {pre : List Thread} {t : Thread} {post : List Thread} {a : Nat} {p : Nat} {cs : List Cell} {b : Nat} : a ∈ t.known → h[a]? = some cs → cs[p]? = some (.ref b) →
    Step pre.length ⟨h, pre ++ t :: post⟩ ⟨h, pre ++ { t with known := b :: t.known } :: post⟩
  /-- `a[p] = c` -/
  | store {h : Heap} {pre : List Thread} {t : Thread} {post : List Thread} {a : Nat} {p : Nat} {cs : List Cell} {c : Cell} : a ∈ t.known → h[a]? = some cs → t.Has c →
    Step pre.length ⟨h, pre ++ t :: post⟩ ⟨h.set a (cs.set p c), pre ++ t :: post⟩
  /-- `make`, composite literals, `append` beyond the capacity -/
  | alloc {h : Heap} {pre : List Thread} {t : Thread} {post : List Thread} {cs : List Cell} : (∀ c ∈ cs, t.Has c) →
    Step pre.length ⟨h, pre ++ t :: post⟩ ⟨h ++ [cs], pre ++ { t with known := h.length :: t.known } :: post⟩
  /-- new contents of the variables that make up the state -/
  | assign {h : Heap} {pre : List Thread} {t : Thread} {post : List Thread} {st : List Cell} : (∀ c ∈ st, t.Has c) →
    Step pre.length ⟨h, pre ++ t :: post⟩ ⟨h, pre ++ { t with state := st } :: post⟩
  /-- a new goroutine is started with freshly built data for its state -/
  | spawn {h : Heap} {pre : List Thread} {t : Thread} {post : List Thread} {vs : List Val} :
    Step pre.length ⟨h, pre ++ t :: post⟩
      ⟨(buildL h vs).1, pre ++ t :: post ++ [⟨refs (buildL h vs).2, (buildL h vs).2⟩]⟩
  /-- a copy of something is received from another goroutine -/
  | receive {h : Heap} {pre : List Thread} {t : Thread} {post : List Thread} {v : Val} :
    Step pre.length ⟨h, pre ++ t :: post⟩
      ⟨(build h v).1, pre ++ { t with known := refs [(build h v).2] ++ t.known } :: post⟩

/-- A schedule: the numbers of the goroutines that moved. -/
inductive Run : Sys → List Nat → Sys → Prop where
  | nil {s : Sys} : Run s [] s
  | cons {s s' s'' : Sys} {i : Nat} {l : List Nat} : Step i s s' → Run s' l s'' → Run s (i :: l) s''

/-- What the goroutines can reach does not overlap, and everything exists. -/
structure Inv (s : Sys) : Prop where
  sound : Sound s.heap
  bound : ∀ t ∈ s.threads, ∀ a ∈ t.known, a < s.heap.length
  own : ∀ t ∈ s.threads, ∀ a, .ref a ∈ t.state → a ∈ t.known
  disj : s.threads.Pairwise fun t u => ∀ a, Reach s.heap (· ∈ t.known) a → ¬ Reach s.heap (· ∈ u.known) a

/-- Replacing one goroutine keeps the separation if what it can reach did not grow, or grew by new arrays only. -/
theorem pairwise_replace {h h' : Heap} {pre post : List Thread} {t t' : Thread}
    (hd : (pre ++ t :: post).Pairwise fun t u => ∀ a, Reach h (· ∈ t.known) a → ¬ Reach h (· ∈ u.known) a)
    (hold : ∀ u ∈ pre ++ post, ∀ a, Reach h' (· ∈ u.known) a → Reach h (· ∈ u.known) a)
    (hnew : ∀ a, Reach h' (· ∈ t'.known) a → Reach h (· ∈ t.known) a ∨
      ∀ u ∈ pre ++ post, ¬ Reach h (· ∈ u.known) a) :
    (pre ++ t' :: post).Pairwise fun t u => ∀ a, Reach h' (· ∈ t.known) a → ¬ Reach h' (· ∈ u.known) a := by
  rw [List.pairwise_append, List.pairwise_cons] at hd ⊢
  obtain ⟨h1, ⟨h2, h3⟩, h4⟩ := hd
  refine ⟨?_, ⟨?_, ?_⟩, ?_⟩
  · refine List.Pairwise.imp_of_mem (fun {u w} hu hw r a ru rw' => ?_) h1
    exact r a (hold u (List.mem_append_left _ hu) a ru) (hold w (List.mem_append_left _ hw) a rw')
  · intro u hu a rt ru
    have ru' := hold u (List.mem_append_right _ hu) a ru
    rcases hnew a rt with r | r
    · exact h2 u hu a r ru'
    · exact r u (List.mem_append_right _ hu) ru'
  · refine List.Pairwise.imp_of_mem (fun {u w} hu hw r a ru rw' => ?_) h3
    exact r a (hold u (List.mem_append_right _ hu) a ru) (hold w (List.mem_append_right _ hw) a rw')
  · intro u hu w hw a ru rw'
    have ru' := hold u (List.mem_append_left _ hu) a ru
    rcases List.mem_cons.1 hw with rfl | hw
    · rcases hnew a rw' with r | r
      · exact h4 u hu _ (List.mem_cons_self ..) a ru' r
      · exact r u (List.mem_append_left _ hu) ru'
    · exact h4 u hu w (List.mem_cons_of_mem _ hw) a ru' (hold w (List.mem_append_right _ hw) a rw')

/-- Arrays reached after a store: those reached before, as long as the stored cell is held. -/
theorem Reach.of_store {h : Heap} {K : Nat → Prop} {a p : Nat} {cs : List Cell} {c : Cell} (ea : h[a]? = some cs)
    (hc : Reach h K a → ∀ b, c = .ref b → Reach h K b) {x : Nat} (r : Reach (h.set a (cs.set p c)) K x) :
    Reach h K x := by
  induction r with
  | base h1 => exact .base h1
  | @step d b ds _ h1 h2 ih =>
    by_cases hda : d = a
    · subst hda
      rw [List.getElem?_set_self (List.getElem?_eq_some_iff.1 ea).1] at h1
      cases h1
      rcases List.mem_or_eq_of_mem_set h2 with h2 | h2
      · exact .step ih ea h2
      · exact hc ih b h2.symm
    · rw [List.getElem?_set_ne (fun e => hda e.symm)] at h1
      exact .step ih h1 h2

theorem Inv.step {s s' : Sys} {i : Nat} (hi : Inv s) (st : Step i s s') : Inv s' := by
  obtain ⟨hs, hb, ho, hd⟩ := hi
  cases st with
  | @load h pre t post a p cs b ha e e2 =>
    have hmem : .ref b ∈ cs := List.mem_of_getElem? e2
    have hbl : b < h.length := hs _ _ e _ hmem
    have hmt : t ∈ pre ++ t :: post := by simp
    refine ⟨hs, ?_, ?_, ?_⟩
    · intro u hu x hx
      simp only [List.mem_append, List.mem_cons] at hu
      rcases hu with hu | rfl | hu
      · exact hb u (by simp [hu]) x hx
      · rcases List.mem_cons.1 hx with rfl | hx
        · exact hbl
        · exact hb t hmt x hx
      · exact hb u (by simp [hu]) x hx
    · intro u hu x hx
      simp only [List.mem_append, List.mem_cons] at hu
      rcases hu with hu | rfl | hu
      · exact ho u (by simp [hu]) x hx
      · exact List.mem_cons_of_mem _ (ho t hmt x hx)
      · exact ho u (by simp [hu]) x hx
    · refine pairwise_replace hd (fun u _ x r => r) (fun x r => .inl (r.trans fun y hy => ?_))
      rcases List.mem_cons.1 hy with rfl | hy
      · exact .step (.base ha) e hmem
      · exact .base hy
  | @store h pre t post a p cs c ha e hc =>
    have hmt : t ∈ pre ++ t :: post := by simp
    have hsound : Sound (h.set a (cs.set p c)) := by
      intro x ds hx b hbm
      rw [List.length_set]
      by_cases hxa : x = a
      · subst hxa
        rw [List.getElem?_set_self (List.getElem?_eq_some_iff.1 e).1] at hx
        cases hx
        rcases List.mem_or_eq_of_mem_set hbm with hbm | hbm
        · exact hs _ _ e _ hbm
        · subst hbm; exact hb t hmt b hc
      · rw [List.getElem?_set_ne (fun e => hxa e.symm)] at hx
        exact hs _ _ hx _ hbm
    refine ⟨hsound, fun u hu x hx => by rw [List.length_set]; exact hb u hu x hx, ho, ?_⟩
    have hd' := hd
    refine pairwise_replace hd (fun u hu x r => ?_) (fun x r => .inl ?_)
    · refine r.of_store e (fun ra => ?_)
      exfalso
      rw [List.pairwise_append, List.pairwise_cons] at hd'
      rcases List.mem_append.1 hu with hu | hu
      · exact hd'.2.2 u hu t (List.mem_cons_self ..) a ra (.base ha)
      · exact hd'.2.1.1 u hu a (.base ha) ra
    · refine r.of_store e (fun _ b hb' => ?_)
      subst hb'
      exact .base hc
  | @alloc h pre t post cs hcs =>
    dsimp only at hs hb ho hd
    have hmt : t ∈ pre ++ t :: post := by simp
    have hp : h <+: h ++ [cs] := List.prefix_append _ _
    have hsound : Sound (h ++ [cs]) := by
      intro x ds hx b hbm
      simp only [List.length_append, List.length_cons, List.length_nil]
      rcases Nat.lt_or_ge x h.length with hlt | hge
      · rw [List.getElem?_append_left hlt] at hx
        have := hs _ _ hx _ hbm
        omega
      · rw [List.getElem?_append_right hge] at hx
        have hds : ds ∈ [cs] := List.mem_of_getElem? hx
        rw [List.mem_singleton] at hds
        subst hds
        have := hb t hmt b (hcs _ hbm)
        omega
    have hold : ∀ u ∈ pre ++ post, ∀ x, Reach (h ++ [cs]) (· ∈ u.known) x → Reach h (· ∈ u.known) x := by
      intro u hu x r
      exact r.of_prefix hs hp (fun y hy => hb u (by
        rcases List.mem_append.1 hu with hu | hu <;> simp [hu]) y hy)
    refine ⟨hsound, ?_, ?_, ?_⟩
    · intro u hu x hx
      simp only [List.length_append, List.length_cons, List.length_nil]
      simp only [List.mem_append, List.mem_cons] at hu
      rcases hu with hu | rfl | hu
      · have := hb u (by simp [hu]) x hx; omega
      · rcases List.mem_cons.1 hx with rfl | hx
        · omega
        · have := hb t hmt x hx; omega
      · have := hb u (by simp [hu]) x hx; omega
    · intro u hu x hx
      simp only [List.mem_append, List.mem_cons] at hu
      rcases hu with hu | rfl | hu
      · exact ho u (by simp [hu]) x hx
      · exact List.mem_cons_of_mem _ (ho t hmt x hx)
      · exact ho u (by simp [hu]) x hx
    · refine pairwise_replace hd hold (fun x r => ?_)
      have key : x = h.length ∨ Reach h (· ∈ t.known) x := by
        induction r with
        | base hx =>
          rcases List.mem_cons.1 hx with hx | hx
          · exact .inl hx
          · exact .inr (.base hx)
        | @step d b ds _ h1 h2 ih =>
          rcases ih with rfl | ih
          · rw [List.getElem?_append_right (Nat.le_refl _)] at h1
            have hds : ds ∈ [cs] := List.mem_of_getElem? h1
            rw [List.mem_singleton] at hds
            subst hds
            exact .inr (.base (hcs _ h2))
          · have hlt := ih.lt hs (fun y hy => hb t hmt y hy)
            rw [List.getElem?_append_left hlt] at h1
            exact .inr (.step ih h1 h2)
      rcases key with rfl | key
      · refine .inr fun u hu ru => ?_
        have := ru.lt hs (fun y hy => hb u (by rcases List.mem_append.1 hu with hu | hu <;> simp [hu]) y hy)
        omega
      · exact .inl key
  | @assign h pre t post st hst =>
    have hmt : t ∈ pre ++ t :: post := by simp
    refine ⟨hs, ?_, ?_, ?_⟩
    · intro u hu x hx
      simp only [List.mem_append, List.mem_cons] at hu
      rcases hu with hu | rfl | hu
      · exact hb u (by simp [hu]) x hx
      · exact hb t hmt x hx
      · exact hb u (by simp [hu]) x hx
    · intro u hu x hx
      simp only [List.mem_append, List.mem_cons] at hu
      rcases hu with hu | rfl | hu
      · exact ho u (by simp [hu]) x hx
      · exact hst _ hx
      · exact ho u (by simp [hu]) x hx
    · exact pairwise_replace hd (fun u _ x r => r) (fun x r => .inl r)
  | @spawn h pre t post vs =>
    dsimp only at hs hb ho hd
    have ha : Above h.length h := by
      intro a cs hge e
      rw [List.getElem?_eq_none hge] at e; cases e
    obtain ⟨hp, hs', ha', hr, hbd⟩ := build_spec.2 vs h h.length hs ha (Nat.le_refl _)
    have hlen := hp.length_le
    refine ⟨hs', ?_, ?_, ?_⟩
    · intro u hu x hx
      rcases List.mem_append.1 hu with hu | hu
      · have := hb u hu x hx; dsimp only; omega
      · rw [List.mem_singleton] at hu; subst hu
        exact (hbd x (mem_refs.1 hx)).2
    · intro u hu x hx
      rcases List.mem_append.1 hu with hu | hu
      · exact ho u hu x hx
      · rw [List.mem_singleton] at hu; subst hu
        exact mem_refs.2 hx
    · rw [List.pairwise_append]
      refine ⟨?_, List.pairwise_singleton _ _, ?_⟩
      · refine List.Pairwise.imp_of_mem (fun {u w} hu hw r x ru rw' => ?_) hd
        exact r x (ru.of_prefix hs hp (fun y hy => hb u hu y hy)) (rw'.of_prefix hs hp (fun y hy => hb w hw y hy))
      · intro u hu w hw x ru rw'
        rw [List.mem_singleton] at hw; subst hw
        have h1 := (ru.of_prefix hs hp (fun y hy => hb u hu y hy)).lt hs (fun y hy => hb u hu y hy)
        have h2 : h.length ≤ x := by
          clear ru h1
          induction rw' with
          | base hx => exact (hbd _ (mem_refs.1 hx)).1
          | step _ e hm ih => exact ha' _ _ ih e _ hm
        omega
  | @receive h pre t post v =>
    dsimp only at hs hb ho hd
    obtain ⟨hp, hs', hr, hbd⟩ := build_fresh hs v
    have hlen := hp.length_le
    have hmt : t ∈ pre ++ t :: post := by simp
    refine ⟨hs', ?_, ?_, ?_⟩
    · intro u hu x hx
      simp only [List.mem_append, List.mem_cons] at hu
      rcases hu with hu | rfl | hu
      · have := hb u (by simp [hu]) x hx; dsimp only; omega
      · rcases List.mem_append.1 hx with hx | hx
        · have hx := mem_refs.1 hx
          rw [List.mem_singleton] at hx
          exact (hbd x (.base hx.symm)).2
        · have := hb t hmt x hx; dsimp only; omega
      · have := hb u (by simp [hu]) x hx; dsimp only; omega
    · intro u hu x hx
      simp only [List.mem_append, List.mem_cons] at hu
      rcases hu with hu | rfl | hu
      · exact ho u (by simp [hu]) x hx
      · exact List.mem_append_right _ (ho t hmt x hx)
      · exact ho u (by simp [hu]) x hx
    · have hin : ∀ u ∈ pre ++ post, u ∈ pre ++ t :: post := by
        intro u hu; rcases List.mem_append.1 hu with hu | hu <;> simp [hu]
      refine pairwise_replace hd (fun u hu x r => r.of_prefix hs hp (fun y hy => hb u (hin u hu) y hy)) (fun x r => ?_)
      have key : Reach (build h v).1 (FromCell (build h v).2) x ∨ Reach h (· ∈ t.known) x := by
        induction r with
        | base hx =>
          rcases List.mem_append.1 hx with hx | hx
          · have hx := mem_refs.1 hx
            rw [List.mem_singleton] at hx
            exact .inl (.base hx.symm)
          · exact .inr (.base hx)
        | @step d b ds _ h1 h2 ih =>
          rcases ih with ih | ih
          · exact .inl (.step ih h1 h2)
          · have hlt := ih.lt hs (fun y hy => hb t hmt y hy)
            rw [prefix_get hp hlt] at h1
            exact .inr (.step ih h1 h2)
      rcases key with key | key
      · refine .inr fun u hu ru => ?_
        have h1 := ru.lt hs (fun y hy => hb u (hin u hu) y hy)
        have h2 := (hbd x key).1
        omega
      · exact .inl key

/-- What a goroutine sees in its state. -/
def Sees (s : Sys) (t : Thread) (vs : List Val) : Prop := ReadsL s.heap t.state vs

theorem readsL_congr {h h' : Heap} {cs : List Cell} {vs : List Val}
    (hh : ∀ c ∈ cs, ∀ a, Reach h (FromCell c) a → h'[a]? = h[a]?) (r : ReadsL h cs vs) : ReadsL h' cs vs := by
  induction vs generalizing cs with
  | nil => cases r; exact .nil
  | cons v vs ih =>
    cases r with
    | cons a b =>
      exact .cons (a.congr (hh _ (List.mem_cons_self ..))) (ih (fun c hc => hh c (List.mem_cons_of_mem _ hc)) b)

theorem readsL_extend {h h' : Heap} (p : h <+: h') {cs : List Cell} {vs : List Val} (r : ReadsL h cs vs) :
    ReadsL h' cs vs := by
  induction vs generalizing cs with
  | nil => cases r; exact .nil
  | cons v vs ih => cases r with | cons a b => exact .cons (a.extend p) (ih b)

/-- A step of goroutine `i` changes neither the state of another goroutine nor what that one sees in it. -/
theorem step_other {s s' : Sys} {i j : Nat} (hi : Inv s) (st : Step i s s') (hij : j ≠ i) {t : Thread}
    (ht : s.threads[j]? = some t) {vs : List Val} (hv : Sees s t vs) :
    s'.threads[j]? = some t ∧ Sees s' t vs := by
  obtain ⟨hs, hb, ho, hd⟩ := hi
  have get : ∀ (pre post : List Thread) (u w : Thread), j ≠ pre.length →
      (pre ++ u :: post)[j]? = (pre ++ w :: post)[j]? := by
    intro pre post u w hne
    rcases Nat.lt_or_ge j pre.length with hlt | hge
    · rw [List.getElem?_append_left hlt, List.getElem?_append_left hlt]
    · rw [List.getElem?_append_right hge, List.getElem?_append_right hge]
      obtain ⟨k, hk⟩ : ∃ k, j - pre.length = k + 1 := ⟨j - pre.length - 1, by omega⟩
      rw [hk, List.getElem?_cons_succ, List.getElem?_cons_succ]
  cases st with
  | @load h pre u post a p cs b ha e e2 => exact ⟨(get pre post _ u hij).trans ht, hv⟩
  | @store h pre u post a p cs c ha e hc =>
    refine ⟨ht, readsL_congr (fun c' hc' x rx => ?_) hv⟩
    rw [List.getElem?_set_ne]
    rintro rfl
    -- the array belongs to the other goroutine
    have hreach : Reach h (· ∈ t.known) a := by
      refine rx.mono fun y hy => ?_
      have hy : c' = .ref y := hy
      subst hy
      exact ho t (List.mem_of_getElem? ht) y hc'
    rw [List.pairwise_append, List.pairwise_cons] at hd
    have ht' : (pre ++ u :: post)[j]? = some t := ht
    rcases Nat.lt_or_ge j pre.length with hlt | hge
    · rw [List.getElem?_append_left hlt] at ht'
      exact hd.2.2 t (List.mem_of_getElem? ht') u (List.mem_cons_self ..) a hreach (.base ha)
    · rw [List.getElem?_append_right hge] at ht'
      obtain ⟨k, hk⟩ : ∃ k, j - pre.length = k + 1 := ⟨j - pre.length - 1, by omega⟩
      rw [hk, List.getElem?_cons_succ] at ht'
      exact hd.2.1.1 t (List.mem_of_getElem? ht') a (.base ha) hreach
  | @alloc h pre u post cs hcs =>
    exact ⟨(get pre post _ u hij).trans ht, readsL_extend (List.prefix_append _ _) hv⟩
  | @assign h pre u post st hst => exact ⟨(get pre post _ u hij).trans ht, hv⟩
  | @spawn h pre u post vs' =>
    have ha : Above h.length h := by
      intro a cs hge e
      rw [List.getElem?_eq_none hge] at e; cases e
    obtain ⟨hp, -, -, -, -⟩ := build_spec.2 vs' h h.length hs ha (Nat.le_refl _)
    refine ⟨?_, readsL_extend hp hv⟩
    have hj : j < (pre ++ u :: post).length := (List.getElem?_eq_some_iff.1 ht).1
    exact (List.getElem?_append_left hj).trans ht
  | @receive h pre u post v =>
    obtain ⟨hp, -, -, -⟩ := build_fresh hs v
    exact ⟨(get pre post _ u hij).trans ht, readsL_extend hp hv⟩

/-- In any run in which goroutine `j` does not move, its state stays as it is and so does all it sees there. -/
theorem run_other {s s' : Sys} {l : List Nat} (hi : Inv s) (r : Run s l s') {j : Nat} (hj : j ∉ l) {t : Thread}
    (ht : s.threads[j]? = some t) {vs : List Val} (hv : Sees s t vs) :
    s'.threads[j]? = some t ∧ Sees s' t vs := by
  induction r generalizing vs with
  | nil => exact ⟨ht, hv⟩
  | cons st _ ih =>
    simp only [List.mem_cons, not_or] at hj
    obtain ⟨ht', hv'⟩ := step_other hi st hj.1 ht hv
    exact ih (hi.step st) hj.2 ht' hv'

theorem Inv.run {s s' : Sys} {l : List Nat} (hi : Inv s) (r : Run s l s') : Inv s' := by
  induction r with
  | nil => exact hi
  | cons st _ ih => exact ih (hi.step st)

end Verif.Search.Mem
