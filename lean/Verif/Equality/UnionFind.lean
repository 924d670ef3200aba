/-!
# Equivalence classes with path splitting (`src/Mods/equality/sateq/termrep.go`)

The objects of type `eqClass` live on a heap; they are numbered in the order of their creation
(`eqClassCounter`, src/Mods/equality/sateq/termrep.go:60), so that pointers are numbers and equality of pointers is equality of numbers.
-/

namespace Verif.Equality

/-- The heap of classes (src/Mods/equality/sateq/termrep.go:62-66): how many there are, and the fields `parent` and `size`. -/
structure UF where
  n : Nat
  parent : Nat → Nat
  size : Nat → Nat

namespace UF

/-- A field of one object is changed. -/
def upd (f : Nat → Nat) (x v : Nat) : Nat → Nat := fun y => if y = x then v else f y

/-- No classes yet. Numbers without an object point to themselves. -/
def empty : UF := ⟨0, id, fun _ => 1⟩

/-- `makeEqClass` (src/Mods/equality/sateq/termrep.go:111-117). -/
def make (u : UF) : Nat × UF := (u.n, ⟨u.n + 1, upd u.parent u.n u.n, upd u.size u.n 1⟩)

/-- `representative` (src/Mods/equality/sateq/termrep.go:84-91): `x, x.parent = x.parent, x.parent.parent` until the root. The
first argument bounds the number of rounds; `none` is a loop that has not ended yet. -/
def representative : Nat → UF → Nat → Option (Nat × UF)
  | 0, _, _ => none
  | k + 1, u, x =>
    if u.parent x = x then some (x, u)
    else representative k { u with parent := upd u.parent x (u.parent (u.parent x)) } (u.parent x)

/-- `merge` (src/Mods/equality/sateq/termrep.go:93-105). -/
def merge (k : Nat) (u : UF) (a b : Nat) : Option UF :=
  (representative k u a).bind fun r1 => (representative k r1.2 b).bind fun r2 =>
    let u := r2.2
    if r1.1 = r2.1 then some u
    else
      let x := if u.size r1.1 < u.size r2.1 then r2.1 else r1.1
      let y := if u.size r1.1 < u.size r2.1 then r1.1 else r2.1
      some { u with parent := upd u.parent y x, size := upd u.size x (u.size x + u.size y) }

/-- `congruent` (src/Mods/equality/sateq/termrep.go:107-109). -/
def congruent (k : Nat) (u : UF) (a b : Nat) : Option (Bool × UF) :=
  (representative k u a).bind fun r1 => (representative k r1.2 b).bind fun r2 => some (decide (r1.1 = r2.1), r2.2)

/-! ### Specification -/

/-- What may be done with classes. Looking up also changes the heap. -/
inductive Op where
  | make
  | merge (a b : Nat)
  | ask (a b : Nat)
deriving DecidableEq

/-- The number of classes made. -/
def made (ops : List Op) : Nat := ops.countP (fun o => decide (o = .make))

/-- Operations refer to classes that exist. -/
def Valid : Nat → List Op → Prop
  | _, [] => True
  | n, .make :: ops => Valid (n + 1) ops
  | n, .merge a b :: ops => a < n ∧ b < n ∧ Valid n ops
  | n, .ask a b :: ops => a < n ∧ b < n ∧ Valid n ops

/-- Connected by merges. -/
inductive Conn (ops : List Op) : Nat → Nat → Prop where
  | base {a b} : .merge a b ∈ ops → Conn ops a b
  | refl (a) : Conn ops a a
  | symm {a b} : Conn ops a b → Conn ops b a
  | trans {a b c} : Conn ops a b → Conn ops b c → Conn ops a c

/-- Running a sequence of operations; each lookup gets `k` rounds. -/
def run (k : Nat) : UF → List Op → Option UF
  | u, [] => some u
  | u, .make :: ops => run k u.make.2 ops
  | u, .merge a b :: ops => (u.merge k a b).bind fun u => run k u ops
  | u, .ask a b :: ops => (u.congruent k a b).bind fun r => run k r.2 ops

/-! ### Invariant -/

/-- `rt` gives the root of each class and `d` bounds the way to it. -/
structure Inv (u : UF) (rt d : Nat → Nat) : Prop where
  rt_parent : ∀ z, rt (u.parent z) = rt z
  rt_root : ∀ z, u.parent (rt z) = rt z
  root : ∀ z, u.parent z = z → rt z = z
  dec : ∀ z, u.parent z ≠ z → d (u.parent z) < d z
  root0 : ∀ z, u.parent z = z → d z = 0
  bound : ∀ z, z < u.n → u.parent z < u.n
  out : ∀ z, u.n ≤ z → u.parent z = z
  cnt : ∀ r, r < u.n → u.parent r = r → u.size r = (List.range u.n).countP (fun z => decide (rt z = r))
  dsize : ∀ z, z < u.n → d z < u.size (rt z)

theorem Inv.rt_lt {u : UF} {rt d : Nat → Nat} (h : Inv u rt d) : ∀ z, z < u.n → rt z < u.n := by
  have : ∀ m z, d z ≤ m → z < u.n → rt z < u.n := by
    intro m
    induction m with
    | zero =>
      intro z hz hn
      by_cases hp : u.parent z = z
      · rw [h.root z hp]; exact hn
      · have := h.dec z hp; omega
    | succ m ih =>
      intro z hz hn
      by_cases hp : u.parent z = z
      · rw [h.root z hp]; exact hn
      · have := h.dec z hp
        rw [← h.rt_parent z]
        exact ih _ (by omega) (h.bound z hn)
  exact fun z hz => this (d z) z (Nat.le_refl _) hz

theorem Inv.d_lt {u : UF} {rt d : Nat → Nat} (h : Inv u rt d) {z : Nat} (hz : z < u.n) : d z < u.n := by
  have h1 := h.dsize z hz
  have h2 := h.cnt (rt z) (h.rt_lt z hz) (h.rt_root z)
  have h3 : (List.range u.n).countP (fun y => decide (rt y = rt z)) ≤ u.n := by
    have := List.countP_le_length (p := fun y => decide (rt y = rt z)) (l := List.range u.n)
    simpa using this
  omega

theorem inv_empty : Inv empty id (fun _ => 0) :=
  ⟨fun _ => rfl, fun _ => rfl, fun _ _ => rfl, fun _ h => absurd rfl h, fun _ _ => rfl, fun _ h => by simp [empty] at h,
    fun _ _ => rfl, fun _ h => by simp [empty] at h, fun _ h => by simp [empty] at h⟩

/-- One step of path splitting keeps roots and distances. -/
theorem inv_split {u : UF} {rt d : Nat → Nat} (h : Inv u rt d) {x : Nat} (hx : x < u.n) (hp : u.parent x ≠ x) :
    Inv { u with parent := upd u.parent x (u.parent (u.parent x)) } rt d := by
  have hd : d (u.parent (u.parent x)) ≤ d (u.parent x) := by
    by_cases hpp : u.parent (u.parent x) = u.parent x
    · rw [hpp]; exact Nat.le_refl _
    · exact Nat.le_of_lt (h.dec _ hpp)
  have hdx := h.dec x hp
  refine ⟨fun z => ?_, fun z => ?_, fun z hz => ?_, fun z hz => ?_, fun z hz => ?_, fun z hz => ?_, fun z hz => ?_,
    fun r hr hrr => ?_, h.dsize⟩
  · simp only [upd]
    split
    · rename_i e; rw [e, h.rt_parent, h.rt_parent]
    · exact h.rt_parent z
  · simp only [upd]
    split
    · rename_i e
      exact absurd (by rw [← e]; exact h.rt_root z) hp
    · exact h.rt_root z
  · simp only [upd] at hz
    split at hz
    · rename_i e
      subst e
      rw [hz] at hd
      omega
    · exact h.root z hz
  · simp only [upd] at hz ⊢
    split at hz
    · rename_i e
      rw [if_pos e]
      subst e
      omega
    · rename_i e
      rw [if_neg e]
      exact h.dec z hz
  · simp only [upd] at hz
    split at hz
    · rename_i e
      subst e
      rw [hz] at hd
      omega
    · exact h.root0 z hz
  · simp only [upd]
    split
    · exact h.bound _ (h.bound x hx)
    · exact h.bound z hz
  · simp only [upd]
    split
    · rename_i e
      subst e
      exact absurd hx (by simp only at hz; omega)
    · exact h.out z hz
  · simp only [upd] at hrr
    split at hrr
    · rename_i e
      subst e
      rw [hrr] at hd
      omega
    · exact h.cnt r hr hrr

/-- Looking up a representative ends within as many rounds as there are classes, returns the root, and changes no root. -/
theorem representative_spec {u : UF} {rt d : Nat → Nat} (h : Inv u rt d) (k x : Nat) (hx : x < u.n) (hk : d x < k) :
    ∃ u', representative k u x = some (rt x, u') ∧ Inv u' rt d ∧ u'.n = u.n := by
  induction k generalizing u x with
  | zero => omega
  | succ k ih =>
    simp only [representative]
    split
    · rename_i hp
      exact ⟨u, by rw [h.root x hp], h, rfl⟩
    · rename_i hp
      have hd := h.dec x hp
      obtain ⟨u', h1, h2, h3⟩ := ih (inv_split h hx hp) (u.parent x) (h.bound x hx) (by omega)
      exact ⟨u', by rw [h1, h.rt_parent], h2, h3⟩

theorem representative_n {u : UF} {rt d : Nat → Nat} (h : Inv u rt d) {x : Nat} (hx : x < u.n) {k : Nat} (hk : u.n ≤ k) :
    ∃ u', representative k u x = some (rt x, u') ∧ Inv u' rt d ∧ u'.n = u.n :=
  representative_spec h k x hx (Nat.lt_of_lt_of_le (h.d_lt hx) hk)

theorem congruent_spec {u : UF} {rt d : Nat → Nat} (h : Inv u rt d) {a b k : Nat} (ha : a < u.n) (hb : b < u.n)
    (hk : u.n ≤ k) : ∃ u', congruent k u a b = some (decide (rt a = rt b), u') ∧ Inv u' rt d ∧ u'.n = u.n := by
  obtain ⟨u1, e1, i1, n1⟩ := representative_n h ha hk
  obtain ⟨u2, e2, i2, n2⟩ := representative_n i1 (x := b) (by omega) (k := k) (by omega)
  exact ⟨u2, by simp only [congruent, e1, Option.bind_some, e2], i2, by omega⟩

/-- The roots after joining two trees. -/
def joinRt (rt : Nat → Nat) (x y : Nat) : Nat → Nat := fun z => if rt z = y then x else rt z

def joinD (rt d : Nat → Nat) (y : Nat) : Nat → Nat := fun z => if rt z = y then d z + 1 else d z

theorem inv_join {u : UF} {rt d : Nat → Nat} (h : Inv u rt d) {x y : Nat} (hx : x < u.n) (hy : y < u.n) (hxr : u.parent x = x)
    (hyr : u.parent y = y) (hne : x ≠ y) :
    Inv { u with parent := upd u.parent y x, size := upd u.size x (u.size x + u.size y) } (joinRt rt x y) (joinD rt d y) := by
  have rx := h.root x hxr
  have ry := h.root y hyr
  have sx := h.dsize x hx
  have sy := h.dsize y hy
  rw [rx] at sx
  rw [ry] at sy
  refine ⟨fun z => ?_, fun z => ?_, fun z hz => ?_, fun z hz => ?_, fun z hz => ?_, fun z hz => ?_, fun z hz => ?_,
    fun r hr hrr => ?_, fun z hz => ?_⟩
  · simp only [upd, joinRt]
    by_cases e : z = y
    · subst e; simp [rx, ry, hne]
    · simp only [if_neg e, h.rt_parent]
  · simp only [upd, joinRt]
    split
    · simp [hne, hxr]
    · rename_i e
      simp [e, h.rt_root]
  · simp only [upd] at hz
    split at hz
    · rename_i e
      exact absurd (hz.trans e) hne
    · rename_i e
      simp only [joinRt, h.root z hz, if_neg e]
  · simp only [upd] at hz ⊢
    by_cases e : z = y
    · subst e
      simp only [if_true, joinD, rx, ry, if_neg hne]
      have := h.root0 x hxr
      omega
    · simp only [if_neg e] at hz ⊢
      simp only [joinD, h.rt_parent]
      have := h.dec z hz
      split <;> omega
  · simp only [upd] at hz
    split at hz
    · rename_i e
      exact absurd (hz.trans e) hne
    · rename_i e
      simp only [joinD, h.root z hz, if_neg e]
      exact h.root0 z hz
  · simp only [upd]
    split
    · exact hx
    · exact h.bound z hz
  · simp only [upd]
    split
    · rename_i e
      subst e
      simp only at hz
      omega
    · exact h.out z hz
  · simp only [upd] at hrr ⊢
    split at hrr
    · rename_i e
      exact absurd (hrr.trans e) hne
    · rename_i e
      split
      · rename_i e2
        subst e2
        rw [h.cnt r hx hxr, h.cnt y hy hyr]
        have : ∀ l : List Nat, l.countP (fun z => decide (joinRt rt r y z = r)) =
            l.countP (fun z => decide (rt z = r)) + l.countP (fun z => decide (rt z = y)) := by
          intro l
          induction l with
          | nil => rfl
          | cons z l ih =>
            rw [List.countP_cons, List.countP_cons, List.countP_cons, ih]
            simp only [joinRt]
            by_cases h1 : rt z = y
            · have h2 : rt z ≠ r := fun h => e (h.symm.trans h1)
              simp [h1, Ne.symm e]; omega
            · simp [h1]; omega
        rw [this]
      · rename_i e2
        rw [h.cnt r hr hrr]
        refine List.countP_congr fun z _ => ?_
        simp only [joinRt, decide_eq_true_eq]
        by_cases h1 : rt z = y
        · simp [h1, Ne.symm e, Ne.symm e2]
        · simp [h1]
  · have hd := h.dsize z hz
    simp only [joinD, joinRt, upd]
    split
    · rename_i e
      rw [e] at hd
      simp only [if_true]
      omega
    · split
      · rename_i e2
        rw [e2] at hd
        omega
      · exact hd

theorem merge_spec {u : UF} {rt d : Nat → Nat} (h : Inv u rt d) {a b k : Nat} (ha : a < u.n) (hb : b < u.n)
    (hk : u.n ≤ k) : ∃ u' rt' d', merge k u a b = some u' ∧ Inv u' rt' d' ∧ u'.n = u.n ∧
      ((∀ z, rt' z = rt z) ∧ rt a = rt b ∨
        ∃ x y, (x = rt a ∧ y = rt b ∨ x = rt b ∧ y = rt a) ∧ ∀ z, rt' z = joinRt rt x y z) := by
  obtain ⟨u1, e1, i1, n1⟩ := representative_n h ha hk
  obtain ⟨u2, e2, i2, n2⟩ := representative_n i1 (x := b) (by omega) (k := k) (by omega)
  simp only [merge, e1, Option.bind_some, e2]
  by_cases hab : rt a = rt b
  · exact ⟨u2, rt, d, by rw [if_pos hab], i2, by omega, Or.inl ⟨fun _ => rfl, hab⟩⟩
  · rw [if_neg hab]
    have la := i2.rt_lt a (by omega)
    have lb := i2.rt_lt b (by omega)
    by_cases hs : u2.size (rt a) < u2.size (rt b)
    · simp only [if_pos hs]
      exact ⟨_, _, _, rfl, inv_join i2 lb la (i2.rt_root b) (i2.rt_root a) (Ne.symm hab), by simp only; omega,
        Or.inr ⟨rt b, rt a, Or.inr ⟨rfl, rfl⟩, fun _ => rfl⟩⟩
    · simp only [if_neg hs]
      exact ⟨_, _, _, rfl, inv_join i2 la lb (i2.rt_root a) (i2.rt_root b) hab, by simp only; omega,
        Or.inr ⟨rt a, rt b, Or.inl ⟨rfl, rfl⟩, fun _ => rfl⟩⟩

theorem make_spec {u : UF} {rt d : Nat → Nat} (h : Inv u rt d) : Inv u.make.2 rt d := by
  have hp := h.out u.n (Nat.le_refl _)
  have hr := h.root u.n hp
  have e : upd u.parent u.n u.n = u.parent := by
    funext z
    simp only [upd]
    split
    · rename_i e; rw [e, hp]
    · rfl
  refine ⟨fun z => ?_, fun z => ?_, fun z hz => ?_, fun z hz => ?_, fun z hz => ?_, fun z hz => ?_, fun z hz => ?_,
    fun r hr' hrr => ?_, fun z hz => ?_⟩
  all_goals simp only [make, e] at *
  · exact h.rt_parent z
  · exact h.rt_root z
  · exact h.root z hz
  · exact h.dec z hz
  · exact h.root0 z hz
  · by_cases hz' : z < u.n
    · have := h.bound z hz'; omega
    · rw [h.out z (by omega)]; exact hz
  · exact h.out z (by omega)
  · rw [List.range_succ, List.countP_append]
    by_cases hr' : r = u.n
    · subst hr'
      have : (List.range u.n).countP (fun z => decide (rt z = u.n)) = 0 := by
        rw [List.countP_eq_zero]
        intro z hz
        have := h.rt_lt z (List.mem_range.1 hz)
        simp; omega
      simp [upd, this, hr]
    · have hlt : r < u.n := by omega
      have h2 : rt u.n ≠ r := by rw [hr]; exact Ne.symm hr'
      simp [upd, hr', h.cnt r hlt hrr, h2]
  · by_cases hz' : z < u.n
    · have h1 := h.dsize z hz'
      have h2 := h.rt_lt z hz'
      simp only [upd]
      rw [if_neg (by omega)]
      exact h1
    · have : z = u.n := by omega
      subst this
      rw [hr, h.root0 _ hp]
      simp [upd]

theorem conn_mono {ops ops' : List Op} (h : ∀ o ∈ ops, o ∈ ops') {a b : Nat} (hc : Conn ops a b) : Conn ops' a b := by
  induction hc with
  | base hm => exact .base (h _ hm)
  | refl a => exact .refl a
  | symm _ ih => exact ih.symm
  | trans _ _ ih1 ih2 => exact ih1.trans ih2

theorem conn_rt {ops : List Op} {rt : Nat → Nat} (h : ∀ a b, .merge a b ∈ ops → rt a = rt b) {a b : Nat} (hc : Conn ops a b) :
    rt a = rt b := by
  induction hc with
  | base hm => exact h _ _ hm
  | refl a => rfl
  | symm _ ih => exact ih.symm
  | trans _ _ ih1 ih2 => exact ih1.trans ih2

theorem run_spec (k : Nat) (ops done : List Op) (u : UF) (rt d : Nat → Nat) (h : Inv u rt d) (hv : Valid u.n ops)
    (hk : u.n + made ops ≤ k) (hc : ∀ a b, rt a = rt b ↔ Conn done a b) :
    ∃ u' rt' d', run k u ops = some u' ∧ Inv u' rt' d' ∧ u'.n = u.n + made ops ∧
      ∀ a b, rt' a = rt' b ↔ Conn (done ++ ops) a b := by
  induction ops generalizing done u rt d with
  | nil => exact ⟨u, rt, d, rfl, h, by simp [made], by simpa using hc⟩
  | cons o ops ih =>
    cases o with
    | make =>
      have hm : made (.make :: ops) = made ops + 1 := by simp [made]
      obtain ⟨u', rt', d', h1, h2, h3, h4⟩ := ih (done ++ [.make]) u.make.2 rt d (make_spec h) (by simpa [make, Valid] using hv)
        (by simp only [make]; omega) (fun a b => (hc a b).trans
          ⟨conn_mono (by simp +contextual), fun hcn => (hc a b).1 (conn_rt (fun a b hm => (hc a b).2 (.base (by simpa using hm))) hcn)⟩)
      refine ⟨u', rt', d', h1, h2, by simp only [make] at h3; omega, ?_⟩
      simpa using h4
    | ask a b =>
      obtain ⟨va, vb, hv⟩ := hv
      have hm : made (.ask a b :: ops) = made ops := by simp [made]
      obtain ⟨u1, e1, i1, n1⟩ := congruent_spec h va vb (k := k) (by omega)
      obtain ⟨u', rt', d', h1, h2, h3, h4⟩ := ih (done ++ [.ask a b]) u1 rt d i1 (by rw [n1]; exact hv)
        (by omega) (fun a b => (hc a b).trans
          ⟨conn_mono (by simp +contextual), fun hcn => (hc a b).1 (conn_rt (fun a b hm => (hc a b).2 (.base (by simpa using hm))) hcn)⟩)
      refine ⟨u', rt', d', ?_, h2, by omega, ?_⟩
      · simp only [run, e1, Option.bind_some, h1]
      · simpa using h4
    | merge a b =>
      obtain ⟨va, vb, hv⟩ := hv
      have hm : made (.merge a b :: ops) = made ops := by simp [made]
      obtain ⟨u1, rt1, d1, e1, i1, n1, hj⟩ := merge_spec h va vb (k := k) (by omega)
      have hc1 : ∀ p q, rt1 p = rt1 q ↔ Conn (done ++ [.merge a b]) p q := by
        have old : ∀ {p q}, rt p = rt q → Conn (done ++ [.merge a b]) p q := fun hh =>
          conn_mono (by simp +contextual) ((hc _ _).1 hh)
        have new : Conn (done ++ [.merge a b]) a b := .base (by simp)
        intro p q
        rcases hj with ⟨hsame, hab⟩ | ⟨x, y, hxy, hrt⟩
        · rw [hsame, hsame]
          constructor
          · exact old
          · intro hcn
            refine conn_rt (fun p q hm => ?_) hcn
            simp only [List.mem_append, List.mem_singleton, Op.merge.injEq] at hm
            rcases hm with hm | ⟨rfl, rfl⟩
            · exact (hc _ _).2 (.base hm)
            · exact hab
        · constructor
          · rw [hrt, hrt]
            simp only [joinRt]
            intro hpq
            have nxy : ∀ {p q}, rt p = x → rt q = y → Conn (done ++ [.merge a b]) p q := by
              intro p q hp hq
              rcases hxy with ⟨rfl, rfl⟩ | ⟨rfl, rfl⟩
              · exact ((old hp).trans new).trans (old hq.symm)
              · exact ((old hp).trans new.symm).trans (old hq.symm)
            split at hpq <;> split at hpq
            · rename_i h1 h2; exact old (h1.trans h2.symm)
            · rename_i h1 h2; exact (nxy hpq.symm h1).symm
            · rename_i h1 h2; exact nxy hpq h2
            · exact old hpq
          · intro hcn
            refine conn_rt (fun p q hm => ?_) hcn
            rw [hrt, hrt]
            simp only [List.mem_append, List.mem_singleton, Op.merge.injEq] at hm
            rcases hm with hm | ⟨rfl, rfl⟩
            · simp only [joinRt, (hc _ _).2 (.base hm)]
            · rcases hxy with ⟨rfl, rfl⟩ | ⟨rfl, rfl⟩ <;> simp only [joinRt] <;> split <;> simp_all
      obtain ⟨u', rt', d', h1, h2, h3, h4⟩ := ih (done ++ [.merge a b]) u1 rt1 d1 i1 (by rw [n1]; exact hv) (by omega) hc1
      refine ⟨u', rt', d', ?_, h2, by omega, ?_⟩
      · simp only [run, e1, Option.bind_some, h1]
      · simpa using h4

/-- **C40.** For every sequence of class creations, merges and lookups (which compress paths): no lookup takes more rounds than
there are classes, and afterwards any two classes are reported congruent exactly when merges connect them. -/
theorem C40_exact (ops : List Op) (hv : Valid 0 ops) :
    ∃ u, run (made ops) empty ops = some u ∧ ∀ a b, a < made ops → b < made ops →
      ∃ ans u', congruent (made ops) u a b = some (ans, u') ∧ (ans = true ↔ Conn ops a b) := by
  have h0 : ∀ a b : Nat, id a = id b ↔ Conn [] a b := by
    intro a b
    constructor
    · rintro rfl; exact .refl _
    · exact fun hc => conn_rt (rt := id) (by simp) hc
  obtain ⟨u, rt, d, h1, h2, h3, h4⟩ := run_spec (made ops) ops [] empty id (fun _ => 0) inv_empty hv (by simp [empty]) h0
  refine ⟨u, h1, fun a b ha hb => ?_⟩
  have hn : u.n = made ops := by simpa [empty] using h3
  obtain ⟨u', e, _, _⟩ := congruent_spec h2 (a := a) (b := b) (k := made ops) (by omega) (by omega) (by omega)
  exact ⟨_, u', e, by simpa using h4 a b⟩

/-- Whatever was looked up before, a second lookup gives the same answer. -/
theorem C40_compression (ops : List Op) (a b c d : Nat) (hv : Valid 0 (ops ++ [.ask a b])) (hc : c < made ops) (hd : d < made ops) :
    ∃ u u1 u2 u3 ans x, run (made ops) empty ops = some u ∧ congruent (made ops) u c d = some (ans, u1) ∧
      congruent (made ops) u a b = some (x, u2) ∧ congruent (made ops) u2 c d = some (ans, u3) := by
  have hv' : Valid 0 ops ∧ a < made ops ∧ b < made ops := by
    have : ∀ (ops : List Op) n, Valid n (ops ++ [.ask a b]) → Valid n ops ∧ a < n + made ops ∧ b < n + made ops := by
      intro ops
      induction ops with
      | nil => intro n h; exact ⟨trivial, h.1, h.2.1⟩
      | cons o ops ih =>
        intro n h
        cases o with
        | make =>
          have := ih (n + 1) h
          have hm : made (.make :: ops) = made ops + 1 := by simp [made]
          exact ⟨this.1, by omega, by omega⟩
        | merge p q =>
          have := ih n h.2.2
          have hm : made (.merge p q :: ops) = made ops := by simp [made]
          exact ⟨⟨h.1, h.2.1, this.1⟩, by omega, by omega⟩
        | ask p q =>
          have := ih n h.2.2
          have hm : made (.ask p q :: ops) = made ops := by simp [made]
          exact ⟨⟨h.1, h.2.1, this.1⟩, by omega, by omega⟩
    have := this ops 0 hv
    simpa using this
  have h0 : ∀ a b : Nat, id a = id b ↔ Conn [] a b := by
    intro a b
    constructor
    · rintro rfl; exact .refl _
    · exact fun hc => conn_rt (rt := id) (by simp) hc
  obtain ⟨u, rt, dd, h1, h2, h3, h4⟩ := run_spec (made ops) ops [] empty id (fun _ => 0) inv_empty hv'.1 (by simp [empty]) h0
  have hn : u.n = made ops := by simpa [empty] using h3
  obtain ⟨u1, e1, _, _⟩ := congruent_spec h2 (a := c) (b := d) (k := made ops) (by omega) (by omega) (by omega)
  obtain ⟨u2, e2, i2, n2⟩ := congruent_spec h2 (a := a) (b := b) (k := made ops) (by omega) (by omega) (by omega)
  obtain ⟨u3, e3, _, _⟩ := congruent_spec i2 (a := c) (b := d) (k := made ops) (by omega) (by omega) (by omega)
  exact ⟨u, u1, u2, u3, _, _, h1, e1, e2, e3⟩

/-- The hypotheses are met: five classes, three merges. -/
example : Valid 0 [.make, .make, .make, .make, .make, .merge 0 1, .merge 2 3, .ask 1 4, .merge 1 3] := by simp [Valid]

example : ((run 5 empty [.make, .make, .make, .make, .make, .merge 0 1, .merge 2 3, .merge 1 3]).bind
    fun u => (congruent 5 u 0 2).bind fun r => (congruent 5 r.2 0 4).map fun r' => (r.1, r'.1)) = some (true, false) := by
  decide +kernel

end UF
end Verif.Equality
