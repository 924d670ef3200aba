import Verif.Unif.Machine
/-!
# What a run of the machine establishes

For terms in which every symbol has one arity, the machine visits the two terms in parallel: the
current term of the machine always faces the current sub-term of the compiled term.
-/

namespace Verif.Unif

universe u

/-! ### Small facts -/

theorem Res.ok_bind {α β : Type} (a : α) (f : α → Res β) : (Res.ok a).bind f = f a := rfl

theorem exec_append (au : AU) (is js : List Instr) (m : M) :
    exec au (is ++ js) m = (exec au is m).bind (exec au js) := by
  induction is generalizing m with
  | nil => rfl
  | cons i is ih =>
    simp only [List.cons_append, exec]
    cases m.step au i <;> simp [Res.bind, ih]

theorem unwrap_eval {D : Type u} {A : Alg D} {σ : Nat → D} {s : Subst} (h : Subst.Sol A σ s) (n : Nat)
    (seen : List Nat) (t : UT) : (unwrap s n seen t).eval A σ = t.eval A σ := by
  induction n generalizing seen t with
  | zero => rfl
  | succ n ih =>
    cases t with
    | fn p args => rfl
    | mv i =>
      simp only [unwrap]
      cases hg : s.get i with
      | none => rfl
      | some v =>
        by_cases hi : i ∈ seen
        · simp [hi]
        · simp only [hi, if_false]
          rw [ih]
          exact (h _ (Subst.get_mem hg)).symm

theorem unwrap_ar {ar : Nat → Nat} {s : Subst} (h : s.Ar ar) (n : Nat) (seen : List Nat) (t : UT)
    (ht : t.Ar ar) : (unwrap s n seen t).Ar ar := by
  induction n generalizing seen t with
  | zero => exact ht
  | succ n ih =>
    cases t with
    | fn p args => exact ht
    | mv i =>
      simp only [unwrap]
      cases hg : s.get i with
      | none => exact ht
      | some v =>
        by_cases hi : i ∈ seen
        · simp [hi, UT.Ar]
        · simp only [hi, if_false]
          exact ih _ _ (h _ (Subst.get_mem hg))

theorem getAt_mem {l : List (Nat × UT)} {i : Nat} {t : UT} (h : getAt l i = some t) : (i, t) ∈ l :=
  Subst.get_mem (s := l) h

theorem getAt_of_mem {l : List (Nat × UT)} (hnd : (l.map (·.1)).Nodup) {i : Nat} {t : UT} (h : (i, t) ∈ l) :
    getAt l i = some t :=
  Subst.get_of_mem (s := l) hnd h

/-! ### Single instructions of an unlocked machine -/

section
variable {au : AU} {m : M}

theorem step_put {i : Nat} {t : UT} (h : m.beginLock = none) (hc : m.terms[m.q]? = some t) :
    m.step au (.put i) = .ok { m with subst := m.subst ++ [(i, t)] } := by
  unfold M.step; simp only [h, hc]

theorem step_right (h : m.beginLock = none) :
    m.step au .right =
      if m.terms.length ≤ m.q + 1 then .fail else .ok { m with q := m.q + 1, cnt := m.cnt + 1 } := by
  unfold M.step M.right; simp only [h]

theorem step_begin_mv {x : Nat} (h : m.beginLock = none) (hc : m.terms[m.q]? = some (.mv x)) :
    m.step au .begin = .ok { m with beginLock := some m.beginCount, beginCount := m.beginCount + 1 } := by
  unfold M.step; simp only [h, hc, Option.getD_none]

theorem step_begin_fn {p : Nat} {args : List UT} (hc : m.terms[m.q]? = some (.fn p args)) :
    m.step au .begin = .ok { m with beginCount := m.beginCount + 1 } := by
  unfold M.step; simp only [hc]

theorem step_check_fn {p p' : Nat} {args : List UT} (h : m.beginLock = none)
    (hc : m.terms[m.q]? = some (.fn p' args)) : m.step au (.check p) = if p' = p then .ok m else .fail := by
  unfold M.step; simp only [h, hc]

theorem step_push {i : Nat} (h : m.beginLock = none) :
    m.step au (.push i) = .ok { m with post := m.post ++ [(m.q + 1, m.terms)] } := by
  unfold M.step; simp only [h]

theorem step_down {p : Nat} {args : List UT} (h : m.beginLock = none)
    (hc : m.terms[m.q]? = some (.fn p args)) :
    m.step au .down = .ok { m with terms := args, q := 0, tot := m.tot + args.length, cnt := m.cnt + 1 } := by
  unfold M.step; simp only [h, hc]

theorem step_pop {i q : Nat} {ts : List UT} (h : m.beginLock = none) (hp : m.post[i]? = some (q, ts)) :
    m.step au (.pop i) = if ts.length ≤ q then .fail
      else .ok { m with q := q, terms := ts, post := m.post.eraseIdx i, cnt := m.cnt + 1 } := by
  unfold M.step; simp only [h, hp]

theorem step_fin {t : Option UT} (h : m.beginLock = none) :
    m.step au (.fin t) = M.checkEnd { m with beginCount := m.beginCount - 1 } := by
  unfold M.step M.fin; simp only [h]

end

/-! ### Locked runs: only the flags change -/

mutual
def pushesT (rd : Bool) : UT → Bool
  | .mv _ => false
  | .fn _ args => !args.isEmpty && (rd || pushesL args)
def pushesL : List UT → Bool
  | [] => false
  | t :: rest => pushesT (!rest.isEmpty) t || pushesL rest
end

def M.flag (m : M) (x : Bool) : M := { m with hasPushed := m.hasPushed || x, hasPoped := m.hasPoped || x }

theorem M.flag_flag (m : M) (x y : Bool) : (m.flag x).flag y = m.flag (x || y) := by
  simp [M.flag, Bool.or_assoc]

theorem compares_locked (au : AU) (seen : List Nat) (k : Nat) (m : M) (b : Nat) (hb : m.beginLock = some b) :
    exec au (compares seen k) m = .ok m := by
  unfold compares
  generalize ((List.range seen.length).filter _) = l
  induction l with
  | nil => rfl
  | cons j l ih => simp only [List.map_cons, exec, M.step, hb, Res.bind]; exact ih

/-- Running the code of a list of terms in a locked machine, given the same for its terms. -/
theorem lockedL_of (au : AU) (ts : List UT)
    (ih : ∀ t ∈ ts, ∀ (pc : Nat) (seen : List Nat) (rd : Bool) (m : M) (b : Nat), m.beginLock = some b →
      b < m.beginCount → (∃ x, m.terms[m.q]? = some (.mv x)) →
      exec au (parseT pc seen rd t) m = .ok (m.flag (pushesT rd t)))
    (pc : Nat) (seen : List Nat) (m : M) (b : Nat) (hb : m.beginLock = some b) (hc : b < m.beginCount)
    (hq : ∃ x, m.terms[m.q]? = some (.mv x)) :
    exec au (parseL pc seen ts) m = .ok (m.flag (pushesL ts)) := by
  induction ts generalizing seen m with
  | nil => simp [parseL, exec, M.flag, pushesL]
  | cons t rest ih2 =>
    simp only [parseL, exec_append]
    rw [ih t (by simp) pc seen _ m b hb hc hq]
    simp only [Res.bind]
    rw [ih2 (fun t ht => ih t (List.mem_cons_of_mem _ ht)) _ (m.flag _) hb hc hq, M.flag_flag, pushesL]

theorem lockedT (au : AU) (t : UT) : ∀ (pc : Nat) (seen : List Nat) (rd : Bool) (m : M) (b : Nat),
    m.beginLock = some b → b < m.beginCount → (∃ x, m.terms[m.q]? = some (.mv x)) →
    exec au (parseT pc seen rd t) m = .ok (m.flag (pushesT rd t)) := by
  induction t using UT.ind with
  | mv k =>
    intro pc seen rd m b hb hc hq
    simp only [parseT, exec, M.step, hb, Res.bind, exec_append, compares_locked au seen k m b hb, pushesT]
    cases rd
    · simp only [Bool.false_eq_true, if_false, exec, M.flag, Bool.or_false]
    · simp only [if_true, exec, M.step, M.right, hb, Res.bind, M.flag, Bool.or_false]
      rw [← hb]
  | fn p args ih =>
    intro pc seen rd m b hb hc hq
    obtain ⟨x, hx⟩ := hq
    have e1 : ¬ m.beginCount = b := by omega
    have e0 : ¬ m.beginCount = 0 := by omega
    by_cases he : args.isEmpty = true
    · simp only [parseT, he, if_true, exec, M.step, hx, hb, Res.bind, M.fin, Option.getD_some,
        Nat.add_sub_cancel, e1, if_false, M.checkEnd, e0, false_and, pushesT, Bool.not_true, Bool.false_and]
      cases rd
      · simp only [Bool.false_eq_true, if_false, exec, M.flag, Bool.or_false]
        rw [← hb]
      · simp only [if_true, exec, M.step, M.right, Res.bind, M.flag, Bool.or_false]
        rw [← hb]
    · have hL := lockedL_of au args ih
      have hne : args.isEmpty = false := by simpa using he
      cases rd
      · simp only [parseT, hne, Bool.false_eq_true, if_false, exec, M.step, hx, hb, Res.bind, Option.getD_some]
        rw [exec_append, hL pc seen { m with beginCount := m.beginCount + 1, beginLock := some b } b rfl
          (Nat.lt_succ_of_lt hc) ⟨x, hx⟩]
        simp only [Res.bind, exec, M.step, M.fin, M.flag, Nat.add_sub_cancel, e1, if_false, M.checkEnd, e0,
          false_and, pushesT, hne, Bool.not_false, Bool.true_and, Bool.false_or]
        rw [← hb]
      · simp only [parseT, hne, Bool.false_eq_true, if_false, if_true, exec, M.step, hx, hb, Res.bind,
          Option.getD_some]
        rw [exec_append, hL (pc + 1) seen { m with beginCount := m.beginCount + 1, beginLock := some b, hasPushed := true } b rfl
          (Nat.lt_succ_of_lt hc) ⟨x, hx⟩]
        simp only [Res.bind, exec, M.step, M.fin, M.flag, Nat.add_sub_cancel, e1, if_false, M.checkEnd, e0,
          false_and, pushesT, hne, Bool.not_false, Bool.true_and, Bool.true_or, Bool.or_true]
        rw [← hb]

theorem lockedL (au : AU) (ts : List UT) (pc : Nat) (seen : List Nat) (m : M) (b : Nat)
    (hb : m.beginLock = some b) (hc : b < m.beginCount) (hq : ∃ x, m.terms[m.q]? = some (.mv x)) :
    exec au (parseL pc seen ts) m = .ok (m.flag (pushesL ts)) :=
  lockedL_of au ts (fun t _ => lockedT au t) pc seen m b hb hc hq

/-! ### Assumptions on `AddUnification` -/

/-- Keys stay distinct and arities are respected. -/
def AUBase (ar : Nat → Nat) (au : AU) : Prop :=
  ∀ t1 t2 s r, t1.Ar ar → t2.Ar ar → (Subst.keys s).Nodup → s.Ar ar → au t1 t2 s = .ok r →
    r.keys.Nodup ∧ r.Ar ar

/-- The result implies the bindings and the equation. -/
def AUSound (ar : Nat → Nat) (au : AU) : Prop :=
  ∀ t1 t2 s r, t1.Ar ar → t2.Ar ar → (Subst.keys s).Nodup → s.Ar ar → au t1 t2 s = .ok r →
    ∀ {D : Type u} (A : Alg D) (σ : Nat → D), Subst.Sol A σ r →
      Subst.Sol A σ s ∧ t1.eval A σ = t2.eval A σ

/-- The result is implied by the bindings and the equation (in algebras with injective constructors). -/
def AUGen (ar : Nat → Nat) (au : AU) : Prop :=
  ∀ t1 t2 s r, t1.Ar ar → t2.Ar ar → (Subst.keys s).Nodup → s.Ar ar → au t1 t2 s = .ok r →
    ∀ {D : Type u} (A : Alg D), A.Free → ∀ (σ : Nat → D), Subst.Sol A σ s → t1.eval A σ = t2.eval A σ →
      Subst.Sol A σ r

/-! ### Unlocked runs -/

/-- The recorded pairs as equations. -/
def Ent {D : Type u} (A : Alg D) (σ : Nat → D) (seen : List Nat) (l : List (Nat × UT)) : Prop :=
  ∀ p ∈ l, ∀ k, seen[p.1]? = some k → σ k = p.2.eval A σ

theorem Ent.append {D : Type u} {A : Alg D} {σ : Nat → D} {seen : List Nat} {l l' : List (Nat × UT)} :
    Ent A σ seen (l ++ l') ↔ Ent A σ seen l ∧ Ent A σ seen l' := by
  simp only [Ent, List.mem_append, or_imp, forall_and]

theorem Ent.mono {D : Type u} {A : Alg D} {σ : Nat → D} {seen more : List Nat} {l : List (Nat × UT)}
    (hl : ∀ p ∈ l, p.1 < seen.length) : Ent A σ (seen ++ more) l ↔ Ent A σ seen l := by
  simp only [Ent]
  refine forall_congr' fun p => forall_congr' fun hp => ?_
  rw [List.getElem?_append_left (hl p hp)]

/-- Structural invariant. -/
structure Inv (ar : Nat → Nat) (seen : List Nat) (m : M) : Prop where
  idx : ∀ p ∈ m.subst, p.1 < seen.length
  nodup : (m.subst.map (·.1)).Nodup
  keys : m.mt.keys.Nodup
  arM : m.mt.Ar ar
  arS : ∀ p ∈ m.subst, p.2.Ar ar
  arT : ∀ t ∈ m.terms, t.Ar ar
  arP : ∀ p ∈ m.post, ∀ t ∈ p.2, t.Ar ar

/-- Recorded values of the same metavariable are equal whenever the bindings are satisfied. -/
def Compat {D : Type u} (A : Alg D) (seen : List Nat) (m : M) : Prop :=
  ∀ p ∈ m.subst, ∀ p' ∈ m.subst, ∀ k, seen[p.1]? = some k → seen[p'.1]? = some k →
    ∀ σ : Nat → D, Subst.Sol A σ m.mt → p.2.eval A σ = p'.2.eval A σ

/-- The meaning of a run on a piece of code for equation `eq`. -/
structure Post (ar : Nat → Nat) (au : AU) (seen seen' : List Nat) (m m' : M)
    (eq : ∀ {D : Type u} (_ : Alg D) (_ : Nat → D), Prop) : Prop where
  inv : Inv ar seen' m'
  snd : AUSound.{u} ar au → ∀ {D : Type u} (A : Alg D),
    (∀ σ, Subst.Sol A σ m'.mt → Subst.Sol A σ m.mt) ∧
    (Compat A seen m → Compat A seen' m') ∧
    (∀ σ, Subst.Sol A σ m'.mt → Ent A σ seen' m'.subst → Ent A σ seen m.subst ∧ eq A σ)
  gen : AUGen.{u} ar au → ∀ {D : Type u} (A : Alg D), A.Free → ∀ σ : Nat → D, Subst.Sol A σ m.mt →
    Ent A σ seen m.subst → eq A σ → Subst.Sol A σ m'.mt ∧ Ent A σ seen' m'.subst

/-- The machine is about to look at `u`. -/
structure Ready (m : M) (pre : List UT) (u : UT) (suf : List UT) : Prop where
  lock : m.beginLock = none
  push : m.hasPushed = false
  pop : m.hasPoped = false
  terms : m.terms = pre ++ u :: suf
  q : m.q = pre.length

/-- The frame of the machine after a piece of code: everything but the position is restored; if there
is a next argument, the machine is about to look at it. -/
structure Frame (m m' : M) (suf : List UT) : Prop where
  lock : m'.beginLock = none
  push : m'.hasPushed = false
  pop : m'.hasPoped = false
  post : m'.post = m.post
  count : m'.beginCount = m.beginCount
  next : suf ≠ [] → m'.terms = m.terms ∧ m'.q = m.q + 1

/-! #### Comparisons -/

theorem exec_compares {ar : Nat → Nat} {au : AU} (hb : AUBase ar au) (seen : List Nat) (k : Nat)
    (js : List Nat) (hjs : ∀ j ∈ js, seen[j]? = some k) (m m' : M) (hlock : m.beginLock = none)
    (hinv : Inv ar (seen ++ [k]) m)
    (h : exec au (js.map fun j => .compare j seen.length) m = .ok m') :
    (∃ s, m' = { m with mt := s }) ∧ Inv ar (seen ++ [k]) m' ∧
    (AUSound.{u} ar au → ∀ {D : Type u} (A : Alg D) (σ : Nat → D), Subst.Sol A σ m'.mt → Subst.Sol A σ m.mt ∧
      ∀ j ∈ js, ∀ a b, (j, a) ∈ m.subst → (seen.length, b) ∈ m.subst → a.eval A σ = b.eval A σ) ∧
    (AUGen.{u} ar au → ∀ {D : Type u} (A : Alg D), A.Free → ∀ σ : Nat → D, Subst.Sol A σ m.mt →
      Ent A σ (seen ++ [k]) m.subst → Subst.Sol A σ m'.mt) := by
  induction js generalizing m with
  | nil =>
    simp only [List.map_nil, exec, Res.ok.injEq] at h
    subst h
    exact ⟨⟨_, rfl⟩, hinv, fun _ _ _ _ h => ⟨h, by simp⟩, fun _ _ _ _ _ h _ => h⟩
  | cons j js ih =>
    simp only [List.map_cons, exec, Res.bind_ok] at h
    obtain ⟨m1, h1, h⟩ := h
    have hjk : seen[j]? = some k := hjs j (by simp)
    have key : (∃ s, m1 = { m with mt := s }) ∧ Inv ar (seen ++ [k]) m1 ∧
        (AUSound.{u} ar au → ∀ {D : Type u} (A : Alg D) (σ : Nat → D), Subst.Sol A σ m1.mt → Subst.Sol A σ m.mt ∧
          ∀ a b, (j, a) ∈ m.subst → (seen.length, b) ∈ m.subst → a.eval A σ = b.eval A σ) ∧
        (AUGen.{u} ar au → ∀ {D : Type u} (A : Alg D), A.Free → ∀ σ : Nat → D, Subst.Sol A σ m.mt →
          Ent A σ (seen ++ [k]) m.subst → Subst.Sol A σ m1.mt) := by
      simp only [M.step, hlock] at h1
      cases ha : getAt m.subst j with
      | none =>
        simp only [ha, Res.ok.injEq] at h1
        subst h1
        refine ⟨⟨_, rfl⟩, hinv, fun _ _ _ _ h => ⟨h, fun a b h1 _ => ?_⟩, fun _ _ _ _ _ h _ => h⟩
        rw [getAt_of_mem hinv.nodup h1] at ha; cases ha
      | some a =>
        cases hb' : getAt m.subst seen.length with
        | none =>
          simp only [ha, hb', Res.ok.injEq] at h1
          subst h1
          refine ⟨⟨_, rfl⟩, hinv, fun _ _ _ _ h => ⟨h, fun a b _ h2 => ?_⟩, fun _ _ _ _ _ h _ => h⟩
          rw [getAt_of_mem hinv.nodup h2] at hb'; cases hb'
        | some b =>
          simp only [ha, hb'] at h1
          have hma := getAt_mem ha
          have hmb := getAt_mem hb'
          have uniq : ∀ a' b', (j, a') ∈ m.subst → (seen.length, b') ∈ m.subst → a' = a ∧ b' = b := by
            intro a' b' h1 h2
            have e1 := getAt_of_mem hinv.nodup h1
            have e2 := getAt_of_mem hinv.nodup h2
            rw [ha] at e1; rw [hb'] at e2
            exact ⟨(Option.some.inj e1).symm, (Option.some.inj e2).symm⟩
          split at h1
          · rename_i heq
            simp only [Res.ok.injEq] at h1
            subst h1
            refine ⟨⟨_, rfl⟩, hinv, fun _ D A σ h => ⟨h, fun a' b' h1 h2 => ?_⟩, fun _ _ _ _ _ h _ => h⟩
            obtain ⟨rfl, rfl⟩ := uniq a' b' h1 h2
            rw [← unwrap_eval h _ [] a', ← unwrap_eval h _ [] b', heq]
          · simp only [Res.bind_ok, Res.ok.injEq] at h1
            obtain ⟨s, hs, h1⟩ := h1
            have h1 : m1 = { m with mt := s } := by rw [← h1, ← hlock]
            subst h1
            have ara := unwrap_ar hinv.arM (m.mt.length + 1) [] a (hinv.arS _ hma)
            have arb := unwrap_ar hinv.arM (m.mt.length + 1) [] b (hinv.arS _ hmb)
            obtain ⟨b1, b2⟩ := hb _ _ _ _ ara arb hinv.keys hinv.arM hs
            refine ⟨⟨s, rfl⟩, ⟨hinv.idx, hinv.nodup, b1, b2, hinv.arS, hinv.arT, hinv.arP⟩, ?_, ?_⟩
            · intro hsound D A σ h
              obtain ⟨e1, e2⟩ := hsound _ _ _ _ ara arb hinv.keys hinv.arM hs A σ h
              refine ⟨e1, fun a' b' h1 h2 => ?_⟩
              obtain ⟨rfl, rfl⟩ := uniq a' b' h1 h2
              rwa [unwrap_eval e1, unwrap_eval e1] at e2
            · intro hgen D A hA σ h hent
              refine hgen _ _ _ _ ara arb hinv.keys hinv.arM hs A hA σ h ?_
              rw [unwrap_eval h, unwrap_eval h]
              have lt : j < seen.length := by
                rcases Nat.lt_or_ge j seen.length with h | h
                · exact h
                · rw [List.getElem?_eq_none h] at hjk; cases hjk
              rw [← hent _ hma k (by rw [List.getElem?_append_left lt]; exact hjk),
                ← hent _ hmb k (by simp)]
    obtain ⟨⟨s, rfl⟩, hinv1, hs1, hg1⟩ := key
    obtain ⟨⟨s', rfl⟩, hinv2, hs2, hg2⟩ := ih (fun j hj => hjs j (List.mem_cons_of_mem _ hj)) { m with mt := s } hlock hinv1 h
    refine ⟨⟨s', rfl⟩, hinv2, ?_, ?_⟩
    · intro hsound D A σ h
      obtain ⟨e1, e2⟩ := hs2 hsound A σ h
      obtain ⟨e3, e4⟩ := hs1 hsound A σ e1
      refine ⟨e3, fun j' hj' a b g1 g2 => ?_⟩
      rcases List.mem_cons.1 hj' with rfl | hj'
      · exact e4 a b g1 g2
      · exact e2 j' hj' a b g1 g2
    · intro hgen D A hA σ h hent
      exact hg2 hgen A hA σ (hg1 hgen A hA σ h hent) hent

/-! #### A metavariable of the compiled term -/

theorem exec_mv {ar : Nat → Nat} {au : AU} (hb : AUBase ar au) (pc : Nat) (seen : List Nat) (k : Nat) (m m' : M)
    (pre : List UT) (u : UT) (suf : List UT) (hr : Ready m pre u suf) (hinv : Inv ar seen m)
    (h : exec au (parseT pc seen (!suf.isEmpty) (.mv k)) m = .ok m') :
    Frame m m' suf ∧ Post.{u} ar au seen (seen ++ [k]) m m' (fun A σ => σ k = u.eval A σ) := by
  have hcur : m.terms[m.q]? = some u := by rw [hr.terms, hr.q]; simp
  simp only [parseT, exec, step_put hr.lock hcur, exec_append] at h
  rw [Res.bind] at h
  have hinv1 : Inv ar (seen ++ [k]) { m with subst := m.subst ++ [(seen.length, u)] } := by
    refine ⟨?_, ?_, hinv.keys, hinv.arM, ?_, hinv.arT, hinv.arP⟩
    · intro p hp
      simp only [List.mem_append, List.mem_singleton] at hp
      rcases hp with hp | rfl
      · have := hinv.idx p hp; simp; omega
      · simp
    · simp only [List.map_append, List.map_cons, List.map_nil, List.nodup_append]
      refine ⟨hinv.nodup, by simp, ?_⟩
      intro a ha b hb
      simp only [List.mem_map] at ha
      simp only [List.mem_singleton] at hb
      obtain ⟨p, hp, rfl⟩ := ha
      subst hb
      have := hinv.idx p hp
      omega
    · intro p hp
      simp only [List.mem_append, List.mem_singleton] at hp
      rcases hp with hp | rfl
      · exact hinv.arS p hp
      · exact hinv.arT u (by rw [hr.terms]; simp)
  rw [exec_append, Res.bind_ok] at h
  obtain ⟨m1, hc, h⟩ := h
  have hjs : ∀ j, j ∈ (List.range seen.length).filter (fun j => decide (seen[j]? = some k)) ↔ seen[j]? = some k := by
    intro j
    simp only [List.mem_filter, List.mem_range, decide_eq_true_eq]
    refine ⟨fun h => h.2, fun h => ⟨?_, h⟩⟩
    rcases Nat.lt_or_ge j seen.length with h' | h'
    · exact h'
    · rw [List.getElem?_eq_none h'] at h; cases h
  obtain ⟨⟨s, rfl⟩, hinv2, hs, hg⟩ := exec_compares.{u} hb seen k _ (fun j hj => (hjs j).1 hj)
    { m with subst := m.subst ++ [(seen.length, u)] } m1 hr.lock hinv1 hc
  -- the meaning of the state before the final `Right`
  have hent : ∀ {D : Type u} (A : Alg D) (σ : Nat → D),
      Ent A σ (seen ++ [k]) (m.subst ++ [(seen.length, u)]) ↔ Ent A σ seen m.subst ∧ σ k = u.eval A σ := by
    intro D A σ
    rw [Ent.append, Ent.mono hinv.idx]
    refine and_congr_right fun _ => ?_
    simp [Ent]
  have post : ∀ m2 : M, m2.mt = s → m2.subst = m.subst ++ [(seen.length, u)] → Inv ar (seen ++ [k]) m2 →
      Post.{u} ar au seen (seen ++ [k]) m m2 (fun A σ => σ k = u.eval A σ) := by
    intro m2 e1 e2 hinv3
    refine ⟨hinv3, ?_, ?_⟩
    · intro hsound D A
      have hs := fun σ => hs hsound A σ
      refine ⟨fun σ hσ => (hs σ (by rw [← e1]; exact hσ)).1, ?_, ?_⟩
      · intro hcomp p hp p' hp' i hi hi' σ hσ
        rw [e1] at hσ
        obtain ⟨f1, f2⟩ := hs σ hσ
        rw [e2, List.mem_append, List.mem_singleton] at hp hp'
        have old : ∀ p ∈ m.subst, (seen ++ [k])[p.1]? = seen[p.1]? := fun p hp =>
          List.getElem?_append_left (hinv.idx p hp)
        rcases hp with hp | rfl <;> rcases hp' with hp' | rfl
        · rw [old p hp] at hi; rw [old p' hp'] at hi'
          exact hcomp p hp p' hp' i hi hi' σ f1
        · rw [old p hp] at hi
          simp at hi'
          subst hi'
          exact f2 p.1 ((hjs _).2 hi) p.2 u (by simp [hp]) (by simp)
        · rw [old p' hp'] at hi'
          simp at hi
          subst hi
          exact (f2 p'.1 ((hjs _).2 hi') p'.2 u (by simp [hp']) (by simp)).symm
        · rfl
      · intro σ hσ he
        rw [e2] at he
        exact (hent A σ).1 he
    · intro hgen D A hA σ hσ he heq
      rw [e1, e2]
      have := (hent A σ).2 ⟨he, heq⟩
      exact ⟨hg hgen A hA σ hσ this, this⟩
  cases suf with
  | nil =>
    simp only [List.isEmpty_nil, Bool.not_true, Bool.false_eq_true, if_false, exec, Res.ok.injEq] at h
    subst h
    exact ⟨⟨hr.lock, hr.push, hr.pop, rfl, rfl, fun h => absurd rfl h⟩, post _ rfl rfl hinv2⟩
  | cons w suf =>
    simp only [List.isEmpty_cons, Bool.not_false, if_true, exec, Res.bind_ok] at h
    obtain ⟨m3, h3, h⟩ := h
    rw [step_right (by exact hr.lock)] at h3
    simp only [Res.ok.injEq] at h
    subst h
    split at h3
    · cases h3
    · simp only [Res.ok.injEq] at h3
      subst h3
      exact ⟨⟨hr.lock, hr.push, hr.pop, rfl, rfl, fun _ => ⟨rfl, rfl⟩⟩,
        post _ rfl rfl ⟨hinv2.idx, hinv2.nodup, hinv2.keys, hinv2.arM, hinv2.arS, hinv2.arT, hinv2.arP⟩⟩

/-! #### Composition -/

theorem Post.trans {ar : Nat → Nat} {au : AU} {s0 s1 s2 : List Nat} {m0 m1 m2 : M}
    {eq1 eq2 : ∀ {D : Type u} (_ : Alg D) (_ : Nat → D), Prop} (h1 : Post.{u} ar au s0 s1 m0 m1 eq1)
    (h2 : Post.{u} ar au s1 s2 m1 m2 eq2) : Post.{u} ar au s0 s2 m0 m2 (fun A σ => eq1 A σ ∧ eq2 A σ) := by
  refine ⟨h2.inv, ?_, ?_⟩
  · intro hs D A
    obtain ⟨a1, b1, c1⟩ := h1.snd hs A
    obtain ⟨a2, b2, c2⟩ := h2.snd hs A
    refine ⟨fun σ h => a1 σ (a2 σ h), fun h => b2 (b1 h), fun σ h he => ?_⟩
    obtain ⟨d1, d2⟩ := c2 σ h he
    obtain ⟨e1, e2⟩ := c1 σ (a2 σ h) d1
    exact ⟨e1, e2, d2⟩
  · intro hg D A hA σ h he heq
    obtain ⟨d1, d2⟩ := h1.gen hg A hA σ h he heq.1
    exact h2.gen hg A hA σ d1 d2 heq.2

/-- Replaces the equation: the new one follows from the old one, and conversely in free algebras. -/
theorem Post.congr {ar : Nat → Nat} {au : AU} {s0 s1 : List Nat} {m0 m1 : M}
    {eq1 eq2 : ∀ {D : Type u} (_ : Alg D) (_ : Nat → D), Prop} (h : Post.{u} ar au s0 s1 m0 m1 eq1)
    (h12 : ∀ {D : Type u} (A : Alg D) (σ : Nat → D), eq1 A σ → eq2 A σ)
    (h21 : ∀ {D : Type u} (A : Alg D), A.Free → ∀ σ : Nat → D, eq2 A σ → eq1 A σ) :
    Post.{u} ar au s0 s1 m0 m1 eq2 := by
  refine ⟨h.inv, ?_, ?_⟩
  · intro hs D A
    obtain ⟨a1, b1, c1⟩ := h.snd hs A
    exact ⟨a1, b1, fun σ h he => (c1 σ h he).imp id (h12 A σ)⟩
  · intro hg D A hA σ h0 he heq
    exact h.gen hg A hA σ h0 he (h21 A hA σ heq)

/-- Changes of the other fields of the machine do not matter. -/
theorem Post.frame {ar : Nat → Nat} {au : AU} {s0 s1 : List Nat} {m0 m1 m0' m1' : M}
    {eq : ∀ {D : Type u} (_ : Alg D) (_ : Nat → D), Prop} (h : Post.{u} ar au s0 s1 m0 m1 eq)
    (e1 : m0'.mt = m0.mt) (e2 : m0'.subst = m0.subst) (e3 : m1'.mt = m1.mt) (e4 : m1'.subst = m1.subst)
    (hT : ∀ t ∈ m1'.terms, t.Ar ar) (hP : ∀ p ∈ m1'.post, ∀ t ∈ p.2, t.Ar ar) :
    Post.{u} ar au s0 s1 m0' m1' eq := by
  have hi := h.inv
  refine ⟨⟨by rw [e4]; exact hi.idx, by rw [e4]; exact hi.nodup, by rw [e3]; exact hi.keys,
    by rw [e3]; exact hi.arM, by rw [e4]; exact hi.arS, hT, hP⟩, ?_, ?_⟩
  · intro hs D A
    simpa only [Compat, e1, e2, e3, e4] using h.snd hs A
  · intro hg D A hA σ
    simpa only [e1, e2, e3, e4] using h.gen hg A hA σ

/-- A machine whose recorded pairs and bindings have not changed. -/
theorem Post.refl {ar : Nat → Nat} {au : AU} {seen : List Nat} (more : List Nat) {m m' : M}
    {eq : ∀ {D : Type u} (_ : Alg D) (_ : Nat → D), Prop} (hi : Inv ar seen m)
    (heq : ∀ {D : Type u} (A : Alg D) (σ : Nat → D), eq A σ) (e1 : m'.mt = m.mt) (e2 : m'.subst = m.subst)
    (hT : ∀ t ∈ m'.terms, t.Ar ar) (hP : ∀ p ∈ m'.post, ∀ t ∈ p.2, t.Ar ar) :
    Post.{u} ar au seen (seen ++ more) m m' eq := by
  have old : ∀ p ∈ m.subst, (seen ++ more)[p.1]? = seen[p.1]? := fun p hp =>
    List.getElem?_append_left (hi.idx p hp)
  refine ⟨⟨fun p hp => ?_, by rw [e2]; exact hi.nodup, by rw [e1]; exact hi.keys, by rw [e1]; exact hi.arM,
    by rw [e2]; exact hi.arS, hT, hP⟩, ?_, ?_⟩
  · rw [e2] at hp; have := hi.idx p hp; simp; omega
  · intro _ D A
    rw [e1, e2]
    refine ⟨fun _ h => h, ?_, fun σ _ he => ⟨(Ent.mono hi.idx).1 he, heq A σ⟩⟩
    intro hc p hp p' hp' k hk hk' σ hσ
    rw [e2] at hp hp'
    rw [old p hp] at hk; rw [old p' hp'] at hk'
    rw [e1] at hσ
    exact hc p hp p' hp' k hk hk' σ hσ
  · intro _ D A _ σ h he _
    rw [e1, e2]
    exact ⟨h, (Ent.mono hi.idx).2 he⟩

/-- A machine whose bindings have been extended by `AddUnification`. -/
theorem Post.ofAU {ar : Nat → Nat} {au : AU} (hb : AUBase ar au) {seen : List Nat} (more : List Nat) {m m' : M}
    {t1 t2 : UT} (a1 : t1.Ar ar) (a2 : t2.Ar ar) (hi : Inv ar seen m) (hau : au t1 t2 m.mt = .ok m'.mt)
    (e2 : m'.subst = m.subst) (hT : ∀ t ∈ m'.terms, t.Ar ar) (hP : ∀ p ∈ m'.post, ∀ t ∈ p.2, t.Ar ar) :
    Post.{u} ar au seen (seen ++ more) m m' (fun A σ => t1.eval A σ = t2.eval A σ) := by
  have old : ∀ p ∈ m.subst, (seen ++ more)[p.1]? = seen[p.1]? := fun p hp =>
    List.getElem?_append_left (hi.idx p hp)
  obtain ⟨b1, b2⟩ := hb _ _ _ _ a1 a2 hi.keys hi.arM hau
  refine ⟨⟨fun p hp => ?_, by rw [e2]; exact hi.nodup, b1, b2, by rw [e2]; exact hi.arS, hT, hP⟩, ?_, ?_⟩
  · rw [e2] at hp; have := hi.idx p hp; simp; omega
  · intro hs D A
    have hs := fun σ => hs _ _ _ _ a1 a2 hi.keys hi.arM hau A σ
    rw [e2]
    refine ⟨fun σ h => (hs σ h).1, ?_, fun σ h he => ⟨(Ent.mono hi.idx).1 he, (hs σ h).2⟩⟩
    intro hc p hp p' hp' k hk hk' σ hσ
    rw [e2] at hp hp'
    rw [old p hp] at hk; rw [old p' hp'] at hk'
    exact hc p hp p' hp' k hk hk' σ (hs σ hσ).1
  · intro hg D A hA σ h he heq
    rw [e2]
    exact ⟨hg _ _ _ _ a1 a2 hi.keys hi.arM hau A hA σ h heq, (Ent.mono hi.idx).2 he⟩

/-! #### Terms and lists of terms -/

/-- The statement for a term. -/
def PT (ar : Nat → Nat) (au : AU) (t : UT) : Prop :=
  ∀ (seen : List Nat) (m m' : M) (pre : List UT) (u : UT) (suf : List UT), Ready m pre u suf → Inv ar seen m →
    t.Ar ar → exec au (parseT m.post.length seen (!suf.isEmpty) t) m = .ok m' →
    Frame m m' suf ∧ Post.{u} ar au seen (seen ++ t.occ) m m' (fun A σ => t.eval A σ = u.eval A σ)

theorem exec_list {ar : Nat → Nat} {au : AU} (ts : List UT) (ih : ∀ t ∈ ts, PT.{u} ar au t)
    (hts : UT.ArL ar ts) (seen : List Nat) (m m' : M) (pre : List UT) (u : UT) (suf : List UT)
    (hr : Ready m pre u suf) (hi : Inv ar seen m) (hlen : ts.length = (u :: suf).length)
    (h : exec au (parseL m.post.length seen ts) m = .ok m') :
    Frame m m' [] ∧ Post.{u} ar au seen (seen ++ UT.occL ts) m m'
      (fun A σ => UT.evalL A σ ts = UT.evalL A σ (u :: suf)) := by
  induction ts generalizing seen m pre u suf with
  | nil => simp at hlen
  | cons t rest ih2 =>
    simp only [parseL, exec_append, Res.bind_ok] at h
    obtain ⟨m1, h1, h⟩ := h
    have hemp : rest.isEmpty = suf.isEmpty := by
      cases rest <;> cases suf <;> simp_all
    rw [hemp] at h1
    obtain ⟨hf, hp⟩ := ih t (by simp) seen m m1 pre u suf hr hi hts.1 h1
    cases suf with
    | nil =>
      have : rest = [] := by cases rest <;> simp_all
      subst this
      simp only [parseL, exec, Res.ok.injEq] at h
      subst h
      refine ⟨hf, ?_⟩
      simp only [UT.occL, List.append_nil]
      refine hp.congr (fun A σ h => by simp [UT.evalL, h]) (fun A _ σ h => ?_)
      simpa [UT.evalL] using h
    | cons w suf =>
      obtain ⟨n1, n2⟩ := hf.next (by simp)
      have hr1 : Ready m1 (pre ++ [u]) w suf :=
        ⟨hf.lock, hf.push, hf.pop, by rw [n1, hr.terms]; simp, by rw [n2, hr.q]; simp⟩
      rw [← hf.post] at h
      obtain ⟨hf2, hp2⟩ := ih2 (fun t ht => ih t (List.mem_cons_of_mem _ ht)) hts.2 (seen ++ t.occ) m1 (pre ++ [u]) w suf hr1
        hp.inv (by simpa using hlen) h
      refine ⟨⟨hf2.lock, hf2.push, hf2.pop, by rw [hf2.post, hf.post], by rw [hf2.count, hf.count],
        fun h => absurd rfl h⟩, ?_⟩
      have := hp.trans hp2
      rw [List.append_assoc] at this
      exact this.congr (fun A σ h => by simp [UT.evalL, h.1] at h ⊢; exact h)
        (fun A _ σ h => by simpa [UT.evalL] using h)

theorem checkEnd_ok {m m' : M} (h : m.checkEnd = .ok m') : m' = m := by
  unfold M.checkEnd at h
  split at h
  · cases h
  · simp only [Res.ok.injEq] at h; exact h.symm

/-- The end of the block of a function symbol in a machine locked on the metavariable `x`. -/
theorem fin_locked {au : AU} {m m' : M} {x c : Nat} {t : UT} (hl : m.beginLock = some c)
    (hc : m.beginCount = c + 1) (hcur : m.terms[m.q]? = some (.mv x))
    (h : m.step au (.fin (some t)) = .ok m') :
    ∃ s, au (.mv x) t m.mt = .ok s ∧
      (M.lockedRight { m with beginCount := c, beginLock := none, mt := s }) = .ok m' := by
  simp only [M.step, M.fin, hl, hc, Nat.add_sub_cancel, if_true, hcur, Res.bind_ok] at h
  obtain ⟨s, hs, m2, h2, h3⟩ := h
  rw [checkEnd_ok h3]
  exact ⟨s, hs, h2⟩

theorem exec_fn {ar : Nat → Nat} {au : AU} (hb : AUBase ar au) (p : Nat) (args : List UT)
    (ih : ∀ a ∈ args, PT.{u} ar au a) : PT.{u} ar au (.fn p args) := by
  intro seen m m' pre u suf hr hi hart h
  have hcur : m.terms[m.q]? = some u := by rw [hr.terms, hr.q]; simp
  have hq : m.q + 1 < m.terms.length ↔ suf ≠ [] := by
    rw [hr.q, hr.terms]; cases suf <;> simp
  cases u with
  | mv x =>
    -- the machine is locked until the end of the block
    have hadd : ∀ {s : Subst} {m2 : M}, au (.mv x) (.fn p args) m.mt = .ok s → m2.mt = s → m2.subst = m.subst →
        m2.terms = m.terms → m2.post = m.post →
        Post.{u} ar au seen (seen ++ (UT.fn p args).occ) m m2
          (fun A σ => (UT.fn p args).eval A σ = (UT.mv x).eval A σ) := by
      intro s m2 hs e1 e2 e3 e4
      subst e1
      refine (Post.ofAU hb (UT.fn p args).occ (t1 := .mv x) (t2 := .fn p args) (by simp [UT.Ar]) hart hi hs e2
        (by rw [e3]; exact hi.arT) (by rw [e4]; exact hi.arP)).congr (fun A σ h => h.symm) (fun A _ σ h => h.symm)
    by_cases he : args.isEmpty = true
    · simp only [parseT, he, if_true, exec, Res.bind_ok] at h
      obtain ⟨m1, h1, m2, h2, m3, h3, h⟩ := h
      rw [step_begin_mv hr.lock hcur] at h1
      simp only [Res.ok.injEq] at h1
      subst h1
      simp only [M.step, Res.ok.injEq] at h2
      subst h2
      obtain ⟨s, hs, h3⟩ := fin_locked (by rfl) (by rfl) (by exact hcur) h3
      simp only [M.lockedRight, hr.push, Bool.false_and, Bool.false_eq_true, if_false, Res.ok.injEq] at h3
      subst h3
      cases suf with
      | nil =>
        simp only [List.isEmpty_nil, Bool.not_true, Bool.false_eq_true, if_false, exec, Res.ok.injEq] at h
        subst h
        exact ⟨⟨rfl, rfl, hr.pop, rfl, rfl, fun h => absurd rfl h⟩, hadd hs rfl rfl rfl rfl⟩
      | cons w suf =>
        simp only [List.isEmpty_cons, Bool.not_false, if_true, exec, Res.bind_ok] at h
        obtain ⟨m4, h4, h⟩ := h
        simp only [Res.ok.injEq] at h
        subst h
        rw [step_right (by rfl)] at h4
        split at h4
        · cases h4
        · simp only [Res.ok.injEq] at h4
          subst h4
          exact ⟨⟨rfl, rfl, hr.pop, rfl, rfl, fun _ => ⟨rfl, rfl⟩⟩, hadd hs rfl rfl rfl rfl⟩
    · have hne : args.isEmpty = false := by simpa using he
      cases suf with
      | nil =>
        simp only [parseT, hne, List.isEmpty_nil, Bool.not_true, Bool.false_eq_true, if_false, exec, Res.bind_ok] at h
        obtain ⟨m1, h1, m2, h2, m3, h3, h⟩ := h
        rw [step_begin_mv hr.lock hcur] at h1
        simp only [Res.ok.injEq] at h1
        subst h1
        simp only [M.step, Res.ok.injEq] at h2
        subst h2
        simp only [M.step, Res.ok.injEq] at h3
        subst h3
        rw [exec_append, lockedL au args _ _ { m with beginLock := some m.beginCount, beginCount := m.beginCount + 1 }
          m.beginCount rfl (by simp) ⟨x, hcur⟩] at h
        simp only [Res.ok_bind, exec, Res.bind_ok] at h
        obtain ⟨m4, h4, h⟩ := h
        simp only [Res.ok.injEq] at h
        subst h
        obtain ⟨s, hs, h4⟩ := fin_locked (m := M.flag { m with beginLock := some m.beginCount, beginCount := m.beginCount + 1 } _)
          rfl rfl hcur h4
        simp only [M.flag, M.lockedRight, hr.push, hr.pop, Bool.false_or, Bool.and_self, hq, ne_eq, not_true,
          if_false] at h4
        split at h4
        · simp only [Res.ok.injEq] at h4
          subst h4
          exact ⟨⟨rfl, rfl, rfl, rfl, rfl, fun h => absurd rfl h⟩, hadd hs rfl rfl rfl rfl⟩
        · rename_i hx
          simp only [Res.ok.injEq] at h4
          subst h4
          exact ⟨⟨rfl, by simpa using hx, by simpa using hx, rfl, rfl, fun h => absurd rfl h⟩, hadd hs rfl rfl rfl rfl⟩
      | cons w suf =>
        simp only [parseT, hne, List.isEmpty_cons, Bool.not_false, Bool.false_eq_true, if_false, if_true, exec,
          Res.bind_ok] at h
        obtain ⟨m1, h1, m2, h2, m3, h3, m5, h5, h⟩ := h
        rw [step_begin_mv hr.lock hcur] at h1
        simp only [Res.ok.injEq] at h1
        subst h1
        simp only [M.step, Res.ok.injEq] at h2
        subst h2
        simp only [M.step, Res.ok.injEq] at h3
        subst h3
        simp only [M.step, Res.ok.injEq] at h5
        subst h5
        rw [exec_append, lockedL au args _ _
          { m with beginLock := some m.beginCount, beginCount := m.beginCount + 1, hasPushed := true }
          m.beginCount rfl (by simp) ⟨x, hcur⟩] at h
        simp only [Res.ok_bind, exec, Res.bind_ok] at h
        obtain ⟨m6, h6, m4, h4, h⟩ := h
        simp only [Res.ok.injEq] at h
        subst h
        simp only [M.step, M.flag, Res.ok.injEq] at h6
        subst h6
        obtain ⟨s, hs, h4⟩ := fin_locked (by rfl) (by rfl) (by exact hcur) h4
        have hq' : m.q + 1 < m.terms.length := hq.2 (by simp)
        simp only [M.lockedRight, Bool.true_or, Bool.and_self, if_true, hq', M.right, Nat.not_le.2 hq', if_false,
          Res.ok.injEq] at h4
        subst h4
        exact ⟨⟨rfl, rfl, rfl, rfl, rfl, fun _ => ⟨rfl, rfl⟩⟩, hadd hs rfl rfl rfl rfl⟩
  | fn p' args' =>
    have haru : (UT.fn p' args').Ar ar := hi.arT _ (by rw [hr.terms]; simp)
    simp only [UT.Ar] at hart haru
    -- the equation of the arguments is the equation of the terms
    have conv : ∀ {s1 : List Nat} {m1 m2 : M}, p' = p →
        Post.{u} ar au seen s1 m1 m2 (fun A σ => UT.evalL A σ args = UT.evalL A σ args') →
        Post.{u} ar au seen s1 m1 m2 (fun A σ => (UT.fn p args).eval A σ = (UT.fn p' args').eval A σ) := by
      intro s1 m1 m2 e hP
      subst e
      refine hP.congr (fun A σ h => by simp [UT.eval, h]) (fun A hA σ h => ?_)
      simp only [UT.eval] at h
      exact (hA _ _ _ _ h).2
    by_cases he : args.isEmpty = true
    · have hnil : args = [] := by simpa using he
      simp only [parseT, he, if_true, exec, Res.bind_ok] at h
      obtain ⟨m1, h1, m2, h2, m3, h3, h⟩ := h
      rw [step_begin_fn (by exact hcur)] at h1
      simp only [Res.ok.injEq] at h1
      subst h1
      rw [step_check_fn (by exact hr.lock) (by exact hcur)] at h2
      split at h2
      · rename_i hpp
        simp only [Res.ok.injEq] at h2
        subst h2
        rw [step_fin (by exact hr.lock)] at h3
        have h3 := checkEnd_ok h3
        simp only [Nat.add_sub_cancel] at h3
        subst h3
        have hnil' : args' = [] := by
          have : args'.length = 0 := by rw [haru.1, hpp, ← hart.1, hnil]; rfl
          exact List.length_eq_zero_iff.1 this
        have hp : ∀ m2 : M, m2.mt = m.mt → m2.subst = m.subst → m2.terms = m.terms → m2.post = m.post →
            Post.{u} ar au seen (seen ++ (UT.fn p args).occ) m m2
              (fun A σ => (UT.fn p args).eval A σ = (UT.fn p' args').eval A σ) := fun m2 e1 e2 e3 e4 =>
          Post.refl _ hi (fun A σ => by rw [hpp, hnil, hnil']) e1 e2 (by rw [e3]; exact hi.arT) (by rw [e4]; exact hi.arP)
        cases suf with
        | nil =>
          simp only [List.isEmpty_nil, Bool.not_true, Bool.false_eq_true, if_false, exec, Res.ok.injEq] at h
          subst h
          exact ⟨⟨hr.lock, hr.push, hr.pop, rfl, rfl, fun h => absurd rfl h⟩, hp _ rfl rfl rfl rfl⟩
        | cons w suf =>
          simp only [List.isEmpty_cons, Bool.not_false, if_true, exec, Res.bind_ok] at h
          obtain ⟨m4, h4, h⟩ := h
          simp only [Res.ok.injEq] at h
          subst h
          rw [step_right (by exact hr.lock)] at h4
          split at h4
          · cases h4
          · simp only [Res.ok.injEq] at h4
            subst h4
            exact ⟨⟨hr.lock, hr.push, hr.pop, rfl, rfl, fun _ => ⟨rfl, rfl⟩⟩, hp _ rfl rfl rfl rfl⟩
      · cases h2
    · have hne : args.isEmpty = false := by simpa using he
      have hlen : p' = p → args.length = args'.length := fun e => by rw [hart.1, haru.1, e]
      cases suf with
      | nil =>
        simp only [parseT, hne, List.isEmpty_nil, Bool.not_true, Bool.false_eq_true, if_false, exec, Res.bind_ok] at h
        obtain ⟨m1, h1, m2, h2, m3, h3, h⟩ := h
        rw [step_begin_fn (by exact hcur)] at h1
        simp only [Res.ok.injEq] at h1
        subst h1
        rw [step_check_fn (by exact hr.lock) (by exact hcur)] at h2
        split at h2
        · rename_i hpp
          simp only [Res.ok.injEq] at h2
          subst h2
          rw [step_down (by exact hr.lock) (by exact hcur)] at h3
          simp only [Res.ok.injEq] at h3
          subst h3
          simp only [exec_append, Res.bind_ok] at h
          obtain ⟨m4, h4, h⟩ := h
          cases args' with
          | nil => have := hlen hpp; simp only [List.length_nil, List.length_eq_zero_iff] at this; simp [this] at hne
          | cons u0 suf0 =>
            obtain ⟨hf, hp⟩ := exec_list args ih hart.2 seen
              { m with beginCount := m.beginCount + 1, terms := u0 :: suf0, q := 0,
                       tot := m.tot + (u0 :: suf0).length, cnt := m.cnt + 1 } m4 [] u0 suf0
              ⟨hr.lock, hr.push, hr.pop, rfl, rfl⟩
              ⟨hi.idx, hi.nodup, hi.keys, hi.arM, hi.arS, UT.ArL_iff.1 haru.2, hi.arP⟩ (hlen hpp) h4
            simp only [exec, Res.bind_ok] at h
            obtain ⟨m5, h5, h⟩ := h
            simp only [Res.ok.injEq] at h
            subst h
            rw [step_fin hf.lock] at h5
            have h5 := checkEnd_ok h5
            subst h5
            refine ⟨⟨hf.lock, hf.push, hf.pop, hf.post, by rw [hf.count]; rfl, fun h => absurd rfl h⟩, ?_⟩
            exact conv hpp (hp.frame rfl rfl rfl rfl hp.inv.arT hp.inv.arP)
        · cases h2
      | cons w suf =>
        simp only [parseT, hne, List.isEmpty_cons, Bool.not_false, Bool.false_eq_true, if_false, if_true, exec,
          Res.bind_ok] at h
        obtain ⟨m1, h1, m2, h2, m3, h3, m6, h6, h⟩ := h
        rw [step_begin_fn (by exact hcur)] at h1
        simp only [Res.ok.injEq] at h1
        subst h1
        rw [step_check_fn (by exact hr.lock) (by exact hcur)] at h2
        split at h2
        · rename_i hpp
          simp only [Res.ok.injEq] at h2
          subst h2
          rw [step_push (by exact hr.lock)] at h3
          simp only [Res.ok.injEq] at h3
          subst h3
          rw [step_down (by exact hr.lock) (by exact hcur)] at h6
          simp only [Res.ok.injEq] at h6
          subst h6
          simp only [exec_append, Res.bind_ok] at h
          obtain ⟨m4, h4, h⟩ := h
          cases args' with
          | nil => have := hlen hpp; simp only [List.length_nil, List.length_eq_zero_iff] at this; simp [this] at hne
          | cons u0 suf0 =>
            obtain ⟨hf, hp⟩ := exec_list args ih hart.2 seen
              { m with beginCount := m.beginCount + 1, post := m.post ++ [(m.q + 1, m.terms)], terms := u0 :: suf0, q := 0,
                       tot := m.tot + (u0 :: suf0).length, cnt := m.cnt + 1 } m4 [] u0 suf0
              ⟨hr.lock, hr.push, hr.pop, rfl, rfl⟩
              ⟨hi.idx, hi.nodup, hi.keys, hi.arM, hi.arS, UT.ArL_iff.1 haru.2, by
                intro e he
                simp only [List.mem_append, List.mem_singleton] at he
                rcases he with he | rfl
                · exact hi.arP e he
                · exact hi.arT⟩ (hlen hpp) (by simpa using h4)
            simp only [exec, Res.bind_ok] at h
            obtain ⟨m5, h5, m7, h7, h⟩ := h
            simp only [Res.ok.injEq] at h
            subst h
            rw [step_pop hf.lock (q := m.q + 1) (ts := m.terms) (by rw [hf.post]; simp)] at h5
            split at h5
            · cases h5
            · simp only [Res.ok.injEq] at h5
              subst h5
              rw [step_fin (by exact hf.lock)] at h7
              have h7 := checkEnd_ok h7
              subst h7
              have hpost : m4.post.eraseIdx m.post.length = m.post := by
                rw [hf.post]
                simp [List.eraseIdx_append_of_length_le]
              refine ⟨⟨hf.lock, hf.push, hf.pop, hpost, by simp only [hf.count, Nat.add_sub_cancel],
                fun _ => ⟨rfl, rfl⟩⟩, ?_⟩
              exact conv hpp (hp.frame rfl rfl rfl rfl hi.arT (by simp only [hpost]; exact hi.arP))
        · cases h2

theorem exec_term {ar : Nat → Nat} {au : AU} (hb : AUBase ar au) (t : UT) : PT.{u} ar au t := by
  induction t using UT.ind with
  | mv k =>
    intro seen m m' pre u suf hr hi _ h
    exact exec_mv hb m.post.length seen k m m' pre u suf hr hi h
  | fn p args ih => exact exec_fn hb p args ih

/-- A whole run: `ParseTerm t1` against `t2` with bindings `s`. -/
theorem exec_run {ar : Nat → Nat} {au : AU} (hb : AUBase ar au) {t1 t2 : UT} (a1 : t1.Ar ar) (a2 : t2.Ar ar)
    {s : Subst} (hk : s.keys.Nodup) (ha : s.Ar ar) {m' : M}
    (h : exec au (parseTerm t1) { terms := [t2], mt := s } = .ok m') :
    Post.{u} ar au [] t1.occ { terms := [t2], mt := s } m' (fun A σ => t1.eval A σ = t2.eval A σ) := by
  simp only [parseTerm, parseL, List.append_nil] at h
  exact (exec_term hb t1 [] { terms := [t2], mt := s } m' [] t2 [] ⟨rfl, rfl, rfl, rfl, rfl⟩
    ⟨by simp, by simp, hk, ha, by simp, by simpa using a2, by simp⟩ a1 h).2

end Verif.Unif
