import Verif.Unif.Props
/-!
# C38: the term ordering (`src/Mods/equality/bse/lpo.go`)

Terms are those of `Verif.Unif` (`UT`); a symbol stands for an identifier together with its type arguments. The
comparison of symbols is a parameter (`prec`): the code compares names, then indexes
(src/AST/termsDef.go:85-98), which is a linear order of identifiers; the type arguments are not compared.

`Glob.Fatal` (arguments of different number for one symbol) is `Res.panic`. The recursion is bounded by fuel; the sum
of the sizes is always enough.
-/

namespace Verif.Equality.LPO

open Verif.Unif

/-- `compareStruct` (src/Mods/equality/bse/lpo.go:47-51). -/
structure CS where
  order : Int
  cmp : Bool
  new : Option (UT × UT)
deriving DecidableEq

/-- Comparable, with this result. -/
def CS.res (o : Int) : CS := ⟨o, true, none⟩

/-- The loop of `compareMetaFunInside` (src/Mods/equality/bse/lpo.go:148-180). -/
def insideLoop (c : UT → Res CS) (rc : Int) : List UT → Res (Option CS)
  | [] => .ok none
  | a :: as => (c a).bind fun r =>
    if r.cmp then .ok (some (if r.order = 0 then CS.res rc else CS.res r.order)) else insideLoop c rc as

/-- The loops over arguments of `s`, compared with `t` (src/Mods/equality/bse/lpo.go:219-229, 282-291): `none` when an
argument is not comparable, otherwise the value of `stopped`. -/
def lessLoop (c : UT → Res CS) : List UT → Res (Option Bool)
  | [] => .ok (some false)
  | a :: as => (c a).bind fun r =>
    if !r.cmp then .ok none else if r.order ≤ 0 then .ok (some true) else lessLoop c as

/-- The loop of `caseDefault` (src/Mods/equality/bse/lpo.go:305-314), over arguments of `t`. -/
def defaultLoop (c : UT → Res CS) : List UT → Res (Option Bool)
  | [] => .ok (some false)
  | a :: as => (c a).bind fun r =>
    if !r.cmp then .ok none else if r.order ≥ 0 then .ok (some true) else defaultLoop c as

/-- `caseDefault` (src/Mods/equality/bse/lpo.go:300-320). -/
def caseDefault (c : UT → UT → Res CS) (s t : UT) (ts : List UT) : Res CS :=
  (defaultLoop (c s) ts).bind fun r => match r with
    | none => .ok ⟨0, false, some (s, t)⟩
    | some true => .ok (CS.res 1)
    | some false => .ok (CS.res (-1))

/-- End of the first loop of `caseFEqualsG`. -/
inductive EqR where
  | stuck (new : Option (UT × UT))
  | same
  | diff (val : Int) (rest : List UT)

/-- The first loop of `caseFEqualsG` (src/Mods/equality/bse/lpo.go:252-272). -/
def eqLoop (c : UT → UT → Res CS) : List UT → List UT → Res EqR
  | a :: as, b :: bs => (c a b).bind fun r =>
    if !r.cmp then .ok (.stuck r.new) else if r.order ≠ 0 then .ok (.diff r.order as) else eqLoop c as bs
  | _, _ => .ok .same

/-- `compareFunFun` with `caseFLessG` and `caseFEqualsG` (src/Mods/equality/bse/lpo.go:192-297). -/
def funFun (prec : Nat → Nat → Ordering) (c : UT → UT → Res CS) (f : Nat) (ss : List UT) (g : Nat) (ts : List UT) :
    Res CS :=
  match prec f g with
  | .lt => (lessLoop (c · (.fn g ts)) ss).bind fun r => match r with
    | none => .ok ⟨0, false, some (.fn f ss, .fn g ts)⟩
    | some false => .ok (CS.res 1)
    | some true => caseDefault c (.fn f ss) (.fn g ts) ts
  | .eq =>
    if ss.length ≠ ts.length then .panic
    else (eqLoop c ss ts).bind fun r => match r with
      | .stuck new => .ok ⟨0, false, new⟩
      | .same => .ok (CS.res 0)
      | .diff val rest =>
        if val > 0 then (lessLoop (c · (.fn g ts)) rest).bind fun r => match r with
          | none => .ok ⟨0, false, some (.fn f ss, .fn g ts)⟩
          | some false => .ok (CS.res 1)
          | some true => caseDefault c (.fn f ss) (.fn g ts) ts
        else caseDefault c (.fn f ss) (.fn g ts) ts
  | .gt => caseDefault c (.fn f ss) (.fn g ts) ts

/-- `compareMetaFun` (src/Mods/equality/bse/lpo.go:125-146): `new` are the terms returned when not comparable. -/
def metaFun (c : UT → Res CS) (rc : Int) (args : List UT) (new : UT × UT) : Res CS :=
  (insideLoop c rc args).bind fun r => match r with
    | some r => .ok r
    | none => .ok ⟨0, false, some new⟩

/-- `compareLPO` (src/Mods/equality/bse/lpo.go:68-117). -/
def lpoN (prec : Nat → Nat → Ordering) : Nat → UT → UT → Res CS
  | 0, _, _ => .out
  | n + 1, .fn f ss, .fn g ts => funFun prec (lpoN prec n) f ss g ts
  | n + 1, .fn f ss, .mv x => metaFun (fun a => lpoN prec n a (.mv x)) (-1) ss (.fn f ss, .mv x)
  | n + 1, .mv x, .fn g ts => metaFun (fun a => lpoN prec n (.mv x) a) 1 ts (.mv x, .fn g ts)
  | _ + 1, .mv x, .mv y => .ok (if x = y then CS.res 0 else ⟨1, false, some (.mv x, .mv y)⟩)

mutual
def size : UT → Nat
  | .mv _ => 1
  | .fn _ args => sizeL args + 1
def sizeL : List UT → Nat
  | [] => 0
  | a :: l => size a + sizeL l
end

/-- The comparison, with enough fuel (see `C38_total`). -/
def lpo (prec : Nat → Nat → Ordering) (s t : UT) : Res CS := lpoN prec (size s + size t) s t

/-- The comparison of `s` and `t` ends, declares them comparable and returns this number: 1 when `s` is smaller, 0 when
they are equal, -1 when `s` is bigger (src/Mods/equality/bse/lpo.go:47-51). -/
def Ordered (prec : Nat → Nat → Ordering) (s t : UT) (o : Int) : Prop :=
  ∃ r, lpo prec s t = .ok r ∧ r.cmp = true ∧ r.order = o

/-- `s` is declared smaller. -/
def Less (prec : Nat → Nat → Ordering) (s t : UT) : Prop := Ordered prec s t 1

/-- The comparison of symbols is a linear order. -/
structure Linear (prec : Nat → Nat → Ordering) : Prop where
  eq : ∀ {p q}, prec p q = .eq ↔ p = q
  gt : ∀ {p q}, prec p q = .gt ↔ prec q p = .lt
  trans : ∀ {p q r}, prec p q = .lt → prec q r = .lt → prec p r = .lt

theorem linear_nat : Linear (fun p q => compare p q) := by
  refine ⟨fun {p q} => Nat.compare_eq_eq, fun {p q} => ?_, fun {p q r} h1 h2 => ?_⟩
  · rw [Nat.compare_eq_gt, Nat.compare_eq_lt]
  · rw [Nat.compare_eq_lt] at *; omega

/-! ### The lexicographic path ordering -/

variable {prec : Nat → Nat → Ordering}

/-- The lexicographic path ordering, as in the literature: `s` is greater than `t` if an argument of `s` is greater
or equal; or the symbol of `s` is greater and `s` is greater than all arguments of `t`; or the symbols are equal, the
arguments of `s` are lexicographically greater and `s` is greater than all arguments of `t`. -/
inductive Gt (prec : Nat → Nat → Ordering) : UT → UT → Prop
  | subEq {f : Nat} {ss : List UT} {t : UT} : t ∈ ss → Gt prec (.fn f ss) t
  | sub {f : Nat} {ss : List UT} {a t : UT} : a ∈ ss → Gt prec a t → Gt prec (.fn f ss) t
  | big {f g : Nat} {ss ts : List UT} : prec g f = .lt → (∀ u ∈ ts, Gt prec (.fn f ss) u) → Gt prec (.fn f ss) (.fn g ts)
  | lex {f : Nat} {pre : List UT} {a b : UT} {l m : List UT} : Gt prec a b → l.length = m.length →
      (∀ u ∈ pre ++ b :: m, Gt prec (.fn f (pre ++ a :: l)) u) → Gt prec (.fn f (pre ++ a :: l)) (.fn f (pre ++ b :: m))

theorem size_pos (t : UT) : 0 < size t := by cases t <;> simp [size]

theorem size_mem {a : UT} {l : List UT} (h : a ∈ l) : size a ≤ sizeL l := by
  induction l with
  | nil => cases h
  | cons b l ih =>
    simp only [sizeL]
    rcases List.mem_cons.1 h with rfl | h
    · omega
    · have := ih h; omega

theorem size_arg {f : Nat} {a : UT} {l : List UT} (h : a ∈ l) : size a < size (.fn f l) := by
  have := size_mem h
  simp only [size]; omega

/-- Two decompositions of a list at positions. -/
theorem split_two {α : Type} {p1 p2 l1 l2 : List α} {a b : α} (h : p1 ++ a :: l1 = p2 ++ b :: l2) :
    (p1 = p2 ∧ a = b ∧ l1 = l2) ∨ (∃ q, p2 = p1 ++ a :: q ∧ l1 = q ++ b :: l2) ∨
      (∃ q, p1 = p2 ++ b :: q ∧ l2 = q ++ a :: l1) := by
  rcases List.append_eq_append_iff.1 h with ⟨c, h1, h2⟩ | ⟨c, h1, h2⟩
  · cases c with
    | nil =>
      simp only [List.nil_append, List.cons.injEq, List.append_nil] at h1 h2
      exact Or.inl ⟨h1.symm, h2.1, h2.2⟩
    | cons x c =>
      simp only [List.cons_append, List.cons.injEq] at h2
      obtain ⟨rfl, h2⟩ := h2
      exact Or.inr (Or.inl ⟨c, h1, h2⟩)
  · cases c with
    | nil =>
      simp only [List.nil_append, List.cons.injEq, List.append_nil] at h1 h2
      exact Or.inl ⟨h1, h2.1.symm, h2.2.symm⟩
    | cons x c =>
      simp only [List.cons_append, List.cons.injEq] at h2
      obtain ⟨rfl, h2⟩ := h2
      exact Or.inr (Or.inr ⟨c, h1, h2⟩)

theorem Gt.trans (hp : Linear prec) {s t u : UT} (h1 : Gt prec s t) (h2 : Gt prec t u) : Gt prec s u := by
  have key : ∀ n s t u, size s + size t + size u ≤ n → Gt prec s t → Gt prec t u → Gt prec s u := by
    intro n
    induction n with
    | zero => intro s t u hn; have := size_pos s; omega
    | succ n ih =>
      intro s t u hn h1 h2
      -- all arguments of `u`, and the comparison of symbols
      have main : ∀ {f : Nat} {ss : List UT}, s = .fn f ss → (∀ {g ts}, t = .fn g ts → (∀ x ∈ ts, Gt prec s x) →
          ∀ {a : UT}, a ∈ ts → Gt prec a u → Gt prec s u) ∧
          (∀ {h us}, u = .fn h us → (∀ x ∈ us, Gt prec t x) → ∀ x ∈ us, Gt prec s x) := by
        intro f ss hs
        refine ⟨fun {g ts} ht hall {a} ha hau => ?_, fun {h us} hu hall x hx => ?_⟩
        · have := size_arg (f := g) ha
          exact ih s a u (by rw [ht] at hn; omega) (hall a ha) hau
        · have := size_arg (f := h) hx
          exact ih s t x (by rw [hu] at hn; omega) h1 (hall x hx)
      cases h1 with
      | @subEq f ss _ ht => exact .sub ht h2
      | @sub f ss a _ ha hat =>
        have := size_arg (f := f) ha
        exact .sub ha (ih a t u (by omega) hat h2)
      | @big f g ss ts hgf hall =>
        obtain ⟨m1, m2⟩ := main rfl
        cases h2 with
        | subEq hu => exact hall _ hu
        | sub ha hau => exact m1 rfl hall ha hau
        | @big _ h _ us hhg hall2 => exact .big (hp.trans hhg hgf) (m2 rfl hall2)
        | lex hab hl hall2 => exact .big hgf (m2 rfl hall2)
      | @lex f pre a b l m hab hlen hall =>
        obtain ⟨m1, m2⟩ := main rfl
        generalize hT : pre ++ b :: m = T at *
        cases h2 with
        | subEq hu => exact hall _ hu
        | sub ha hau => exact m1 rfl hall ha hau
        | @big _ h _ us hhg hall2 => exact .big hhg (m2 rfl hall2)
        | @lex _ pre' a' b' l' m' hab' hlen' hall2 =>
          have all := m2 rfl hall2
          rcases split_two hT with ⟨rfl, rfl, rfl⟩ | ⟨q, rfl, rfl⟩ | ⟨q, rfl, rfl⟩
          · have s1 : size a < size (.fn f (pre ++ a :: l)) := size_arg (by simp)
            have s2 : size b < size (.fn f (pre ++ b :: m)) := size_arg (by simp)
            have s3 : size b' < size (.fn f (pre ++ b' :: m')) := size_arg (by simp)
            exact .lex (ih a b b' (by omega) hab hab') (hlen.trans hlen') all
          · -- the first difference of the first pair comes first
            have e : (pre ++ b :: q) ++ b' :: m' = pre ++ b :: (q ++ b' :: m') := by simp
            rw [e] at all ⊢
            exact .lex hab (by simp only [List.length_append, List.length_cons] at hlen ⊢; omega) all
          · have e : (pre' ++ a' :: q) ++ a :: l = pre' ++ a' :: (q ++ a :: l) := by simp
            rw [e] at all ⊢
            exact .lex hab' (by simp only [List.length_append, List.length_cons] at hlen' ⊢; omega) all
  exact key _ s t u (Nat.le_refl _) h1 h2

theorem Gt.irrefl (hp : Linear prec) (s : UT) : ¬ Gt prec s s := by
  suffices h : ∀ s t, Gt prec s t → s = t → (∀ f ss, s = .fn f ss → ∀ a ∈ ss, ¬ Gt prec a a) → False by
    induction s using UT.ind with
    | mv x => intro h'; cases h'
    | fn f ss ih =>
      intro h'
      refine h _ _ h' rfl (fun f' ss' e a ha => ?_)
      injection e with _ e2
      subst e2
      exact ih a ha
  intro s t h
  cases h with
  | @subEq f ss _ h =>
    intro e ih
    subst e
    exact ih _ _ rfl _ h (.subEq h)
  | @sub f ss a _ ha h =>
    intro e ih
    subst e
    exact ih _ _ rfl a ha (Gt.trans hp h (.subEq ha))
  | @big f g ss ts h _ =>
    intro e _
    injection e with e1 _
    subst e1
    rw [hp.eq.2 rfl] at h
    cases h
  | @lex f pre a b l m hab _ _ =>
    intro e ih
    injection e with _ e2
    have e3 := List.append_cancel_left e2
    injection e3 with e4 _
    subst e4
    exact ih f _ rfl a (by simp) hab

theorem Gt.asymm (hp : Linear prec) {s t : UT} (h1 : Gt prec s t) (h2 : Gt prec t s) : False :=
  Gt.irrefl hp s (Gt.trans hp h1 h2)

theorem inst_fn (σ : Nat → UT) (f : Nat) (ss : List UT) :
    UT.inst σ (.fn f ss) = .fn f (ss.map (UT.inst σ)) := by
  simp only [UT.inst, UT.eval, UT.evalL_eq, termAlg]
  rfl

/-- Closed under instantiation. -/
theorem Gt.inst (σ : Nat → UT) {s t : UT} (h : Gt prec s t) : Gt prec (s.inst σ) (t.inst σ) := by
  induction h with
  | subEq h => rw [inst_fn]; exact .subEq (List.mem_map_of_mem h)
  | sub h _ ih => rw [inst_fn]; exact .sub (List.mem_map_of_mem h) ih
  | @big f g ss ts h _ ih =>
    rw [inst_fn, inst_fn] at *
    refine .big h fun u hu => ?_
    obtain ⟨v, hv, rfl⟩ := List.mem_map.1 hu
    exact ih v hv
  | @lex f pre a b l m _ hl _ ih1 ih2 =>
    rw [inst_fn, inst_fn]
    simp only [inst_fn, List.map_append, List.map_cons] at ih2 ⊢
    refine .lex ih1 (by simpa using hl) fun u hu => ?_
    rw [← List.map_cons, ← List.map_append] at hu
    obtain ⟨v, hv, rfl⟩ := List.mem_map.1 hu
    exact ih2 v hv

/-- Closed under contexts. -/
theorem Gt.mono {a b : UT} (h : Gt prec a b) (f : Nat) (pre l : List UT) :
    Gt prec (.fn f (pre ++ a :: l)) (.fn f (pre ++ b :: l)) := by
  refine .lex h rfl fun u hu => ?_
  rcases List.mem_append.1 hu with hu | hu
  · exact .subEq (List.mem_append_left _ hu)
  · rcases List.mem_cons.1 hu with rfl | hu
    · exact .sub (by simp) h
    · exact .subEq (by simp [hu])

/-! ### The code decides the ordering -/

/-- What the numbers mean. -/
def Means (prec : Nat → Nat → Ordering) (s t : UT) (o : Int) : Prop :=
  (o = 0 ∧ s = t) ∨ (o = 1 ∧ Gt prec t s) ∨ (o = -1 ∧ Gt prec s t)

/-- The comparison tells the truth. -/
def Truthful (prec : Nat → Nat → Ordering) (c : UT → UT → Res CS) : Prop :=
  ∀ s t r, c s t = .ok r → r.cmp = true → Means prec s t r.order

theorem lessLoop_false {c : UT → UT → Res CS} (hc : Truthful prec c) {t : UT} {l : List UT}
    (h : lessLoop (c · t) l = .ok (some false)) : ∀ a ∈ l, Gt prec t a := by
  induction l with
  | nil => simp
  | cons a l ih =>
    simp only [lessLoop] at h
    obtain ⟨r, h1, h2⟩ := Res.bind_ok.1 h
    cases hr : r.cmp with
    | false => simp [hr] at h2
    | true =>
      rw [hr] at h2
      by_cases ho : r.order ≤ 0
      · simp [ho] at h2
      · simp only [Bool.not_true, Bool.false_eq_true, if_false, ho] at h2
        intro x hx
        rcases List.mem_cons.1 hx with rfl | hx
        · rcases hc _ _ _ h1 hr with h | h | h
          · omega
          · exact h.2
          · omega
        · exact ih h2 x hx

theorem lessLoop_true {c : UT → UT → Res CS} (hc : Truthful prec c) {t : UT} {l : List UT}
    (h : lessLoop (c · t) l = .ok (some true)) : ∃ a ∈ l, a = t ∨ Gt prec a t := by
  induction l with
  | nil => simp [lessLoop] at h
  | cons a l ih =>
    simp only [lessLoop] at h
    obtain ⟨r, h1, h2⟩ := Res.bind_ok.1 h
    cases hr : r.cmp with
    | false => simp [hr] at h2
    | true =>
      rw [hr] at h2
      by_cases ho : r.order ≤ 0
      · refine ⟨a, List.mem_cons_self, ?_⟩
        rcases hc _ _ _ h1 hr with h | h | h
        · exact Or.inl h.2
        · omega
        · exact Or.inr h.2
      · simp only [Bool.not_true, Bool.false_eq_true, if_false, ho] at h2
        obtain ⟨x, hx, hx'⟩ := ih h2
        exact ⟨x, List.mem_cons_of_mem _ hx, hx'⟩

theorem defaultLoop_false {c : UT → UT → Res CS} (hc : Truthful prec c) {s : UT} {l : List UT}
    (h : defaultLoop (c s) l = .ok (some false)) : ∀ a ∈ l, Gt prec s a := by
  induction l with
  | nil => simp
  | cons a l ih =>
    simp only [defaultLoop] at h
    obtain ⟨r, h1, h2⟩ := Res.bind_ok.1 h
    cases hr : r.cmp with
    | false => simp [hr] at h2
    | true =>
      rw [hr] at h2
      by_cases ho : r.order ≥ 0
      · simp [ho] at h2
      · simp only [Bool.not_true, Bool.false_eq_true, if_false, ho] at h2
        intro x hx
        rcases List.mem_cons.1 hx with rfl | hx
        · rcases hc _ _ _ h1 hr with h | h | h
          · omega
          · omega
          · exact h.2
        · exact ih h2 x hx

theorem defaultLoop_true {c : UT → UT → Res CS} (hc : Truthful prec c) {s : UT} {l : List UT}
    (h : defaultLoop (c s) l = .ok (some true)) : ∃ a ∈ l, s = a ∨ Gt prec a s := by
  induction l with
  | nil => simp [defaultLoop] at h
  | cons a l ih =>
    simp only [defaultLoop] at h
    obtain ⟨r, h1, h2⟩ := Res.bind_ok.1 h
    cases hr : r.cmp with
    | false => simp [hr] at h2
    | true =>
      rw [hr] at h2
      by_cases ho : r.order ≥ 0
      · refine ⟨a, List.mem_cons_self, ?_⟩
        rcases hc _ _ _ h1 hr with h | h | h
        · exact Or.inl h.2
        · exact Or.inr h.2
        · omega
      · simp only [Bool.not_true, Bool.false_eq_true, if_false, ho] at h2
        obtain ⟨x, hx, hx'⟩ := ih h2
        exact ⟨x, List.mem_cons_of_mem _ hx, hx'⟩

theorem caseDefault_means {c : UT → UT → Res CS} (hc : Truthful prec c) {s : UT} {g : Nat} {ts : List UT} {r : CS}
    (h : caseDefault c s (.fn g ts) ts = .ok r) (hr : r.cmp = true)
    (hs : (∀ a ∈ ts, Gt prec s a) → Gt prec s (.fn g ts)) : Means prec s (.fn g ts) r.order := by
  obtain ⟨x, h1, h2⟩ := Res.bind_ok.1 h
  match x with
  | none => cases h2; cases hr
  | some true =>
    cases h2
    obtain ⟨a, ha, h⟩ := defaultLoop_true hc h1
    refine Or.inr (Or.inl ⟨rfl, ?_⟩)
    rcases h with rfl | h
    · exact .subEq ha
    · exact .sub ha h
  | some false =>
    cases h2
    exact Or.inr (Or.inr ⟨rfl, hs (defaultLoop_false hc h1)⟩)

theorem eqLoop_same {c : UT → UT → Res CS} (hc : Truthful prec c) {ss ts : List UT} (hl : ss.length = ts.length)
    (h : eqLoop c ss ts = .ok .same) : ss = ts := by
  induction ss generalizing ts with
  | nil => cases ts with
    | nil => rfl
    | cons b ts => simp at hl
  | cons a ss ih => cases ts with
    | nil => simp at hl
    | cons b ts =>
      simp only [eqLoop] at h
      obtain ⟨r, h1, h2⟩ := Res.bind_ok.1 h
      cases hr : r.cmp with
      | false => simp [hr] at h2
      | true =>
        rw [hr] at h2
        by_cases ho : r.order = 0
        · simp only [ho, Bool.not_true, Bool.false_eq_true, if_false, ne_eq, not_true_eq_false] at h2
          rw [ih (by simpa using hl) h2]
          rcases hc _ _ _ h1 hr with h | h | h
          · rw [h.2]
          · omega
          · omega
        · simp [ho] at h2

theorem eqLoop_diff {c : UT → UT → Res CS} (hc : Truthful prec c) {ss ts : List UT} (hl : ss.length = ts.length)
    {v : Int} {rest : List UT} (h : eqLoop c ss ts = .ok (.diff v rest)) :
    ∃ pre a b m, ss = pre ++ a :: rest ∧ ts = pre ++ b :: m ∧ rest.length = m.length ∧ v ≠ 0 ∧ Means prec a b v := by
  induction ss generalizing ts with
  | nil => cases ts <;> simp [eqLoop] at h
  | cons a ss ih => cases ts with
    | nil => simp at hl
    | cons b ts =>
      simp only [eqLoop] at h
      obtain ⟨r, h1, h2⟩ := Res.bind_ok.1 h
      cases hr : r.cmp with
      | false => simp [hr] at h2
      | true =>
        rw [hr] at h2
        by_cases ho : r.order = 0
        · simp only [ho, Bool.not_true, Bool.false_eq_true, if_false, ne_eq, not_true_eq_false] at h2
          obtain ⟨pre, a', b', m, e1, e2, e3, e4, e5⟩ := ih (by simpa using hl) h2
          have : a = b := by
            rcases hc _ _ _ h1 hr with h | h | h
            · exact h.2
            · omega
            · omega
          subst this
          exact ⟨a :: pre, a', b', m, by rw [e1]; rfl, by rw [e2]; rfl, e3, e4, e5⟩
        · simp only [ho, Bool.not_true, Bool.false_eq_true, if_false, ne_eq, not_false_eq_true, if_true,
            Res.ok.injEq, EqR.diff.injEq] at h2
          obtain ⟨rfl, rfl⟩ := h2
          exact ⟨[], a, b, ts, rfl, rfl, by simpa using hl, ho, hc _ _ _ h1 hr⟩

theorem funFun_truthful (hp : Linear prec) {c : UT → UT → Res CS} (hc : Truthful prec c) {f g : Nat} {ss ts : List UT}
    {r : CS} (h : funFun prec c f ss g ts = .ok r) (hr : r.cmp = true) :
    Means prec (.fn f ss) (.fn g ts) r.order := by
  unfold funFun at h
  cases hfg : prec f g with
  | lt =>
    simp only [hfg] at h
    obtain ⟨x, h1, h2⟩ := Res.bind_ok.1 h
    match x with
    | none => cases h2; cases hr
    | some false =>
      cases h2
      exact Or.inr (Or.inl ⟨rfl, .big hfg (lessLoop_false hc h1)⟩)
    | some true =>
      refine caseDefault_means hc h2 hr fun _ => ?_
      obtain ⟨a, ha, e | e⟩ := lessLoop_true hc h1
      · exact e ▸ .subEq ha
      · exact .sub ha e
  | gt =>
    simp only [hfg] at h
    exact caseDefault_means hc h hr fun hall => .big (hp.gt.1 hfg) hall
  | eq =>
    simp only [hfg] at h
    have := hp.eq.1 hfg
    subst this
    by_cases hl : ss.length = ts.length
    · simp only [hl, ne_eq, not_true_eq_false, if_false] at h
      obtain ⟨x, h1, h2⟩ := Res.bind_ok.1 h
      match x with
      | .stuck _ => cases h2; cases hr
      | .same =>
        cases h2
        exact Or.inl ⟨rfl, by rw [eqLoop_same hc hl h1]⟩
      | .diff v rest =>
        obtain ⟨pre, a, b, m, rfl, rfl, e3, e4, e5⟩ := eqLoop_diff hc hl h1
        dsimp only at h2
        by_cases hv : v > 0
        · rw [if_pos hv] at h2
          have hba : Gt prec b a := by
            rcases e5 with h | h | h
            · omega
            · exact h.2
            · omega
          obtain ⟨x, h3, h4⟩ := Res.bind_ok.1 h2
          match x with
          | none => cases h4; cases hr
          | some false =>
            cases h4
            have := lessLoop_false hc h3
            refine Or.inr (Or.inl ⟨rfl, .lex hba e3.symm fun u hu => ?_⟩)
            rcases List.mem_append.1 hu with hu | hu
            · exact .subEq (List.mem_append_left _ hu)
            · rcases List.mem_cons.1 hu with rfl | hu
              · exact .sub (by simp) hba
              · exact this u hu
          | some true =>
            refine caseDefault_means hc h4 hr fun _ => ?_
            obtain ⟨x, hx, e | e⟩ := lessLoop_true hc h3
            · exact e ▸ .subEq (by simp [hx])
            · exact .sub (a := x) (by simp [hx]) e
        · rw [if_neg hv] at h2
          have hab : Gt prec a b := by
            rcases e5 with h | h | h
            · omega
            · omega
            · exact h.2
          exact caseDefault_means hc h2 hr fun hall => .lex hab e3 hall
    · simp [hl] at h

theorem insideLoop_some {c : UT → Res CS} {rc : Int} {l : List UT} {r : CS}
    (h : insideLoop c rc l = .ok (some r)) :
    ∃ a ∈ l, ∃ r', c a = .ok r' ∧ r'.cmp = true ∧ r = CS.res (if r'.order = 0 then rc else r'.order) := by
  induction l with
  | nil => simp [insideLoop] at h
  | cons a l ih =>
    simp only [insideLoop] at h
    obtain ⟨r', h1, h2⟩ := Res.bind_ok.1 h
    cases hr : r'.cmp with
    | true =>
      rw [hr] at h2
      simp only [if_true, Res.ok.injEq, Option.some.injEq] at h2
      refine ⟨a, List.mem_cons_self, r', h1, hr, ?_⟩
      rw [← h2]
      split <;> rfl
    | false =>
      simp only [hr, Bool.false_eq_true, if_false] at h2
      obtain ⟨x, hx, h⟩ := ih h2
      exact ⟨x, List.mem_cons_of_mem _ hx, h⟩

theorem lpoN_truthful (hp : Linear prec) (n : Nat) : Truthful prec (lpoN prec n) := by
  induction n with
  | zero => intro s t r h; simp [lpoN] at h
  | succ n ih =>
    intro s t r h hr
    match s, t with
    | .fn f ss, .fn g ts => exact funFun_truthful hp ih h hr
    | .fn f ss, .mv x =>
      simp only [lpoN, metaFun] at h
      obtain ⟨y, h1, h2⟩ := Res.bind_ok.1 h
      match y with
      | none => cases h2; cases hr
      | some y =>
        cases h2
        obtain ⟨a, ha, r', e1, e2, rfl⟩ := insideLoop_some h1
        refine Or.inr (Or.inr ?_)
        rcases ih _ _ _ e1 e2 with ⟨h, h'⟩ | ⟨h, h'⟩ | ⟨h, h'⟩
        · rw [if_pos h]; exact ⟨rfl, .subEq (h' ▸ ha)⟩
        · cases h'
        · rw [h]; exact ⟨rfl, .sub ha h'⟩
    | .mv x, .fn g ts =>
      simp only [lpoN, metaFun] at h
      obtain ⟨y, h1, h2⟩ := Res.bind_ok.1 h
      match y with
      | none => cases h2; cases hr
      | some y =>
        cases h2
        obtain ⟨a, ha, r', e1, e2, rfl⟩ := insideLoop_some h1
        refine Or.inr (Or.inl ?_)
        rcases ih _ _ _ e1 e2 with ⟨h, h'⟩ | ⟨h, h'⟩ | ⟨h, h'⟩
        · rw [if_pos h]; exact ⟨rfl, .subEq (h' ▸ ha)⟩
        · rw [h]; exact ⟨rfl, .sub ha h'⟩
        · cases h'
    | .mv x, .mv y =>
      simp only [lpoN] at h
      by_cases e : x = y
      · rw [if_pos e] at h
        cases h
        exact Or.inl ⟨rfl, by rw [e]⟩
      · rw [if_neg e] at h
        cases h
        cases hr

/-! ### The code always answers -/

theorem lessLoop_ok {c : UT → Res CS} {G : Prop} {l : List UT}
    (h : ∀ a ∈ l, ∃ r, c a = .ok r ∧ (G → r.cmp = true)) :
    ∃ x, lessLoop c l = .ok x ∧ (G → x ≠ none) := by
  induction l with
  | nil => exact ⟨some false, rfl, fun _ => by simp⟩
  | cons a l ih =>
    obtain ⟨r, h1, h2⟩ := h a List.mem_cons_self
    obtain ⟨x, h3, h4⟩ := ih fun a ha => h a (List.mem_cons_of_mem _ ha)
    simp only [lessLoop, h1, Res.bind]
    cases hr : r.cmp with
    | false => exact ⟨none, rfl, fun g => by rw [h2 g] at hr; cases hr⟩
    | true =>
      by_cases ho : r.order ≤ 0
      · exact ⟨some true, by simp [ho], fun _ => by simp⟩
      · exact ⟨x, by simp [ho, h3], h4⟩

theorem defaultLoop_ok {c : UT → Res CS} {G : Prop} {l : List UT}
    (h : ∀ a ∈ l, ∃ r, c a = .ok r ∧ (G → r.cmp = true)) :
    ∃ x, defaultLoop c l = .ok x ∧ (G → x ≠ none) := by
  induction l with
  | nil => exact ⟨some false, rfl, fun _ => by simp⟩
  | cons a l ih =>
    obtain ⟨r, h1, h2⟩ := h a List.mem_cons_self
    obtain ⟨x, h3, h4⟩ := ih fun a ha => h a (List.mem_cons_of_mem _ ha)
    simp only [defaultLoop, h1, Res.bind]
    cases hr : r.cmp with
    | false => exact ⟨none, rfl, fun g => by rw [h2 g] at hr; cases hr⟩
    | true =>
      by_cases ho : r.order ≥ 0
      · exact ⟨some true, by simp [ho], fun _ => by simp⟩
      · exact ⟨x, by simp [ho, h3], h4⟩

theorem caseDefault_ok {c : UT → UT → Res CS} {G : Prop} {s t : UT} {l : List UT}
    (h : ∀ a ∈ l, ∃ r, c s a = .ok r ∧ (G → r.cmp = true)) :
    ∃ r, caseDefault c s t l = .ok r ∧ (G → r.cmp = true) := by
  obtain ⟨x, h1, h2⟩ := defaultLoop_ok h
  simp only [caseDefault, h1, Res.bind]
  match x with
  | none => exact ⟨_, rfl, fun g => absurd rfl (h2 g)⟩
  | some true => exact ⟨_, rfl, fun _ => rfl⟩
  | some false => exact ⟨_, rfl, fun _ => rfl⟩

theorem insideLoop_ok {c : UT → Res CS} {rc : Int} {l : List UT} (h : ∀ a ∈ l, ∃ r, c a = .ok r) :
    ∃ x, insideLoop c rc l = .ok x := by
  induction l with
  | nil => exact ⟨none, rfl⟩
  | cons a l ih =>
    obtain ⟨r, h1⟩ := h a List.mem_cons_self
    obtain ⟨x, h3⟩ := ih fun a ha => h a (List.mem_cons_of_mem _ ha)
    simp only [insideLoop, h1, Res.bind]
    cases hr : r.cmp with
    | true => exact ⟨_, by simp; rfl⟩
    | false => exact ⟨x, by simp [h3]⟩

theorem metaFun_ok {c : UT → Res CS} {rc : Int} {l : List UT} {new : UT × UT} (h : ∀ a ∈ l, ∃ r, c a = .ok r) :
    ∃ r, metaFun c rc l new = .ok r := by
  obtain ⟨x, h1⟩ := insideLoop_ok (rc := rc) h
  simp only [metaFun, h1, Res.bind]
  match x with
  | none => exact ⟨_, rfl⟩
  | some r => exact ⟨_, rfl⟩

theorem eqLoop_ok {c : UT → UT → Res CS} {G : Prop} {l m : List UT}
    (h : ∀ a ∈ l, ∀ b ∈ m, ∃ r, c a b = .ok r ∧ (G → r.cmp = true)) :
    ∃ x, eqLoop c l m = .ok x ∧ (G → ∀ new, x ≠ .stuck new) ∧ (∀ v rest, x = .diff v rest → ∀ a ∈ rest, a ∈ l) := by
  induction l generalizing m with
  | nil => exact ⟨.same, by cases m <;> rfl, fun _ _ => by simp, fun _ _ e => by cases e⟩
  | cons a l ih => cases m with
    | nil => exact ⟨.same, rfl, fun _ _ => by simp, fun _ _ e => by cases e⟩
    | cons b m =>
      obtain ⟨r, h1, h2⟩ := h a List.mem_cons_self b List.mem_cons_self
      obtain ⟨x, h3, h4, h5⟩ := ih fun a ha b hb => h a (List.mem_cons_of_mem _ ha) b (List.mem_cons_of_mem _ hb)
      simp only [eqLoop, h1, Res.bind]
      cases hr : r.cmp with
      | false => exact ⟨.stuck r.new, by simp, fun g => (by rw [h2 g] at hr; cases hr), fun _ _ e => by cases e⟩
      | true =>
        by_cases ho : r.order = 0
        · exact ⟨x, by simp [ho, h3], h4, fun v rest e a ha => List.mem_cons_of_mem _ (h5 v rest e a ha)⟩
        · refine ⟨.diff r.order l, by simp [ho], fun _ _ => by simp, fun v rest e a ha => ?_⟩
          cases e
          exact List.mem_cons_of_mem _ ha

/-- No metavariable occurs. -/
def Ground (t : UT) : Prop := t.occ = []

theorem Ground.arg {f : Nat} {l : List UT} {a : UT} (h : Ground (.fn f l)) (ha : a ∈ l) : Ground a := by
  unfold Ground at *
  refine List.eq_nil_iff_forall_not_mem.2 fun i hi => ?_
  have : i ∈ UT.occ (.fn f l) := by
    simp only [UT.occ]
    exact UT.mem_occL.2 ⟨a, ha, hi⟩
  rw [h] at this
  cases this

theorem Ground.mk {f : Nat} {l : List UT} (h : ∀ a ∈ l, Ground a) : Ground (.fn f l) := by
  unfold Ground at *
  refine List.eq_nil_iff_forall_not_mem.2 fun i hi => ?_
  simp only [UT.occ] at hi
  obtain ⟨a, ha, hi⟩ := UT.mem_occL.1 hi
  rw [h a ha] at hi
  cases hi

theorem ar_arg {ar : Nat → Nat} {f : Nat} {l : List UT} {a : UT} (h : UT.Ar ar (.fn f l)) (ha : a ∈ l) : a.Ar ar := by
  simp only [UT.Ar, UT.ArL_iff] at h
  exact h.2 a ha

theorem lpoN_ok (hp : Linear prec) (ar : Nat → Nat) (n : Nat) (s t : UT) (hs : s.Ar ar) (ht : t.Ar ar)
    (hn : size s + size t ≤ n) :
    ∃ r, lpoN prec n s t = .ok r ∧ (Ground s ∧ Ground t → r.cmp = true) := by
  induction n generalizing s t with
  | zero => have := size_pos s; omega
  | succ n ih =>
    match s, t with
    | .mv x, .mv y =>
      exact ⟨_, rfl, fun g => by have := g.1; simp [Ground, UT.occ] at this⟩
    | .mv x, .fn g ts =>
      have hl : ∀ a ∈ ts, ∃ r, lpoN prec n (.mv x) a = .ok r := fun a ha => by
        have := size_arg (f := g) ha
        obtain ⟨r, h, _⟩ := ih (.mv x) a hs (ar_arg ht ha) (by omega)
        exact ⟨r, h⟩
      obtain ⟨r, h⟩ := metaFun_ok (rc := 1) (new := (.mv x, .fn g ts)) hl
      exact ⟨r, by simpa only [lpoN] using h, fun g => by have := g.1; simp [Ground, UT.occ] at this⟩
    | .fn f ss, .mv y =>
      have hl : ∀ a ∈ ss, ∃ r, lpoN prec n a (.mv y) = .ok r := fun a ha => by
        have := size_arg (f := f) ha
        obtain ⟨r, h, _⟩ := ih a (.mv y) (ar_arg hs ha) ht (by omega)
        exact ⟨r, h⟩
      obtain ⟨r, h⟩ := metaFun_ok (rc := -1) (new := (.fn f ss, .mv y)) hl
      exact ⟨r, by simpa only [lpoN] using h, fun g => by have := g.2; simp [Ground, UT.occ] at this⟩
    | .fn f ss, .fn g ts =>
      generalize hG : (Ground (.fn f ss) ∧ Ground (.fn g ts)) = G at *
      have gs : G → ∀ a ∈ ss, Ground a := fun h a ha => by rw [← hG] at h; exact h.1.arg ha
      have gt : G → ∀ a ∈ ts, Ground a := fun h a ha => by rw [← hG] at h; exact h.2.arg ha
      have left : ∀ a ∈ ss, ∃ r, lpoN prec n a (.fn g ts) = .ok r ∧ (G → r.cmp = true) := fun a ha => by
        have := size_arg (f := f) ha
        obtain ⟨r, h, h'⟩ := ih a (.fn g ts) (ar_arg hs ha) ht (by omega)
        exact ⟨r, h, fun hg => h' ⟨gs hg a ha, by rw [← hG] at hg; exact hg.2⟩⟩
      have right : ∀ a ∈ ts, ∃ r, lpoN prec n (.fn f ss) a = .ok r ∧ (G → r.cmp = true) := fun a ha => by
        have := size_arg (f := g) ha
        obtain ⟨r, h, h'⟩ := ih (.fn f ss) a hs (ar_arg ht ha) (by omega)
        exact ⟨r, h, fun hg => h' ⟨by rw [← hG] at hg; exact hg.1, gt hg a ha⟩⟩
      have both : ∀ a ∈ ss, ∀ b ∈ ts, ∃ r, lpoN prec n a b = .ok r ∧ (G → r.cmp = true) := fun a ha b hb => by
        have := size_arg (f := f) ha
        have := size_arg (f := g) hb
        obtain ⟨r, h, h'⟩ := ih a b (ar_arg hs ha) (ar_arg ht hb) (by omega)
        exact ⟨r, h, fun hg => h' ⟨gs hg a ha, gt hg b hb⟩⟩
      have dflt := caseDefault_ok (s := .fn f ss) (t := .fn g ts) right
      simp only [lpoN, funFun]
      cases hfg : prec f g with
      | gt => exact dflt
      | lt =>
        obtain ⟨x, h1, h2⟩ := lessLoop_ok left
        dsimp only
        simp only [h1, Res.bind]
        match x with
        | none => exact ⟨_, rfl, fun g => absurd rfl (h2 g)⟩
        | some false => exact ⟨_, rfl, fun _ => rfl⟩
        | some true => exact dflt
      | eq =>
        have := hp.eq.1 hfg
        subst this
        have hl : ss.length = ts.length := by
          simp only [UT.Ar] at hs ht
          rw [hs.1, ht.1]
        dsimp only
        rw [if_neg (by simpa using hl)]
        obtain ⟨x, h1, h2, h3⟩ := eqLoop_ok both
        simp only [h1, Res.bind]
        match x with
        | .stuck new => exact ⟨_, rfl, fun g => absurd rfl (h2 g new)⟩
        | .same => exact ⟨_, rfl, fun _ => rfl⟩
        | .diff v rest =>
          dsimp only
          split
          · obtain ⟨y, h4, h5⟩ := lessLoop_ok fun a ha => left a (h3 v rest rfl a ha)
            simp only [h4]
            match y with
            | none => exact ⟨_, rfl, fun g => absurd rfl (h5 g)⟩
            | some false => exact ⟨_, rfl, fun _ => rfl⟩
            | some true => exact dflt
          · exact dflt

/-! ### Type arguments are ignored -/

/-- Replacement of every symbol. -/
def er (k : Nat → Nat) (t : UT) : UT := t.eval (fun p l => .fn (k p) l) .mv

theorem er_fn (k : Nat → Nat) (p : Nat) (l : List UT) : er k (.fn p l) = .fn (k p) (l.map (er k)) := by
  simp only [er, UT.eval, UT.evalL_eq]
  rfl

theorem er_mv (k : Nat → Nat) (x : Nat) : er k (.mv x) = .mv x := rfl

def erCS (k : Nat → Nat) (r : CS) : CS := ⟨r.order, r.cmp, r.new.map fun p => (er k p.1, er k p.2)⟩

def erRes (k : Nat → Nat) : Res CS → Res CS
  | .ok r => .ok (erCS k r)
  | .fail => .fail
  | .panic => .panic
  | .out => .out

def erEq (k : Nat → Nat) : Res EqR → Res EqR
  | .ok (.stuck new) => .ok (.stuck (new.map fun p => (er k p.1, er k p.2)))
  | .ok .same => .ok .same
  | .ok (.diff v rest) => .ok (.diff v (rest.map (er k)))
  | .fail => .fail
  | .panic => .panic
  | .out => .out

theorem lessLoop_er {k : Nat → Nat} {c c' : UT → Res CS} (h : ∀ a, c' (er k a) = erRes k (c a)) (l : List UT) :
    lessLoop c' (l.map (er k)) = lessLoop c l := by
  induction l with
  | nil => rfl
  | cons a l ih =>
    simp only [List.map_cons, lessLoop, h, ih]
    cases c a <;> rfl

theorem defaultLoop_er {k : Nat → Nat} {c c' : UT → Res CS} (h : ∀ a, c' (er k a) = erRes k (c a)) (l : List UT) :
    defaultLoop c' (l.map (er k)) = defaultLoop c l := by
  induction l with
  | nil => rfl
  | cons a l ih =>
    simp only [List.map_cons, defaultLoop, h, ih]
    cases c a <;> rfl

theorem insideLoop_er {k : Nat → Nat} {c c' : UT → Res CS} (h : ∀ a, c' (er k a) = erRes k (c a)) (rc : Int)
    (l : List UT) : insideLoop c' rc (l.map (er k)) = insideLoop c rc l := by
  induction l with
  | nil => rfl
  | cons a l ih =>
    simp only [List.map_cons, insideLoop, h, ih]
    cases c a <;> rfl

theorem eqLoop_er {k : Nat → Nat} {c c' : UT → UT → Res CS} (h : ∀ a b, c' (er k a) (er k b) = erRes k (c a b))
    (l m : List UT) : eqLoop c' (l.map (er k)) (m.map (er k)) = erEq k (eqLoop c l m) := by
  induction l generalizing m with
  | nil => cases m <;> rfl
  | cons a l ih => cases m with
    | nil => rfl
    | cons b m =>
      simp only [List.map_cons, eqLoop, h, ih]
      cases c a b with
      | ok r =>
        simp only [erRes, Res.bind, erCS]
        cases r.cmp with
        | false => rfl
        | true =>
          by_cases ho : r.order = 0
          · simp [ho]
          · simp [ho, erEq]
      | fail => rfl
      | panic => rfl
      | out => rfl

theorem caseDefault_er {k : Nat → Nat} {c c' : UT → UT → Res CS} (h : ∀ a b, c' (er k a) (er k b) = erRes k (c a b))
    (s t : UT) (l : List UT) : caseDefault c' (er k s) (er k t) (l.map (er k)) = erRes k (caseDefault c s t l) := by
  simp only [caseDefault, defaultLoop_er (h s)]
  match defaultLoop (c s) l with
  | .ok none => rfl
  | .ok (some true) => rfl
  | .ok (some false) => rfl
  | .fail => rfl
  | .panic => rfl
  | .out => rfl

theorem metaFun_er {k : Nat → Nat} {c c' : UT → Res CS} (h : ∀ a, c' (er k a) = erRes k (c a)) (rc : Int)
    (l : List UT) (s t : UT) : metaFun c' rc (l.map (er k)) (er k s, er k t) = erRes k (metaFun c rc l (s, t)) := by
  simp only [metaFun, insideLoop_er h]
  match hx : insideLoop c rc l with
  | .ok none => rfl
  | .ok (some r) =>
    obtain ⟨_, _, _, _, _, rfl⟩ := insideLoop_some hx
    rfl
  | .fail => rfl
  | .panic => rfl
  | .out => rfl

theorem funFun_er {pr : Nat → Nat → Ordering} {k : Nat → Nat} {c c' : UT → UT → Res CS}
    (h : ∀ a b, c' (er k a) (er k b) = erRes k (c a b)) (f g : Nat) (ss ts : List UT) :
    funFun pr c' (k f) (ss.map (er k)) (k g) (ts.map (er k)) =
      erRes k (funFun (fun p q => pr (k p) (k q)) c f ss g ts) := by
  have e1 : UT.fn (k f) (ss.map (er k)) = er k (.fn f ss) := (er_fn k f ss).symm
  have e2 : UT.fn (k g) (ts.map (er k)) = er k (.fn g ts) := (er_fn k g ts).symm
  have hd := caseDefault_er h (.fn f ss) (.fn g ts) ts
  have hl := fun l => lessLoop_er (c := (c · (.fn g ts))) (c' := (c' · (er k (.fn g ts)))) (fun a => h a _) l
  simp only [funFun, e1, e2]
  cases pr (k f) (k g) with
  | gt => exact hd
  | lt =>
    dsimp only
    rw [hl]
    match lessLoop (c · (.fn g ts)) ss with
    | .ok none => rfl
    | .ok (some true) => exact hd
    | .ok (some false) => rfl
    | .fail => rfl
    | .panic => rfl
    | .out => rfl
  | eq =>
    dsimp only
    by_cases hlen : ss.length = ts.length
    · rw [if_neg (by simpa using hlen), if_neg (by simpa using hlen), eqLoop_er h]
      match eqLoop c ss ts with
      | .ok (.stuck new) => rfl
      | .ok .same => rfl
      | .ok (.diff v rest) =>
        simp only [erEq, Res.bind, hl]
        by_cases hv : v > 0
        · rw [if_pos hv, if_pos hv]
          match lessLoop (c · (.fn g ts)) rest with
          | .ok none => rfl
          | .ok (some true) => exact hd
          | .ok (some false) => rfl
          | .fail => rfl
          | .panic => rfl
          | .out => rfl
        · rw [if_neg hv, if_neg hv]
          exact hd
      | .fail => rfl
      | .panic => rfl
      | .out => rfl
    · rw [if_pos (by simpa using hlen), if_pos (by simpa using hlen)]
      rfl

theorem lpoN_er (pr : Nat → Nat → Ordering) (k : Nat → Nat) (n : Nat) (s t : UT) :
    lpoN pr n (er k s) (er k t) = erRes k (lpoN (fun p q => pr (k p) (k q)) n s t) := by
  induction n generalizing s t with
  | zero => rfl
  | succ n ih =>
    match s, t with
    | .fn f ss, .fn g ts =>
      simp only [er_fn, lpoN]
      exact funFun_er ih f g ss ts
    | .fn f ss, .mv x =>
      have := metaFun_er (k := k) (c := fun a => lpoN (fun p q => pr (k p) (k q)) n a (.mv x))
        (c' := fun a => lpoN pr n a (.mv x)) (fun a => ih a (.mv x)) (-1) ss (.fn f ss) (.mv x)
      simpa only [er_fn, er_mv, lpoN] using this
    | .mv x, .fn g ts =>
      have := metaFun_er (k := k) (c := fun a => lpoN (fun p q => pr (k p) (k q)) n (.mv x) a)
        (c' := fun a => lpoN pr n (.mv x) a) (fun a => ih (.mv x) a) 1 ts (.mv x) (.fn g ts)
      simpa only [er_fn, er_mv, lpoN] using this
    | .mv x, .mv y =>
      simp only [er_mv, lpoN]
      by_cases e : x = y
      · rw [if_pos e]; rfl
      · rw [if_neg e]; rfl

mutual
theorem size_er (k : Nat → Nat) : ∀ t, size (er k t) = size t
  | .mv _ => rfl
  | .fn f l => by rw [er_fn]; simp only [size]; rw [sizeL_er k l]
theorem sizeL_er (k : Nat → Nat) : ∀ l, sizeL (l.map (er k)) = sizeL l
  | [] => rfl
  | a :: l => by simp only [List.map_cons, sizeL]; rw [size_er k a, sizeL_er k l]
end

theorem ordered_er {pr : Nat → Nat → Ordering} {k : Nat → Nat} {s t : UT} {o : Int} :
    Ordered (fun p q => pr (k p) (k q)) s t o ↔ Ordered pr (er k s) (er k t) o := by
  unfold Ordered lpo
  rw [size_er, size_er, lpoN_er]
  constructor
  · rintro ⟨r, h, h1, h2⟩
    rw [h]
    exact ⟨_, rfl, h1, h2⟩
  · rintro ⟨r, h, h1, h2⟩
    match hx : lpoN (fun p q => pr (k p) (k q)) (size s + size t) s t with
    | .ok r' =>
      rw [hx] at h
      cases h
      exact ⟨r', rfl, h1, h2⟩
    | .fail => rw [hx] at h; cases h
    | .panic => rw [hx] at h; cases h
    | .out => rw [hx] at h; cases h

theorem er_inst (k : Nat → Nat) (σ : Nat → UT) (t : UT) :
    er k (t.inst σ) = (er k t).inst (fun x => er k (σ x)) := by
  induction t using UT.ind with
  | mv x => rfl
  | fn f l ih =>
    simp only [inst_fn, er_fn, List.map_map, UT.fn.injEq, true_and]
    exact List.map_congr_left fun a ha => ih a ha

theorem er_ground (k : Nat → Nat) {t : UT} (h : Ground t) : Ground (er k t) := by
  induction t using UT.ind with
  | mv x => exact h
  | fn f l ih =>
    rw [er_fn]
    refine Ground.mk fun a ha => ?_
    obtain ⟨b, hb, rfl⟩ := List.mem_map.1 ha
    exact ih b hb (h.arg hb)

end Verif.Equality.LPO
