import Verif.Equality.LPO
/-!
# C38 and C59: the laws of the term ordering, and the simplification of constraints

`compareLPO` compares identifiers and ignores type arguments (src/Mods/equality/bse/lpo.go:192-209). A symbol is a
number `p` that stands for an identifier with its type arguments, `k p` is the identifier alone and `pr` the order of
identifiers. `k = id` is the case without type arguments.
-/

namespace Verif.Equality.LPO

open Verif.Unif

variable {pr : Nat → Nat → Ordering} {k : Nat → Nat} {ar : Nat → Nat}

/-- What the code compares. -/
def code (pr : Nat → Nat → Ordering) (k : Nat → Nat) (p q : Nat) : Ordering := pr (k p) (k q)

/-- Every identifier always has the same number of arguments. -/
def Fixed (ar : Nat → Nat) (k : Nat → Nat) (t : UT) : Prop := t.Ar (fun p => ar (k p))

theorem Fixed.er {t : UT} (h : Fixed ar k t) : (er k t).Ar ar := by
  induction t using UT.ind with
  | mv x => trivial
  | fn f l ih =>
    unfold Fixed at *
    simp only [er_fn, UT.Ar, UT.ArL_iff, List.length_map] at h ⊢
    refine ⟨h.1, fun a ha => ?_⟩
    obtain ⟨b, hb, rfl⟩ := List.mem_map.1 ha
    exact ih b hb (h.2 b hb)

/-! ### The order of identifiers -/

/-- `strings.Compare`: the bytes, from left to right. -/
def cmpBytes : List Nat → List Nat → Ordering
  | [], [] => .eq
  | [], _ :: _ => .lt
  | _ :: _, [] => .gt
  | a :: l, b :: m => if a < b then .lt else if b < a then .gt else cmpBytes l m

/-- `CompareWith` (src/AST/termsDef.go:85-98). An identifier is its index (`Equals` compares only the index,
src/AST/termsDef.go:64-69) and has a name. -/
def compareWith (name : Nat → List Nat) (p q : Nat) : Ordering :=
  if name p = name q then compare p q else cmpBytes (name p) (name q)

theorem cmpBytes_eq {l m : List Nat} : cmpBytes l m = .eq ↔ l = m := by
  induction l generalizing m with
  | nil => cases m <;> simp [cmpBytes]
  | cons a l ih => cases m with
    | nil => simp [cmpBytes]
    | cons b m =>
      simp only [cmpBytes, List.cons.injEq]
      split
      · simp; omega
      · split
        · simp; omega
        · rw [ih]
          exact ⟨fun h => ⟨by omega, h⟩, fun h => h.2⟩

theorem cmpBytes_gt {l m : List Nat} : cmpBytes l m = .gt ↔ cmpBytes m l = .lt := by
  induction l generalizing m with
  | nil => cases m <;> simp [cmpBytes]
  | cons a l ih => cases m with
    | nil => simp [cmpBytes]
    | cons b m =>
      simp only [cmpBytes]
      by_cases h1 : a < b
      · have : ¬ b < a := by omega
        simp [h1, this]
      · by_cases h2 : b < a
        · simp [h1, h2]
        · simp [h1, h2, ih]

theorem cmpBytes_trans {l m n : List Nat} (h1 : cmpBytes l m = .lt) (h2 : cmpBytes m n = .lt) : cmpBytes l n = .lt := by
  induction l generalizing m n with
  | nil => cases m <;> cases n <;> simp_all [cmpBytes]
  | cons a l ih => cases m with
    | nil => simp [cmpBytes] at h1
    | cons b m => cases n with
      | nil => simp [cmpBytes] at h2
      | cons c n =>
        simp only [cmpBytes] at *
        by_cases e1 : a < b
        · by_cases e2 : b < c
          · have : a < c := by omega
            simp [this]
          · by_cases e3 : c < b
            · simp [e2, e3] at h2
            · have : a < c := by omega
              simp [this]
        · by_cases e1' : b < a
          · simp [e1, e1'] at h1
          · simp only [e1, e1', if_false] at h1
            by_cases e2 : b < c
            · have : a < c := by omega
              simp [this]
            · by_cases e3 : c < b
              · simp [e2, e3] at h2
              · simp only [e2, e3, if_false] at h2
                have e4 : ¬ a < c := by omega
                have e5 : ¬ c < a := by omega
                simp only [e4, e5, if_false]
                exact ih h1 h2

/-- The order of identifiers is linear, whatever their names are: the hypothesis `Linear` of the laws is met. -/
theorem C38_precedence (name : Nat → List Nat) : Linear (compareWith name) := by
  refine ⟨fun {p q} => ?_, fun {p q} => ?_, fun {p q r} h1 h2 => ?_⟩
  · unfold compareWith
    by_cases h : name p = name q
    · rw [if_pos h, Nat.compare_eq_eq]
    · rw [if_neg h, cmpBytes_eq]
      exact ⟨fun e => absurd e h, fun e => absurd (by rw [e]) h⟩
  · unfold compareWith
    by_cases h : name p = name q
    · rw [if_pos h, if_pos h.symm, Nat.compare_eq_gt, Nat.compare_eq_lt]
    · rw [if_neg h, if_neg (fun e => h e.symm), cmpBytes_gt]
  · unfold compareWith at *
    by_cases e1 : name p = name q
    · rw [if_pos e1] at h1
      rw [e1]
      by_cases e2 : name q = name r
      · rw [if_pos e2] at h2 ⊢
        rw [Nat.compare_eq_lt] at *
        omega
      · rw [if_neg e2] at h2 ⊢
        exact h2
    · rw [if_neg e1] at h1
      by_cases e2 : name q = name r
      · rw [← e2, if_neg e1]
        exact h1
      · rw [if_neg e2] at h2
        have h3 := cmpBytes_trans h1 h2
        have : name p ≠ name r := fun e => by
          rw [cmpBytes_eq.2 e] at h3
          cases h3
        rw [if_neg this]
        exact h3

/-! ### From the code to the ordering -/

theorem means_of {s t : UT} {o : Int} (hp : Linear pr) (h : Ordered (code pr k) s t o) :
    Means pr (er k s) (er k t) o := by
  obtain ⟨r, h1, h2, h3⟩ := (ordered_er (pr := pr) (k := k)).1 h
  exact h3 ▸ lpoN_truthful hp _ _ _ _ h1 h2

theorem gt_of {s t : UT} (hp : Linear pr) (h : Less (code pr k) s t) : Gt pr (er k t) (er k s) := by
  rcases means_of hp h with h | h | h
  · omega
  · exact h.2
  · omega

theorem ordered_of {s t : UT} (hp : Linear pr) (fs : Fixed ar k s) (ft : Fixed ar k t) (gs : Ground s) (gt : Ground t) :
    ∃ o, Ordered (code pr k) s t o ∧ Means pr (er k s) (er k t) o := by
  obtain ⟨r, h1, h2⟩ := lpoN_ok hp ar _ _ _ fs.er ft.er (Nat.le_refl _)
  have := h2 ⟨er_ground k gs, er_ground k gt⟩
  exact ⟨r.order, (ordered_er (pr := pr) (k := k)).2 ⟨r, h1, this, rfl⟩, lpoN_truthful hp _ _ _ _ h1 this⟩

theorem means_det {s t : UT} {o o' : Int} (hp : Linear pr) (h1 : Means pr s t o) (h2 : Means pr s t o') : o = o' := by
  have ir := Gt.irrefl hp
  rcases h1 with ⟨rfl, h1⟩ | ⟨rfl, h1⟩ | ⟨rfl, h1⟩ <;> rcases h2 with ⟨rfl, h2⟩ | ⟨rfl, h2⟩ | ⟨rfl, h2⟩
  · rfl
  · subst h1; exact absurd h2 (ir _)
  · subst h1; exact absurd h2 (ir _)
  · subst h2; exact absurd h1 (ir _)
  · rfl
  · exact absurd h2 (fun h => Gt.asymm hp h1 h)
  · subst h2; exact absurd h1 (ir _)
  · exact absurd h2 (fun h => Gt.asymm hp h1 h)
  · rfl

theorem of_means {s t : UT} {o : Int} (hp : Linear pr) (fs : Fixed ar k s) (ft : Fixed ar k t) (gs : Ground s)
    (gt : Ground t) (h : Means pr (er k s) (er k t) o) : Ordered (code pr k) s t o := by
  obtain ⟨o', h1, h2⟩ := ordered_of hp fs ft gs gt
  exact means_det hp h h2 ▸ h1

theorem of_gt {s t : UT} (hp : Linear pr) (fs : Fixed ar k s) (ft : Fixed ar k t) (gs : Ground s)
    (gt : Ground t) (h : Gt pr (er k t) (er k s)) : Less (code pr k) s t :=
  of_means hp fs ft gs gt (Or.inr (Or.inl ⟨rfl, h⟩))

/-! ### The laws -/

/-- Two variable-free terms without type arguments (`k = id`) are always comparable, and one of them is smaller unless
they are equal; the comparison never fails. With type arguments this is false, see `C38_total_violated`. -/
theorem C38_total_partial (hp : Linear pr) {s t : UT} (fs : Fixed ar id s) (ft : Fixed ar id t) (gs : Ground s)
    (gt : Ground t) :
    (Ordered (code pr id) s t 1 ∧ Ordered (code pr id) t s (-1)) ∨
      (s = t ∧ Ordered (code pr id) s t 0) ∨ (Ordered (code pr id) s t (-1) ∧ Ordered (code pr id) t s 1) := by
  have e : ∀ t : UT, er id t = t := fun t => by
    induction t using UT.ind with
    | mv x => rfl
    | fn f l ih =>
      rw [er_fn]
      simp only [id_eq, UT.fn.injEq, true_and]
      have := List.map_congr_left (l := l) (f := er id) (g := id) ih
      simpa using this
  obtain ⟨o, h1, h2⟩ := ordered_of hp fs ft gs gt
  rcases h2 with ⟨rfl, h⟩ | ⟨rfl, h⟩ | ⟨rfl, h⟩
  · exact Or.inr (Or.inl ⟨by rwa [e, e] at h, h1⟩)
  · exact Or.inl ⟨h1, of_means hp ft fs gt gs (Or.inr (Or.inr ⟨rfl, h⟩))⟩
  · exact Or.inr (Or.inr ⟨h1, of_means hp ft fs gt gs (Or.inr (Or.inl ⟨rfl, h⟩))⟩)

/-- With type arguments: two variable-free terms are always comparable, and if neither is smaller they differ at most
in type arguments. -/
theorem C38_total_types_partial (hp : Linear pr) {s t : UT} (fs : Fixed ar k s) (ft : Fixed ar k t) (gs : Ground s)
    (gt : Ground t) :
    Less (code pr k) s t ∨ (er k s = er k t ∧ Ordered (code pr k) s t 0) ∨ Less (code pr k) t s := by
  obtain ⟨o, h1, h2⟩ := ordered_of hp fs ft gs gt
  rcases h2 with ⟨rfl, h⟩ | ⟨rfl, h⟩ | ⟨rfl, h⟩
  · exact Or.inr (Or.inl ⟨h, h1⟩)
  · exact Or.inl h1
  · exact Or.inr (Or.inr (of_means hp ft fs gt gs (Or.inr (Or.inl ⟨rfl, h⟩))))

/-- No term is smaller than itself (metavariables included). -/
theorem C38_irreflexive (hp : Linear pr) (s : UT) : ¬ Less (code pr k) s s :=
  fun h => Gt.irrefl hp _ (gt_of hp h)

/-- Two terms are never declared smaller than each other (metavariables included). -/
theorem C38_antisymmetric (hp : Linear pr) {s t : UT} (h : Less (code pr k) s t) : ¬ Less (code pr k) t s :=
  fun h' => Gt.asymm hp (gt_of hp h) (gt_of hp h')

/-- Transitivity on variable-free terms. -/
theorem C38_transitive (hp : Linear pr) {s t u : UT} (fs : Fixed ar k s) (fu : Fixed ar k u) (gs : Ground s)
    (gu : Ground u) (h1 : Less (code pr k) s t) (h2 : Less (code pr k) t u) : Less (code pr k) s u :=
  of_gt hp fs fu gs gu (Gt.trans hp (gt_of hp h2) (gt_of hp h1))

/-- Replacement of an argument by a bigger one makes the term bigger. -/
theorem C38_monotone (hp : Linear pr) {a b : UT} {f : Nat} {pre l : List UT}
    (f1 : Fixed ar k (.fn f (pre ++ a :: l))) (f2 : Fixed ar k (.fn f (pre ++ b :: l)))
    (g1 : Ground (.fn f (pre ++ a :: l))) (g2 : Ground (.fn f (pre ++ b :: l))) (h : Less (code pr k) a b) :
    Less (code pr k) (.fn f (pre ++ a :: l)) (.fn f (pre ++ b :: l)) := by
  refine of_gt hp f1 f2 g1 g2 ?_
  simp only [er_fn, List.map_append, List.map_cons]
  exact Gt.mono (gt_of hp h) _ _ _

/-- Proper sub-terms. -/
inductive Inside : UT → UT → Prop
  | arg {f : Nat} {l : List UT} {a : UT} : a ∈ l → Inside a (.fn f l)
  | deep {f : Nat} {l : List UT} {a b : UT} : a ∈ l → Inside b a → Inside b (.fn f l)

/-- A variable-free term is bigger than each of its proper sub-terms. -/
theorem C38_subterm (hp : Linear pr) {a t : UT} (ft : Fixed ar k t) (gt : Ground t) (h : Inside a t) :
    Less (code pr k) a t := by
  have : Gt pr (er k t) (er k a) ∧ Fixed ar k a ∧ Ground a := by
    induction h with
    | arg h =>
      refine ⟨?_, ar_arg ft h, gt.arg h⟩
      rw [er_fn]
      exact .subEq (List.mem_map_of_mem h)
    | deep h _ ih =>
      obtain ⟨i1, i2, i3⟩ := ih (ar_arg ft h) (gt.arg h)
      refine ⟨?_, i2, i3⟩
      rw [er_fn]
      exact .sub (List.mem_map_of_mem h) i1
  exact of_gt hp this.2.1 ft this.2.2 gt this.1

/-- Terms with metavariables declared comparable: every variable-free instance of them is ordered in the same way. -/
theorem C38_stable (hp : Linear pr) {s t : UT} {o : Int} (h : Ordered (code pr k) s t o) (σ : Nat → UT)
    (fs : Fixed ar k (s.inst σ)) (ft : Fixed ar k (t.inst σ)) (gs : Ground (s.inst σ)) (gt : Ground (t.inst σ)) :
    Ordered (code pr k) (s.inst σ) (t.inst σ) o := by
  refine of_means hp fs ft gs gt ?_
  rw [er_inst, er_inst]
  rcases means_of hp h with ⟨h, e⟩ | ⟨h, e⟩ | ⟨h, e⟩
  · exact Or.inl ⟨h, by rw [e]⟩
  · exact Or.inr (Or.inl ⟨h, e.inst _⟩)
  · exact Or.inr (Or.inr ⟨h, e.inst _⟩)

/-! ### Samples and violations -/

namespace LSample
abbrev a : UT := .fn 0 []
abbrev b : UT := .fn 1 []
abbrev f (x y : UT) : UT := .fn 2 [x, y]
abbrev g (x : UT) : UT := .fn 3 [x]
abbrev X : UT := .mv 0
abbrev Y : UT := .mv 1
abbrev pr0 (p q : Nat) : Ordering := compare p q
def ar0 : Nat → Nat
  | 2 => 2
  | 3 => 1
  | _ => 0
end LSample

open LSample

instance (o : Int) (s t : UT) (pr : Nat → Nat → Ordering) : Decidable (Ordered pr s t o) :=
  decidable_of_iff ((match lpo pr s t with | .ok r => decide (r.cmp = true ∧ r.order = o) | _ => false) = true) (by
    unfold Ordered
    split
    · rename_i r h
      simp only [decide_eq_true_eq, Res.ok.injEq]
      exact ⟨fun h' => ⟨r, h, h'⟩, fun ⟨r', e, h'⟩ => by rw [h] at e; cases e; exact h'⟩
    · rename_i h
      exact ⟨fun h => (by cases h), fun ⟨r, e, _⟩ => absurd e (h r)⟩)

instance (s t : UT) (pr : Nat → Nat → Ordering) : Decidable (Less pr s t) := inferInstanceAs (Decidable (Ordered pr s t 1))
instance (t : UT) : Decidable (Ground t) := inferInstanceAs (Decidable (t.occ = []))

/-- Both kinds of answers, nested terms; the hypotheses of the laws hold. -/
example : Less (code pr0 id) (f a b) (f (g a) b) ∧ Less (code pr0 id) (f b a) (g (f b a)) ∧
    Less (code pr0 id) (f X Y) (g (f X Y)) ∧ ¬ Ordered (code pr0 id) (f X a) (f Y a) 1 := by decide +kernel
example : Fixed ar0 id (f a (g b)) ∧ Ground (f a (g b)) := by
  refine ⟨?_, by decide +kernel⟩
  simp [Fixed, UT.Ar, UT.ArL, ar0]
/-- Names `b`, `a` and `ab`: the order of names, not of indexes. -/
example : compareWith (fun p => if p = 0 then [98] else if p = 1 then [97] else [97, 98]) 1 2 = .lt ∧
    compareWith (fun p => if p = 0 then [98] else if p = 1 then [97] else [97, 98]) 2 0 = .lt := by decide
example : Inside b (f a (g b)) := .deep (a := g b) (by simp) (.arg (by simp))

/-- The full claim of totality: two different variable-free terms are ordered. -/
def C38_total_statement : Prop :=
  ∀ (pr : Nat → Nat → Ordering) (k ar : Nat → Nat) (s t : UT), Linear pr → Fixed ar k s → Fixed ar k t →
    Ground s → Ground t → s ≠ t → Less (code pr k) s t ∨ Less (code pr k) t s

/-- Two constants that differ only in a type argument, such as `nil(int)` and `nil(rat)`, are declared equal
(src/Mods/equality/bse/lpo.go:192-209 looks at the identifiers only, 238-297 at the term arguments only). -/
theorem C38_total_violated : ∃ s t : UT, Ground s ∧ Ground t ∧ s ≠ t ∧
    Ordered (code pr0 (· / 2)) s t 0 ∧ ¬ Less (code pr0 (· / 2)) s t ∧ ¬ Less (code pr0 (· / 2)) t s :=
  ⟨.fn 0 [], .fn 1 [], by decide +kernel⟩

theorem C38_total_statement_false : ¬ C38_total_statement := fun h => by
  have := h pr0 (· / 2) (fun _ => 0) (.fn 0 []) (.fn 1 []) linear_nat (by simp [Fixed, UT.Ar, UT.ArL])
    (by simp [Fixed, UT.Ar, UT.ArL]) (by decide +kernel) (by decide +kernel) (by decide +kernel)
  revert this
  show ¬ _
  decide +kernel

/-- With metavariables, a term need not be declared bigger than a sub-term: `f(X, X)` and `f(Y, f(X, X))` are not
comparable, since the comparison stops at the first argument that is not comparable. -/
theorem C38_subterm_open_violated : Inside (f X X) (f Y (f X X)) ∧ ∀ o, ¬ Ordered (code pr0 id) (f X X) (f Y (f X X)) o := by
  refine ⟨.arg (by simp), fun o => ?_⟩
  have : ∃ r, lpo (code pr0 id) (f X X) (f Y (f X X)) = .ok r ∧ r.cmp = false := by
    refine ⟨⟨0, false, some (X, Y)⟩, ?_⟩
    decide +kernel
  obtain ⟨r, h1, h2⟩ := this
  rintro ⟨r', h3, h4, _⟩
  rw [h1] at h3
  cases h3
  rw [h2] at h4
  cases h4

/-! ### C59: simplification of constraints -/

/-- `Constraint` (src/Mods/equality/bse/constraints_type.go:55-58): `s ≺ t` or `s ≃ t`. -/
inductive Con where
  | prec (s t : UT)
  | eq (s t : UT)
deriving DecidableEq

/-- `checkLPO` (src/Mods/equality/bse/constraints_type.go:101-127): the answer is whether the constraint is not violated
and whether it is comparable; the constraint is replaced by the terms the comparison returned. -/
def checkLPO (pr : Nat → Nat → Ordering) : Con → Res ((Bool × Bool) × Con)
  | .prec s t => (lpo pr s t).bind fun r =>
    if r.cmp then .ok ((decide (r.order > 0), true), .prec s t)
    else match r.new with
      | some (s', t') => .ok ((true, false), .prec s' t')
      | none => .ok ((true, false), .prec s t)
  | .eq s t => (lpo pr s t).bind fun r =>
    if r.cmp then .ok ((decide (r.order = 0), true), .eq s t)
    else match r.new with
      | some (s', t') => .ok ((true, false), .eq s' t')
      | none => .ok ((true, false), .eq s t)

/-- Spec: a substitution satisfies a constraint. -/
def Con.Holds (pr : Nat → Nat → Ordering) (σ : Nat → UT) : Con → Prop
  | .prec s t => Less pr (s.inst σ) (t.inst σ)
  | .eq s t => s.inst σ = t.inst σ

/-- Spec: the substitution maps all metavariables to variable-free terms, with a fixed number of arguments for each
symbol. -/
def Closing (ar : Nat → Nat) (σ : Nat → UT) : Prop := ∀ x, Ground (σ x) ∧ Fixed ar id (σ x)

/-- Both sides of a constraint use every symbol with its number of arguments. -/
def Con.Fixed (ar : Nat → Nat) : Con → Prop
  | .prec s t => LPO.Fixed ar id s ∧ LPO.Fixed ar id t
  | .eq s t => LPO.Fixed ar id s ∧ LPO.Fixed ar id t

/-- The full claim: a check that decides a constraint decides it for all its instances, and a check that does not
replaces it by a constraint with the same solutions. -/
def C59_statement : Prop :=
  ∀ (pr : Nat → Nat → Ordering) (ar : Nat → Nat) (c c' : Con) (ok cmp : Bool) (σ : Nat → UT), Linear pr → c.Fixed ar →
    Closing ar σ → checkLPO (code pr id) c = .ok ((ok, cmp), c') →
    (cmp = true → (c.Holds (code pr id) σ ↔ ok = true)) ∧ (c.Holds (code pr id) σ ↔ c'.Holds (code pr id) σ)

theorem er_id (t : UT) : er id t = t := by
  induction t using UT.ind with
  | mv x => rfl
  | fn f l ih =>
    rw [er_fn]
    simp only [id_eq, UT.fn.injEq, true_and]
    have := List.map_congr_left (l := l) (f := er id) (g := id) ih
    simpa using this

theorem Closing.inst {σ : Nat → UT} (h : Closing ar σ) {t : UT} (ft : Fixed ar id t) :
    Ground (t.inst σ) ∧ Fixed ar id (t.inst σ) := by
  induction t using UT.ind with
  | mv x => exact h x
  | fn f l ih =>
    rw [inst_fn]
    have ih' := fun a ha => ih a ha (ar_arg ft ha)
    refine ⟨Ground.mk fun a ha => ?_, ?_⟩
    · obtain ⟨b, hb, rfl⟩ := List.mem_map.1 ha
      exact (ih' b hb).1
    · unfold Fixed at *
      simp only [UT.Ar, UT.ArL_iff, List.length_map] at ft ⊢
      refine ⟨ft.1, fun a ha => ?_⟩
      obtain ⟨b, hb, rfl⟩ := List.mem_map.1 ha
      exact (ih' b hb).2

theorem ordered_unique {pr : Nat → Nat → Ordering} {s t : UT} {o o' : Int} (h : Ordered pr s t o)
    (h' : Ordered pr s t o') : o = o' := by
  obtain ⟨r, e1, _, e3⟩ := h
  obtain ⟨r', e1', _, e3'⟩ := h'
  rw [e1] at e1'
  cases e1'
  rw [← e3, ← e3']

/-- A constraint the check decides is decided for all its instances. -/
theorem C59_decided_partial (hp : Linear pr) {c c' : Con} {ok : Bool} {σ : Nat → UT} (hc : c.Fixed ar)
    (hσ : Closing ar σ) (h : checkLPO (code pr id) c = .ok ((ok, true), c')) :
    c' = c ∧ (c.Holds (code pr id) σ ↔ ok = true) := by
  have means : ∀ {s t : UT} {r : CS}, lpo (code pr id) s t = .ok r → r.cmp = true → Fixed ar id s → Fixed ar id t →
      Ordered (code pr id) (s.inst σ) (t.inst σ) r.order ∧
        (r.order = 0 ↔ s.inst σ = t.inst σ) := by
    intro s t r h1 h2 fs ft
    obtain ⟨gs, fs'⟩ := hσ.inst fs
    obtain ⟨gt, ft'⟩ := hσ.inst ft
    have ho := C38_stable hp ⟨r, h1, h2, rfl⟩ σ fs' ft' gs gt
    have hm := means_of hp ho
    rw [er_id, er_id] at hm
    refine ⟨ho, ?_⟩
    rcases hm with ⟨e, h⟩ | ⟨e, h⟩ | ⟨e, h⟩
    · exact ⟨fun _ => h, fun _ => e⟩
    · exact ⟨fun h' => by omega, fun h' => by rw [h'] at h; exact absurd h (Gt.irrefl hp _)⟩
    · exact ⟨fun h' => by omega, fun h' => by rw [h'] at h; exact absurd h (Gt.irrefl hp _)⟩
  cases c with
  | prec s t =>
    obtain ⟨r, h1, h2⟩ := Res.bind_ok.1 h
    cases hr : r.cmp with
    | false =>
      rw [hr] at h2
      simp only [Bool.false_eq_true, if_false] at h2
      split at h2 <;> cases h2
    | true =>
      simp only [hr, if_true, Res.ok.injEq, Prod.mk.injEq, and_true] at h2
      obtain ⟨m1, m2⟩ := means h1 hr hc.1 hc.2
      refine ⟨h2.2.symm, ?_⟩
      rw [← h2.1, decide_eq_true_eq]
      constructor
      · intro hl
        have := ordered_unique m1 hl
        omega
      · intro hl
        rcases means_of hp m1 with ⟨e, _⟩ | ⟨e, _⟩ | ⟨e, _⟩
        · omega
        · rw [e] at m1; exact m1
        · omega
  | eq s t =>
    obtain ⟨r, h1, h2⟩ := Res.bind_ok.1 h
    cases hr : r.cmp with
    | false =>
      rw [hr] at h2
      simp only [Bool.false_eq_true, if_false] at h2
      split at h2 <;> cases h2
    | true =>
      simp only [hr, if_true, Res.ok.injEq, Prod.mk.injEq, and_true] at h2
      obtain ⟨m1, m2⟩ := means h1 hr hc.1 hc.2
      refine ⟨h2.2.symm, ?_⟩
      rw [← h2.1, decide_eq_true_eq]
      exact m2.symm

/-- `f(X, a) ≃ f(Y, b)` has no solution, but the check replaces it by `X ≃ Y`
(the remaining arguments are forgotten, src/Mods/equality/bse/lpo.go:252-272). -/
theorem C59_equation_violated :
    checkLPO (code pr0 id) (.eq (f X a) (f Y b)) = .ok ((true, false), .eq X Y) ∧
      (∀ σ, ¬ (Con.eq (f X a) (f Y b)).Holds (code pr0 id) σ) ∧
      (Con.eq X Y).Holds (code pr0 id) (fun _ => a) := by
  refine ⟨by decide +kernel, fun σ h => ?_, rfl⟩
  simp [Con.Holds, inst_fn] at h

/-- `f(X, a) ≺ f(Y, b)` holds when `X` and `Y` are equal, but the check replaces it by `X ≺ Y`, which does not hold
then. -/
theorem C59_lost_violated :
    checkLPO (code pr0 id) (.prec (f X a) (f Y b)) = .ok ((true, false), .prec X Y) ∧
      (Con.prec (f X a) (f Y b)).Holds (code pr0 id) (fun _ => a) ∧
      ¬ (Con.prec X Y).Holds (code pr0 id) (fun _ => a) := by
  refine ⟨by decide +kernel, ?_, ?_⟩
  · show Less _ _ _
    unfold Less
    decide +kernel
  · show ¬ Less _ _ _
    unfold Less
    decide +kernel

/-- `f(X, g(b)) ≺ f(Y, a)` does not hold for `X = a`, `Y = b`, but the check replaces it by `X ≺ Y`, which does. -/
theorem C59_gained_violated :
    checkLPO (code pr0 id) (.prec (f X (g b)) (f Y a)) = .ok ((true, false), .prec X Y) ∧
      ¬ (Con.prec (f X (g b)) (f Y a)).Holds (code pr0 id) (fun i => if i = 0 then a else b) ∧
      (Con.prec X Y).Holds (code pr0 id) (fun i => if i = 0 then a else b) := by
  refine ⟨by decide +kernel, ?_, ?_⟩
  · show ¬ Less _ _ _
    unfold Less
    decide +kernel
  · show Less _ _ _
    unfold Less
    decide +kernel

theorem C59_statement_false : ¬ C59_statement := fun h => by
  obtain ⟨h1, h2, h3⟩ := C59_equation_violated
  have := (h pr0 ar0 _ _ _ _ (fun _ => a) linear_nat (by simp [Con.Fixed, Fixed, UT.Ar, UT.ArL, ar0])
    (fun _ => ⟨rfl, by simp [Fixed, UT.Ar, UT.ArL, ar0]⟩) h1).2.2 h3
  exact h2 _ this

/-- The direction that holds for equations: a solution of the constraint is a solution of the constraint that replaces
it. -/
theorem C59_equation_partial {pr : Nat → Nat → Ordering} {s t : UT} {c' : Con} {ok cmp : Bool} {σ : Nat → UT}
    (h : checkLPO pr (.eq s t) = .ok ((ok, cmp), c')) (hs : (Con.eq s t).Holds pr σ) : c'.Holds pr σ := by
  have eqStuck : ∀ {c : UT → UT → Res CS} {l m : List UT} {p : UT × UT},
      (∀ a b r p, c a b = .ok r → r.cmp = false → r.new = some p → a.inst σ = b.inst σ → p.1.inst σ = p.2.inst σ) →
      eqLoop c l m = .ok (.stuck (some p)) → l.map (UT.inst σ) = m.map (UT.inst σ) → p.1.inst σ = p.2.inst σ := by
    intro c l m p hc
    induction l generalizing m with
    | nil => intro h; cases m <;> simp [eqLoop] at h
    | cons a l ih =>
      intro h e
      cases m with
      | nil => simp [eqLoop] at h
      | cons b m =>
        simp only [List.map_cons, List.cons.injEq] at e
        simp only [eqLoop] at h
        obtain ⟨r, h1, h2⟩ := Res.bind_ok.1 h
        cases hr : r.cmp with
        | false =>
          simp only [hr, Bool.not_false, if_true, Res.ok.injEq, EqR.stuck.injEq] at h2
          exact hc a b r p h1 hr h2 e.1
        | true =>
          by_cases ho : r.order = 0
          · simp only [hr, ho, Bool.not_true, Bool.false_eq_true, if_false, ne_eq, not_true_eq_false] at h2
            exact ih h2 e.2
          · simp [hr, ho] at h2
  have main : ∀ n (a b : UT) (r : CS) (p : UT × UT), lpoN pr n a b = .ok r → r.cmp = false → r.new = some p →
      a.inst σ = b.inst σ → p.1.inst σ = p.2.inst σ := by
    intro n
    induction n with
    | zero => intro a b r p h; simp [lpoN] at h
    | succ n ih =>
      intro a b r p h hr hn e
      have dflt : ∀ {s t : UT} {l : List UT}, caseDefault (lpoN pr n) s t l = .ok r → s.inst σ = t.inst σ →
          p.1.inst σ = p.2.inst σ := by
        intro s t l h e
        obtain ⟨x, h1, h2⟩ := Res.bind_ok.1 h
        match x with
        | none => cases h2; cases hn; exact e
        | some true => cases h2; cases hr
        | some false => cases h2; cases hr
      match a, b with
      | .mv x, .mv y =>
        simp only [lpoN] at h
        split at h
        · cases h; cases hr
        · cases h; cases hn; exact e
      | .mv x, .fn g ts =>
        obtain ⟨y, h1, h2⟩ := Res.bind_ok.1 h
        match y with
        | none => cases h2; cases hn; exact e
        | some y => cases h2; obtain ⟨_, _, _, _, _, rfl⟩ := insideLoop_some h1; cases hr
      | .fn f ss, .mv y =>
        obtain ⟨y, h1, h2⟩ := Res.bind_ok.1 h
        match y with
        | none => cases h2; cases hn; exact e
        | some y => cases h2; obtain ⟨_, _, _, _, _, rfl⟩ := insideLoop_some h1; cases hr
      | .fn f ss, .fn g ts =>
        simp only [lpoN, funFun] at h
        cases hfg : pr f g with
        | gt => simp only [hfg] at h; exact dflt h e
        | lt =>
          simp only [hfg] at h
          obtain ⟨x, h1, h2⟩ := Res.bind_ok.1 h
          match x with
          | none => cases h2; cases hn; exact e
          | some false => cases h2; cases hr
          | some true => exact dflt h2 e
        | eq =>
          simp only [hfg] at h
          split at h
          · cases h
          · obtain ⟨x, h1, h2⟩ := Res.bind_ok.1 h
            match x with
            | .stuck new =>
              cases h2
              cases hn
              refine eqStuck ih h1 ?_
              simp only [inst_fn, UT.fn.injEq] at e
              exact e.2
            | .same => cases h2; cases hr
            | .diff v rest =>
              dsimp only at h2
              split at h2
              · obtain ⟨y, h3, h4⟩ := Res.bind_ok.1 h2
                match y with
                | none => cases h4; cases hn; exact e
                | some false => cases h4; cases hr
                | some true => exact dflt h4 e
              · exact dflt h2 e
  obtain ⟨r, h1, h2⟩ := Res.bind_ok.1 h
  cases hr : r.cmp with
  | true =>
    simp only [hr, if_true, Res.ok.injEq, Prod.mk.injEq] at h2
    rw [← h2.2]
    exact hs
  | false =>
    simp only [hr, Bool.false_eq_true, if_false] at h2
    match hn : r.new with
    | none =>
      simp only [hn, Res.ok.injEq, Prod.mk.injEq] at h2
      rw [← h2.2]
      exact hs
    | some p =>
      simp only [hn, Res.ok.injEq, Prod.mk.injEq] at h2
      rw [← h2.2]
      exact main _ s t r p h1 hr hn hs

example : checkLPO (code pr0 id) (.eq (f X (g a)) (f Y (g a))) = .ok ((true, false), .eq X Y) := by decide +kernel

end Verif.Equality.LPO
