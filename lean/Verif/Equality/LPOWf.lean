import Verif.Equality.LPOProps
/-!
# C38: the term ordering is well-founded

There is no infinite descending sequence of variable-free terms over finitely many symbols. The order of identifiers itself is not
well-founded (names are compared like strings), so that the restriction to finitely many symbols, that is to the symbols of one
problem, is needed.
-/

namespace Verif.Equality.LPO

open Verif.Unif

variable {pr : Nat → Nat → Ordering}

theorem prec_wf (hp : Linear pr) (S : List Nat) : WellFounded fun p q => pr p q = .lt ∧ p ∈ S := by
  refine Subrelation.wf (r := InvImage (· < ·) fun q => (S.filter fun p => decide (pr p q = .lt)).length) ?_
    (InvImage.wf _ Nat.lt_wfRel.wf)
  rintro p q ⟨h, hS⟩
  show (S.filter fun x => decide (pr x p = .lt)).length < (S.filter fun x => decide (pr x q = .lt)).length
  have e : (S.filter fun x => decide (pr x p = .lt)) =
      (S.filter fun x => decide (pr x q = .lt)).filter fun x => decide (pr x p = .lt) := by
    rw [List.filter_filter]
    apply List.filter_congr
    intro x _
    by_cases hx : pr x p = .lt
    · simp [hx, hp.trans hx h]
    · simp [hx]
  rw [e, List.length_filter_lt_length_iff_exists]
  refine ⟨p, by simp [hS, h], ?_⟩
  have : pr p p = .eq := hp.eq.2 rfl
  simp [this]

/-- Variable-free terms over the symbols of a list. -/
inductive Over (S : List Nat) : UT → Prop where
  | fn {p : Nat} {l : List UT} (h : p ∈ S) (ha : ∀ a ∈ l, Over S a) : Over S (.fn p l)

theorem Over.mono {S S' : List Nat} (h : ∀ p ∈ S, p ∈ S') {t : UT} (ht : Over S t) : Over S' t := by
  induction ht with
  | fn hp _ ih => exact .fn (h _ hp) ih

theorem Over.args {S : List Nat} {p : Nat} {l : List UT} (h : Over S (.fn p l)) : ∀ a ∈ l, Over S a := by
  cases h with
  | fn _ ha => exact ha

theorem over_list {l : List UT} (h : ∀ a ∈ l, ∃ S, Over S a) : ∃ S, ∀ a ∈ l, Over S a := by
  induction l with
  | nil => exact ⟨[], by simp⟩
  | cons a l ih =>
    obtain ⟨S, hS⟩ := ih fun a ha => h a (by simp [ha])
    obtain ⟨S', hS'⟩ := h a (by simp)
    refine ⟨S' ++ S, fun b hb => ?_⟩
    rcases List.mem_cons.1 hb with rfl | hb
    · exact hS'.mono (by intro p hp; simp [hp])
    · exact (hS b hb).mono (by intro p hp; simp [hp])

/-- Every variable-free term has finitely many symbols. -/
theorem exists_over (t : UT) (h : Ground t) : ∃ S, Over S t := by
  induction t using UT.ind with
  | mv x => simp [Ground, UT.occ] at h
  | fn p l ih =>
    obtain ⟨S, hS⟩ := over_list fun a ha => ih a ha (h.arg ha)
    exact ⟨p :: S, .fn (by simp) fun a ha => (hS a ha).mono (by intro q hq; simp [hq])⟩

theorem Over.ground {S : List Nat} {t : UT} (h : Over S t) : Ground t := by
  induction h with
  | fn _ _ ih => exact Ground.mk ih

/-- The ordering on these terms, as a relation that may descend. -/
def Below (pr : Nat → Nat → Ordering) (S : List Nat) (a b : UT) : Prop := Gt pr b a ∧ Over S a

/-- Induction on lists of accessible terms, along the lexicographic comparison. -/
theorem lex_ind {R : UT → UT → Prop} (Q : List UT → Prop)
    (step : ∀ ss, (∀ a ∈ ss, Acc R a) → (∀ pre a b l m, ss = pre ++ a :: l → l.length = m.length → R b a →
      (∀ x ∈ pre ++ b :: m, Acc R x) → Q (pre ++ b :: m)) → Q ss) :
    ∀ n ss, ss.length = n → (∀ a ∈ ss, Acc R a) → Q ss := by
  intro n
  induction n generalizing Q with
  | zero =>
    intro ss hl ha
    obtain rfl := List.length_eq_zero_iff.1 hl
    refine step [] ha fun pre a b l m e => ?_
    simp at e
  | succ n ih =>
    intro ss hl ha
    cases ss with
    | nil => simp at hl
    | cons a l =>
      have hacc := ha a (by simp)
      induction hacc generalizing l with
      | intro a hin iha =>
        refine ih (fun l => l.length = n → Q (a :: l)) (fun l' hl' hQ hn => ?_) l (by simpa using hl)
          (fun x hx => ha x (by simp [hx])) (by simpa using hl)
        refine step (a :: l') (fun x hx => (List.mem_cons.1 hx).elim (fun e => e ▸ Acc.intro a hin) fun hx => hl' x hx) ?_
        intro pre c b k m e hlen hR hall
        cases pre with
        | nil =>
          obtain ⟨rfl, rfl⟩ := List.cons.inj e
          exact iha b hR m (by simp; omega) hall
        | cons d pre =>
          obtain ⟨rfl, e'⟩ := List.cons.inj e
          have e' : l' = pre ++ c :: k := e'
          refine hQ pre c b k m e' hlen hR (fun x hx => hall x ?_) ?_
          · simp only [List.cons_append, List.mem_cons]; exact Or.inr hx
          · rw [e'] at hn
            simp only [List.length_append, List.length_cons] at hn ⊢
            omega

theorem fn_acc (hp : Linear pr) (S : List Nat) (p : Nat) : ∀ l : List UT, (∀ a ∈ l, Acc (Below pr S) a) → Acc (Below pr S) (.fn p l) := by
  induction p using (prec_wf hp S).induction with
  | _ p ihp =>
    intro l hl
    refine lex_ind (R := Below pr S) (fun l => Acc (Below pr S) (.fn p l)) (fun ss hss ihl => ?_) _ l rfl hl
    refine Acc.intro _ fun u hu => ?_
    induction u using UT.ind with
    | mv x => cases hu.2
    | fn q m ihu =>
      obtain ⟨hgt, hov⟩ := hu
      have hq : q ∈ S := by cases hov; assumption
      cases hgt with
      | subEq h => exact hss _ h
      | sub h h' => exact (hss _ h).inv ⟨h', hov⟩
      | big h h' => exact ihp q ⟨h, hq⟩ m fun b hb => ihu b hb ⟨h' b hb, hov.args b hb⟩
      | lex h hlen h' =>
        rename_i pre a b k n
        have hb : Over S b := hov.args b (by simp)
        exact ihl pre a b k n rfl hlen ⟨h, hb⟩ fun x hx => ihu x hx ⟨h' x hx, hov.args x hx⟩

/-- No term over finitely many symbols begins an infinite descent. -/
theorem below_acc (hp : Linear pr) {S : List Nat} {t : UT} (h : Over S t) : Acc (Below pr S) t := by
  induction h with
  | fn _ _ ih => exact fn_acc hp S _ _ ih

/-- **C38, termination**: there is no infinite sequence of variable-free terms over finitely many symbols in which every term is declared
smaller than the one before. -/
theorem C38_wellfounded (hp : Linear pr) (S : List Nat) (f : Nat → UT) (hS : ∀ i, Over S (f i)) :
    ∃ i, ¬ Less (code pr id) (f (i + 1)) (f i) := by
  refine Classical.byContradiction fun hc => ?_
  have hlt : ∀ i, Gt pr (f i) (f (i + 1)) := fun i => by
    have := gt_of hp (k := id) (Classical.not_not.1 (not_exists.1 hc i))
    rwa [er_id, er_id] at this
  have : ∀ t, Acc (Below pr S) t → ∀ i, f i ≠ t := by
    intro t ht
    induction ht with
    | intro t _ ih =>
      rintro i rfl
      exact ih (f (i + 1)) ⟨hlt i, hS (i + 1)⟩ (i + 1) rfl
  exact this _ (below_acc hp (hS 0)) 0 rfl

/-- Over infinitely many symbols this is false: the names `a`, `aa`… can descend forever, as strings do. -/
theorem C38_wellfounded_violated : ∃ (name : Nat → List Nat) (f : Nat → UT), (∀ i, Ground (f i)) ∧
    ∀ i, Gt (compareWith name) (f i) (f (i + 1)) := by
  refine ⟨fun n => List.replicate n 0 ++ [1], fun n => .fn n [], fun i => rfl, fun i => .big ?_ (by simp)⟩
  have h : ∀ i, cmpBytes (List.replicate (i + 1) 0 ++ [1]) (List.replicate i 0 ++ [1]) = .lt := by
    intro i
    induction i with
    | zero => decide
    | succ i ih =>
      rw [List.replicate_succ (n := i + 1), List.replicate_succ (n := i), List.cons_append, List.cons_append]
      simp only [cmpBytes, Nat.lt_irrefl, if_false]
      exact ih
  have hne : List.replicate (i + 1) 0 ++ [1] ≠ List.replicate i 0 ++ [1] := fun e => by
    have := congrArg List.length e
    simp at this
  show compareWith (fun n => List.replicate n 0 ++ [1]) (i + 1) i = .lt
  simp only [compareWith, if_neg hne]
  exact h i

end Verif.Equality.LPO
