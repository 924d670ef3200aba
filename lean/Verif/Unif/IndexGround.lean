import Verif.Unif.Index
import Verif.Unif.Matching
/-!
# C30 on ground queries and ground facts

The search in the index is exact when the query, or every stored formula, has no metavariables.
-/

namespace Verif.Unif

variable {ar : Nat → Nat} {σ : Nat → UT}

/-- An atomic formula without metavariables. -/
def Atom.Gd (ar : Nat → Nat) (f : Atom) : Prop := f.term.Gd ar

theorem parseL_ground {l : List UT} (h : ∀ t ∈ l, t.Gd ar) (pc : Nat) (seen : List Nat) : ∀ i ∈ parseL pc seen l, i.Gd ar := by
  induction l generalizing seen with
  | nil => intro i hi; cases hi
  | cons a l ih =>
    intro i hi
    simp only [parseL, List.mem_append] at hi
    rcases hi with hi | hi
    · exact parse_ground a (h a (by simp)) _ _ _ i hi
    · exact ih (fun t ht => h t (by simp [ht])) _ i hi

theorem code_ground {f : Atom} (h : f.Gd ar) : ∀ i ∈ f.code, i.Gd ar := by
  have hl := parseL_ground (UT.Gd.args h) 0 []
  intro i hi
  unfold Atom.code at hi
  split at hi
  · simp only [List.mem_cons, List.not_mem_nil, or_false] at hi
    rcases hi with rfl | rfl | rfl <;> trivial
  · simp only [List.mem_cons, List.mem_append, List.not_mem_nil, or_false] at hi
    rcases hi with rfl | rfl | rfl | rfl | hi | rfl | rfl <;> first | trivial | exact hl i hi

/-- What one stored formula contributes, when it or the query is ground, is what the strict variant computes. -/
theorem single_ground {n : Nat} {f q : Atom} (h : f.Gd ar ∨ q.Gd ar) {m : M} {r : Subst}
    (h1 : exec (addUnif false n) f.code { terms := [q.term] } = .ok m)
    (h2 : compute false (addUnif false n) n (UT.occL f.args) m.subst m.mt = .ok r) :
    exec (addUnif true n) f.code { terms := [q.term] } = .ok m ∧
      compute true (addUnif true n) n (UT.occL f.args) m.subst m.mt = .ok r ∧ r.Gd ar := by
  have hg := ground_agree (ar := ar) n
  have hd : AUDiff ar (addUnif false n) := fun a b s r ga gb gs h =>
    strict_diff n a b s r ga gb gs (hg a b s r (Or.inl ga) gs h).1
  have key : exec (addUnif true n) f.code { terms := [q.term] } = .ok m ∧ (∀ p ∈ m.subst, p.2.Gd ar) ∧ m.mt.Gd ar := by
    rcases h with h | h
    · obtain ⟨a, b, c⟩ := G1.exec hg f.code (code_ground h) (m := { terms := [q.term] }) rfl Subst.Gd.nil h1
      exact ⟨c, by rw [a]; simp, b⟩
    · obtain ⟨a, b⟩ := G2.exec (au' := addUnif true n) Subst.Gd.nil hd f.code (m := { terms := [q.term] })
        ⟨rfl, by simpa [Atom.Gd] using h, by simp, by simp, rfl⟩ h1
      exact ⟨b, a.subst, by rw [a.mt]; exact Subst.Gd.nil⟩
  obtain ⟨k1, k2, k3⟩ := key
  simp only [compute, Res.bind_ok] at h2 ⊢
  obtain ⟨⟨T, F⟩, h3, F', hF, T', hT, q', hq, h4⟩ := h2
  obtain ⟨c1, c2, c3⟩ := computeLoop_ground (au' := addUnif true n) hd _ m.subst [] [] m.mt (T, F) k2 Subst.Gd.nil k3
    (by simp [Subst.keys]) h3
  have eF := elimBoth_ground' c3 hF
  have eT := elimBoth_ground' c2 hT
  obtain ⟨d1, d2⟩ := merge_ground hg n F' T' q' (eF ▸ c3) (eT ▸ c2) hq
  have er := elimBoth_ground' d2 h4
  exact ⟨k1, ⟨(T, F), c1, F', hF, T', hT, q', d1, h4⟩, er ▸ d2⟩

/-- The code of a formula runs through. -/
theorem exec_code_through {au : AU} (P : Plan au) {f q : Atom} (hp : f.p = q.p) (hlen : f.args.length = q.args.length)
    (hC : ∀ e ∈ f.args.zip q.args, P.C e.1 e.2) (hQ : P.Q []) :
    ∃ m, exec au f.code { terms := [q.term] } = .ok m ∧ P.St (UT.occL f.args) m := by
  have hcur : ({ terms := [q.term] } : M).terms[({ terms := [q.term] } : M).q]? = some (.fn q.p q.args) := rfl
  by_cases he : f.args.isEmpty = true
  · refine ⟨{ terms := [q.term], beginCount := 0 + 1 - 1 }, ?_, ?_⟩
    · simp only [Atom.code, he, if_true, exec]
      rw [step_begin_fn hcur, Res.ok_bind, step_check_fn (by rfl) (by exact hcur), if_pos hp.symm, Res.ok_bind,
        step_fin (by rfl), checkEnd_top (by simp)]
      rfl
    · exact ⟨by simp, by simp, hQ⟩
  · have hne : f.args.isEmpty = false := by simpa using he
    cases hq : q.args with
    | nil =>
      rw [hq] at hlen
      rw [List.length_nil, List.length_eq_zero_iff] at hlen
      simp [hlen] at hne
    | cons u suf =>
      rw [hq] at hlen hC
      obtain ⟨m5, h5, hf, hs, hc⟩ := through_list P f.args (fun t _ => through P t) []
        { terms := u :: suf, q := 0, tot := 0 + (u :: suf).length, cnt := 0 + 1, beginCount := 0 + 1 + 1 } [] u suf hC
        ⟨rfl, rfl, rfl, rfl, rfl⟩ ⟨by simp, by simp, hQ⟩ hlen (by simp)
      simp only [List.length_cons] at hc
      refine ⟨{ m5 with beginCount := m5.beginCount - 1 - 1 }, ?_, ?_⟩
      · simp only [Atom.code, hne, Bool.false_eq_true, if_false, exec]
        rw [step_begin_fn hcur, Res.ok_bind, step_check_fn (by rfl) (by exact hcur), if_pos hp.symm, Res.ok_bind,
          step_begin_fn (by exact hcur), Res.ok_bind, step_down (by rfl) (by exact hcur), Res.ok_bind, exec_append]
        simp only [List.length_nil] at h5
        simp only [hq]
        rw [h5, Res.ok_bind]
        simp only [exec]
        rw [step_fin hf.lock, checkEnd_top (by dsimp only; omega), Res.ok_bind, step_fin (by exact hf.lock),
          checkEnd_top (by dsimp only; omega), Res.ok_bind]
      · have := hs
        simp only [List.nil_append] at this
        exact ⟨this.idx, this.val, this.q⟩

/-- A stored formula with the query as an instance, or a ground one that is an instance of the query, gives an
answer. -/
theorem single_through {n : Nat} {f q : Atom} (h : (q.term = f.term.inst σ ∧ q.Gd ar) ∨ (f.term = q.term.inst σ ∧ f.Gd ar)) :
    ∃ r, (f, r) ∈ single (addUnif false (n + 2)) (n + 2) { terms := [q.term] } (f.code, f) := by
  have key : ∃ m, exec (addUnif false (n + 2)) f.code { terms := [q.term] } = .ok m ∧
      (∀ p ∈ m.subst, ∃ k, (UT.occL f.args)[p.1]? = some k ∧ p.2 = σ k ∧ p.2.Gd ar) ∧ Agree ar σ m.mt := by
    rcases h with h | h
    · obtain ⟨e1, e2, e3⟩ := (planRight ar σ (addUnif false (n + 2)) []).fn_fn h
      obtain ⟨m, h1, h2⟩ := exec_code_through (planRight ar σ (addUnif false (n + 2)) []) e1 e2 e3 rfl
      refine ⟨m, h1, fun p hp => ?_, h2.q ▸ Agree.nil⟩
      have hlt := h2.idx p hp
      exact ⟨(UT.occL f.args)[p.1], by simp [hlt], h2.val p hp _ (by simp [hlt])⟩
    · obtain ⟨e1, e2, e3⟩ := (planLeft ar σ false n).fn_fn h
      obtain ⟨m, h1, h2⟩ := exec_code_through (planLeft ar σ false n) e1 e2 e3 Agree.nil
      refine ⟨m, h1, fun p hp => ?_, h2.q⟩
      have hlt := h2.idx p hp
      have h0 : UT.occL f.args = [] := h.2.2
      rw [h0] at hlt
      simp at hlt
  obtain ⟨m, h1, h2, h3⟩ := key
  obtain ⟨T, h4, h5⟩ := computeLoop_through false (addUnif false (n + 2)) (UT.occL f.args) m.subst [] [] m.mt h2 Agree.nil h3
  obtain ⟨r, h6, h7⟩ := merge_through false n (n + 1) m.mt T h3 h5
  refine ⟨r, mem_single.2 ⟨rfl, m, h1, ?_⟩⟩
  simp only [compute, h4, Res.bind, elimBoth_ground (n + 1) h3.1, elimBoth_ground (n + 1) h5.1, h6,
    elimBoth_ground (n + 1) h7.1]

/-- **C30, ground case, answers are right**: if the query has no metavariables, or the stored formula has none, the
substitution of the answer makes the stored formula and the query equal. (Each symbol is used with one arity.) -/
theorem C30_ground_sound (batches : List (List Atom)) (t : Node Instr Atom)
    (ht : batches.foldlM (fun n l => n.addAtoms l) Node.empty = some t) (q : Atom) (n : Nat)
    (out : List (Atom × Subst)) (h : Search (addUnif false n) n t { terms := [q.term] } out)
    (har : ∀ f ∈ batches.flatten, f.term.Ar ar) (haq : q.term.Ar ar) (f : Atom) (r : Subst)
    (hf : (f, r) ∈ out) (hg : q.term.occ = [] ∨ f.term.occ = []) :
    f ∈ batches.flatten ∧ f.term.inst r.fn = q.term.inst r.fn := by
  have hm := (C30_search_exact batches t ht q n out h).mem_iff.1 hf
  simp only [List.mem_flatMap, List.mem_dedup] at hm
  obtain ⟨f', h1, h2⟩ := hm
  obtain ⟨rfl, m', h3, h4⟩ := mem_single.1 h2
  refine ⟨h1, ?_⟩
  obtain ⟨g1, g2, g3⟩ := single_ground (ar := ar) (f := f) (q := q)
    (hg.elim (fun h => Or.inr ⟨haq, h⟩) (fun h => Or.inl ⟨har _ h1, h⟩)) h3 h4
  have hb : AUBase ar (addUnif true n) := fun t1 t2 s r a1 a2 hk ha h =>
    ⟨(addUnif_spec.{0} ar true n t1 t2 s r a1 a2 hk ha h).solved.1, (addUnif_spec.{0} ar true n t1 t2 s r a1 a2 hk ha h).ar⟩
  have hs : AUSound.{0} ar (addUnif true n) := fun t1 t2 s r a1 a2 hk ha h =>
    (addUnif_spec.{0} ar true n t1 t2 s r a1 a2 hk ha h).snd rfl
  obtain ⟨e1, e2⟩ := exec_code hb (har _ h1) haq g1
  obtain ⟨c1, _, c3, _⟩ := compute_spec.{0} hb e2.inv.arS e2.inv.keys e2.inv.arM g2
  obtain ⟨d1, d2, d3⟩ := e2.snd hs termAlg
  obtain ⟨x1, x2⟩ := c3 rfl hs termAlg (d2 (fun p hp => by cases hp)) r.fn c1.sol
  exact (d3 r.fn x1 x2).2

/-- **C30, ground case, exact**: for a query without metavariables the formulas answered are exactly the
stored formulas that have the query as an instance. `n + 2` bounds the depth of the calls; a larger bound is not needed. -/
theorem C30_ground_exact (batches : List (List Atom)) (t : Node Instr Atom)
    (ht : batches.foldlM (fun n l => n.addAtoms l) Node.empty = some t) (q : Atom) (n : Nat)
    (out : List (Atom × Subst)) (h : Search (addUnif false (n + 2)) (n + 2) t { terms := [q.term] } out)
    (har : ∀ f ∈ batches.flatten, f.term.Ar ar) (haq : q.term.Ar ar) (hg : q.term.occ = []) (f : Atom) :
    (∃ r, (f, r) ∈ out) ↔ f ∈ batches.flatten ∧ ∃ σ : Nat → UT, f.term.inst σ = q.term := by
  constructor
  · rintro ⟨r, hf⟩
    obtain ⟨h1, h2⟩ := C30_ground_sound batches t ht q _ out h har haq f r hf (Or.inl hg)
    exact ⟨h1, r.fn, by rw [h2, UT.inst_ground hg]⟩
  · rintro ⟨h1, σ, h2⟩
    obtain ⟨r, hr⟩ := single_through (ar := ar) (n := n) (σ := σ) (f := f) (q := q) (Or.inl ⟨h2.symm, haq, hg⟩)
    refine ⟨r, (C30_search_exact batches t ht q _ out h).mem_iff.2 ?_⟩
    simp only [List.mem_flatMap, List.mem_dedup]
    exact ⟨f, h1, hr⟩

/-- **C30, ground facts, exact**: a stored formula without metavariables is answered exactly when it is an instance of
the query. -/
theorem C30_facts_exact (batches : List (List Atom)) (t : Node Instr Atom)
    (ht : batches.foldlM (fun n l => n.addAtoms l) Node.empty = some t) (q : Atom) (n : Nat)
    (out : List (Atom × Subst)) (h : Search (addUnif false (n + 2)) (n + 2) t { terms := [q.term] } out)
    (har : ∀ f ∈ batches.flatten, f.term.Ar ar) (haq : q.term.Ar ar) (f : Atom) (hg : f.term.occ = []) :
    (∃ r, (f, r) ∈ out) ↔ f ∈ batches.flatten ∧ ∃ σ : Nat → UT, q.term.inst σ = f.term := by
  constructor
  · rintro ⟨r, hf⟩
    obtain ⟨h1, h2⟩ := C30_ground_sound batches t ht q _ out h har haq f r hf (Or.inr hg)
    exact ⟨h1, r.fn, by rw [← h2, UT.inst_ground hg]⟩
  · rintro ⟨h1, σ, h2⟩
    obtain ⟨r, hr⟩ := single_through (ar := ar) (n := n) (σ := σ) (f := f) (q := q) (Or.inr ⟨h2.symm, har _ h1, hg⟩)
    refine ⟨r, (C30_search_exact batches t ht q _ out h).mem_iff.2 ?_⟩
    simp only [List.mem_flatMap, List.mem_dedup]
    exact ⟨f, h1, hr⟩

open Sample in
/-- The index of `p(a)`, `p(X)`, `r(a)` searched for the ground `p(a)`: the first two are answered. -/
example : (idx.bind fun t => seq (addUnif false 9) 9 9 t { terms := [(⟨5, [a]⟩ : Atom).term] }) =
    some [(⟨5, [a]⟩, []), (⟨5, [X]⟩, [(0, a)])] := by decide +kernel

end Verif.Unif
