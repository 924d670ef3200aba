import Verif.Unif.IndexGround
/-!
# C30: the index answers on ground formulas

The search in an index of formulas without metavariables for a formula without metavariables never stops the program and
never runs on.
-/

namespace Verif.Unif

variable {ar : Nat → Nat} {au : AU}

/-- The code of the term fails or runs to its end without touching the bindings. -/
def Runs (ar : Nat → Nat) (au : AU) (t : UT) : Prop := ∀ (u : UT) (seen : List Nat) (m : M) (pre suf : List UT), u.Gd ar → Ready m pre u suf →
  exec au (parseT m.post.length seen (!suf.isEmpty) t) m = .fail ∨
  ∃ m', exec au (parseT m.post.length seen (!suf.isEmpty) t) m = .ok m' ∧ Frame m m' suf ∧ m'.subst = m.subst ∧ m'.mt = m.mt

theorem runs_list (ts : List UT) (ih : ∀ t ∈ ts, Runs ar au t) (seen : List Nat) (m : M) (pre : List UT) (u : UT) (suf : List UT)
    (hg : ∀ x ∈ u :: suf, x.Gd ar) (hr : Ready m pre u suf) (hlen : ts.length = (u :: suf).length) :
    exec au (parseL m.post.length seen ts) m = .fail ∨
    ∃ m', exec au (parseL m.post.length seen ts) m = .ok m' ∧ Frame m m' [] ∧ m'.subst = m.subst ∧ m'.mt = m.mt := by
  induction ts generalizing seen m pre u suf with
  | nil => simp at hlen
  | cons t ts ihl =>
    have hse : (!ts.isEmpty) = (!suf.isEmpty) := by
      simp only [List.length_cons, Nat.add_right_cancel_iff] at hlen
      cases ts <;> cases suf <;> simp at hlen ⊢
    simp only [parseL, exec_append, hse]
    rcases ih t (by simp) u seen m pre suf (hg u (by simp)) hr with h1 | ⟨m1, h1, f1, s1, c1⟩
    · exact Or.inl (by rw [h1]; rfl)
    · rw [h1, Res.ok_bind]
      cases suf with
      | nil =>
        have : ts = [] := by simpa using hlen
        subst this
        exact Or.inr ⟨m1, rfl, f1, s1, c1⟩
      | cons w suf =>
        obtain ⟨ht, hq⟩ := f1.next (by simp)
        have := ihl (fun t ht => ih t (by simp [ht])) (seen ++ t.occ) m1 (pre ++ [u]) w suf (fun x hx => hg x (by simp only [List.mem_cons] at hx ⊢; exact Or.inr hx))
          ⟨f1.lock, f1.push, f1.pop, by rw [ht, hr.terms]; simp, by rw [hq, hr.q]; simp⟩ (by simpa using hlen)
        rw [f1.post] at this
        rcases this with h2 | ⟨m2, h2, f2, s2, c2⟩
        · exact Or.inl h2
        · exact Or.inr ⟨m2, h2, ⟨f2.lock, f2.push, f2.pop, f2.post.trans f1.post, f2.count.trans f1.count, fun h => absurd rfl h⟩,
            s2.trans s1, c2.trans c1⟩

theorem checkEnd_cases (m : M) : m.checkEnd = .fail ∨ m.checkEnd = .ok m := by
  unfold M.checkEnd
  split
  · exact Or.inl rfl
  · exact Or.inr rfl

theorem runs (t : UT) : t.Gd ar → Runs ar au t := by
  induction t using UT.ind with
  | mv k => intro h; simp [UT.Gd, UT.occ] at h
  | fn p args ih =>
    intro htg u seen m pre suf hug hr
    obtain ⟨p', args', rfl⟩ := hug.isFn
    have hcur : m.terms[m.q]? = some (.fn p' args') := by rw [hr.terms, hr.q]; simp
    have hih : ∀ a ∈ args, Runs ar au a := fun a ha => ih a ha (htg.args a ha)
    by_cases hp : p' = p
    · subst hp
      have hlen : args.length = args'.length := by rw [htg.1.1, hug.1.1]
      by_cases he : args.isEmpty = true
      · simp only [parseT, he, if_true, exec]
        rw [step_begin_fn (by exact hcur), Res.ok_bind, step_check_fn (by exact hr.lock) (by exact hcur), if_pos rfl, Res.ok_bind,
          step_fin (by exact hr.lock)]
        simp only [Nat.add_sub_cancel]
        rcases checkEnd_cases { m with beginCount := m.beginCount } with h | h
        · exact Or.inl (by rw [h]; rfl)
        · rw [h, Res.ok_bind]
          cases suf with
          | nil => exact Or.inr ⟨_, rfl, ⟨hr.lock, hr.push, hr.pop, rfl, rfl, fun h => absurd rfl h⟩, rfl, rfl⟩
          | cons w suf =>
            have hlt : ¬ m.terms.length ≤ m.q + 1 := by rw [hr.terms, hr.q]; simp
            simp only [List.isEmpty_cons, Bool.not_false, if_true, exec]
            rw [step_right (by exact hr.lock), if_neg hlt]
            exact Or.inr ⟨_, rfl, ⟨hr.lock, hr.push, hr.pop, rfl, rfl, fun _ => ⟨rfl, rfl⟩⟩, rfl, rfl⟩
      · have hne : args.isEmpty = false := by simpa using he
        cases args' with
        | nil => rw [List.length_nil, List.length_eq_zero_iff] at hlen; simp [hlen] at hne
        | cons u0 suf0 =>
          cases suf with
          | nil =>
            simp only [parseT, hne, List.isEmpty_nil, Bool.not_true, Bool.false_eq_true, if_false, exec]
            rw [step_begin_fn (by exact hcur), Res.ok_bind, step_check_fn (by exact hr.lock) (by exact hcur), if_pos rfl, Res.ok_bind,
              step_down (by exact hr.lock) (by exact hcur), Res.ok_bind, exec_append]
            rcases runs_list args hih seen { m with beginCount := m.beginCount + 1, terms := u0 :: suf0, q := 0, tot := m.tot + (u0 :: suf0).length, cnt := m.cnt + 1 }
              [] u0 suf0 hug.args ⟨hr.lock, hr.push, hr.pop, rfl, rfl⟩ hlen with h | ⟨m4, h, hf, hs, hc⟩
            · exact Or.inl (by rw [h]; rfl)
            · rw [h, Res.ok_bind]
              simp only [exec]
              rw [step_fin hf.lock]
              rcases checkEnd_cases { m4 with beginCount := m4.beginCount - 1 } with h | h
              · exact Or.inl (by rw [h]; rfl)
              · rw [h, Res.ok_bind]
                exact Or.inr ⟨_, rfl, ⟨hf.lock, hf.push, hf.pop, hf.post, by simp [hf.count], fun h => absurd rfl h⟩, hs, hc⟩
          | cons w suf =>
            simp only [parseT, hne, List.isEmpty_cons, Bool.not_false, Bool.false_eq_true, if_false, if_true, exec]
            rw [step_begin_fn (by exact hcur), Res.ok_bind, step_check_fn (by exact hr.lock) (by exact hcur), if_pos rfl, Res.ok_bind,
              step_push (by exact hr.lock), Res.ok_bind, step_down (by exact hr.lock) (by exact hcur), Res.ok_bind, exec_append]
            have hl := runs_list args hih seen { m with beginCount := m.beginCount + 1, terms := u0 :: suf0, q := 0, tot := m.tot + (u0 :: suf0).length, cnt := m.cnt + 1, post := m.post ++ [(m.q + 1, m.terms)] }
              [] u0 suf0 hug.args ⟨hr.lock, hr.push, hr.pop, rfl, rfl⟩ hlen
            simp only [List.length_append, List.length_cons, List.length_nil, Nat.zero_add] at hl
            rcases hl with h | ⟨m4, h, hf, hs, hc⟩
            · left; simp only [List.length_cons] at h ⊢; rw [h]; rfl
            · simp only [List.length_cons] at h ⊢
              rw [h, Res.ok_bind]
              simp only [exec]
              have hpost : m4.post[m.post.length]? = some (m.q + 1, m.terms) := by rw [hf.post]; simp
              have hlt : ¬ m.terms.length ≤ m.q + 1 := by rw [hr.terms, hr.q]; simp
              rw [step_pop hf.lock hpost, if_neg hlt, Res.ok_bind, step_fin (by exact hf.lock)]
              rcases checkEnd_cases { m4 with q := m.q + 1, terms := m.terms, post := m4.post.eraseIdx m.post.length, cnt := m4.cnt + 1, beginCount := m4.beginCount - 1 } with h | h
              · exact Or.inl (by rw [h]; rfl)
              · rw [h, Res.ok_bind]
                refine Or.inr ⟨_, rfl, ⟨hf.lock, hf.push, hf.pop, ?_, by simp [hf.count], fun _ => ⟨rfl, rfl⟩⟩, hs, hc⟩
                simp only [hf.post]
                rw [List.eraseIdx_append_of_length_le (Nat.le_refl _)]; simp
    · left
      by_cases he : args.isEmpty = true
      · simp only [parseT, he, if_true, exec]
        rw [step_begin_fn (by exact hcur), Res.ok_bind, step_check_fn (by exact hr.lock) (by exact hcur), if_neg hp]; rfl
      · have hne : args.isEmpty = false := by simpa using he
        cases suf with
        | nil =>
          simp only [parseT, hne, List.isEmpty_nil, Bool.not_true, Bool.false_eq_true, if_false, exec]
          rw [step_begin_fn (by exact hcur), Res.ok_bind, step_check_fn (by exact hr.lock) (by exact hcur), if_neg hp]; rfl
        | cons w suf =>
          simp only [parseT, hne, List.isEmpty_cons, Bool.not_false, Bool.false_eq_true, if_false, if_true, exec]
          rw [step_begin_fn (by exact hcur), Res.ok_bind, step_check_fn (by exact hr.lock) (by exact hcur), if_neg hp]; rfl

/-- The code of a ground formula on a ground formula. -/
theorem runs_code {f q : Atom} (hf : f.Gd ar) (hq : q.Gd ar) : exec au f.code { terms := [q.term] } = .fail ∨
    ∃ m, exec au f.code { terms := [q.term] } = .ok m ∧ m.subst = [] ∧ m.mt = [] := by
  have hcur : ({ terms := [q.term] } : M).terms[({ terms := [q.term] } : M).q]? = some (.fn q.p q.args) := rfl
  by_cases hp : q.p = f.p
  · have hlen : f.args.length = q.args.length := by
      have h1 := hf.1.1; have h2 := hq.1.1; rw [h1, h2, hp]
    by_cases he : f.args.isEmpty = true
    · simp only [Atom.code, he, if_true, exec]
      rw [step_begin_fn hcur, Res.ok_bind, step_check_fn (by rfl) (by exact hcur), if_pos hp, Res.ok_bind, step_fin (by rfl)]
      rcases checkEnd_cases { terms := [q.term], beginCount := 0 + 1 - 1 } with h | h
      · exact Or.inl (by rw [h]; rfl)
      · rw [h]; exact Or.inr ⟨_, rfl, rfl, rfl⟩
    · have hne : f.args.isEmpty = false := by simpa using he
      cases hqa : q.args with
      | nil => rw [hqa, List.length_nil, List.length_eq_zero_iff] at hlen; simp [hlen] at hne
      | cons u suf =>
        rw [hqa] at hlen
        simp only [Atom.code, hne, Bool.false_eq_true, if_false, exec]
        rw [step_begin_fn hcur, Res.ok_bind, step_check_fn (by rfl) (by exact hcur), if_pos hp, Res.ok_bind,
          step_begin_fn (by exact hcur), Res.ok_bind, step_down (by rfl) (by exact hcur), Res.ok_bind, exec_append]
        have hargs : ∀ x ∈ u :: suf, x.Gd ar := by rw [← hqa]; exact UT.Gd.args hq
        have hl := runs_list (au := au) f.args (fun t ht => runs t (UT.Gd.args hf t ht)) []
          { terms := u :: suf, q := 0, tot := 0 + (u :: suf).length, cnt := 0 + 1, beginCount := 0 + 1 + 1 } [] u suf hargs
          ⟨rfl, rfl, rfl, rfl, rfl⟩ hlen
        simp only [List.length_nil] at hl
        simp only [hqa]
        rcases hl with h | ⟨m5, h, hfr, hs, hc⟩
        · exact Or.inl (by rw [h]; rfl)
        · rw [h, Res.ok_bind]
          simp only [exec]
          rw [step_fin hfr.lock]
          rcases checkEnd_cases { m5 with beginCount := m5.beginCount - 1 } with h | h
          · exact Or.inl (by rw [h]; rfl)
          · rw [h, Res.ok_bind, step_fin (by exact hfr.lock)]
            rcases checkEnd_cases { m5 with beginCount := m5.beginCount - 1 - 1 } with h | h
            · exact Or.inl (by rw [h]; rfl)
            · rw [h]; exact Or.inr ⟨_, rfl, hs, hc⟩
  · left
    by_cases he : f.args.isEmpty = true
    · simp only [Atom.code, he, if_true, exec]
      rw [step_begin_fn hcur, Res.ok_bind, step_check_fn (by rfl) (by exact hcur), if_neg hp]; rfl
    · have hne : f.args.isEmpty = false := by simpa using he
      simp only [Atom.code, hne, Bool.false_eq_true, if_false, exec]
      rw [step_begin_fn hcur, Res.ok_bind, step_check_fn (by rfl) (by exact hcur), if_neg hp]; rfl

/-! ### The search in the tree -/

theorem compute_nil (n : Nat) (metas : List Nat) : compute false au (n + 1) metas [] [] = .ok [] := by
  have e := elimBoth_ground (ar := fun _ => 0) n Subst.Gd.nil
  simp only [compute, computeLoop, Res.bind, e, merge, List.isEmpty_nil, if_true]

theorem leafResults_nil {n : Nat} {m : M} (h1 : m.subst = []) (h2 : m.mt = []) (fs : List Atom) :
    leafResults au (n + 1) m fs = some (fs.map fun f => (f, [])) := by
  induction fs with
  | nil => rfl
  | cons f fs ih => simp only [leafResults, h1, h2, compute_nil, ih, Option.map_some, List.map_cons]

/-- If every stored sequence fails or runs to its end, so does the search. -/
theorem search_total {n : Nat} (t : Node Instr Atom) (hw : t.WF) : ∀ m : M, (∀ p ∈ t.paths, exec au p.1 m = .fail ∨
    ∃ m', exec au p.1 m = .ok m' ∧ m'.subst = [] ∧ m'.mt = []) → ∃ out, Search au (n + 1) t m out := by
  induction t using Node.ind with
  | h v ch fs ih =>
    intro m h
    obtain ⟨-, hch, -, hfs⟩ := Node.WF_iff.1 hw
    obtain ⟨s, f, hs, x, hx⟩ := hw.exists_path
    simp only [Node.value] at hx
    subst hx
    cases hv : exec au v m with
    | fail => exact ⟨[], .fail hv⟩
    | panic => rcases h _ hs with h | ⟨m', h, -⟩ <;> simp [exec_append, hv, Res.bind] at h
    | out => rcases h _ hs with h | ⟨m', h, -⟩ <;> simp [exec_append, hv, Res.bind] at h
    | ok m1 =>
      have hsub : ∀ c ∈ ch, ∃ out, Search au (n + 1) c m1 out := by
        intro c hc
        refine ih c hc (hch c hc) m1 fun p hp => ?_
        have := h (v ++ p.1, p.2) (Node.mem_paths.2 (Or.inr ⟨c, hc, p.1, hp, rfl⟩))
        simpa [exec_append, hv, Res.bind] using this
      have houts : ∃ outs : List (List (Atom × Subst)), outs.length = ch.length ∧
          ∀ i (h1 : i < ch.length) (h2 : i < outs.length), Search au (n + 1) ch[i] m1 outs[i] := by
        refine ⟨ch.attach.map fun c => (hsub c.1 c.2).choose, by simp, fun i h1 h2 => ?_⟩
        simp only [List.getElem_map, List.getElem_attach]
        exact (hsub ch[i] (List.getElem_mem h1)).choose_spec
      obtain ⟨outs, hl, ho⟩ := houts
      have hown : ∃ own, leafResults au (n + 1) m1 fs = some own := by
        cases fs with
        | nil => exact ⟨[], rfl⟩
        | cons f fs =>
          have hp : (v, f) ∈ (Node.mk v ch (f :: fs)).paths := Node.mem_paths.2 (Or.inl ⟨rfl, by simp⟩)
          rcases h _ hp with h | ⟨m', h, h1, h2⟩
          · simp [hv] at h
          · rw [hv] at h
            cases h
            exact ⟨_, leafResults_nil h1 h2 _⟩
      obtain ⟨own, hown⟩ := hown
      exact ⟨_, .ok hv hown hl ho (List.Perm.refl _)⟩

/-- **C30, ground formulas are answered.** The index of any formulas without metavariables, searched for a formula without
metavariables, answers: the search panics in no order of its parts and does not run on. With `C30_ground_exact`: what is answered
is the query itself if it is stored, and nothing else. -/
theorem C30_ground_answers (batches : List (List Atom)) (q : Atom) (n : Nat) (hf : ∀ f ∈ batches.flatten, f.Gd ar) (hq : q.Gd ar) :
    ∃ t out, batches.foldlM (fun n l => n.addAtoms l) Node.empty = some t ∧
      Search (addUnif false (n + 1)) (n + 1) t { terms := [q.term] } out := by
  obtain ⟨t, h1, h2, h3⟩ := index_built batches
  rcases h2 with rfl | h2
  · exact ⟨_, [] ++ ([] : List (List (Atom × Subst))).flatten, h1, .ok rfl rfl rfl (by simp) (List.Perm.refl _)⟩
  · obtain ⟨out, ho⟩ := search_total (au := addUnif false (n + 1)) (n := n) t h2 { terms := [q.term] } fun p hp => by
      obtain ⟨e1, e2⟩ := (h3 p.1 p.2).1 hp
      rw [e1]
      exact runs_code (hf _ e2) hq
    exact ⟨t, out, h1, ho⟩

end Verif.Unif
