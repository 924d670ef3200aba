import Verif.Unif.CodeTree
/-!
# Insertion into the term index keeps what is stored (towards C29)
-/

namespace Verif.Unif.Node

variable {I F : Type} [DecidableEq I] [DecidableEq F]

theorem findChild_spec (i : I) (ch : List (Node I F)) (hne : ∀ c ∈ ch, c.value ≠ [])
    (hnd : (ch.map fun c => c.value.head?).Nodup) (k : Nat) (found : Option Nat) :
    (∃ j, j < ch.length ∧ findChild i ch k found = some (some (k + j)) ∧ ∃ c, ch[j]? = some c ∧ c.value.head? = some i) ∨
    (findChild i ch k found = some found ∧ ∀ c ∈ ch, c.value.head? ≠ some i) := by
  induction ch generalizing k found with
  | nil => exact Or.inr ⟨rfl, by simp⟩
  | cons c rest ih =>
    simp only [List.map_cons, List.nodup_cons] at hnd
    have hc : c.value ≠ [] := hne c (by simp)
    cases hv : c.value with
    | nil => exact absurd hv hc
    | cons w l =>
      simp only [findChild, hv]
      rcases ih (fun c hc => hne c (List.mem_cons_of_mem _ hc)) hnd.2 (k + 1) (if i = w then some k else found) with
        ⟨j, hj, h1, c', h2, h3⟩ | ⟨h1, h2⟩
      · refine Or.inl ⟨j + 1, by simpa using hj, ?_, c', by simpa using h2, h3⟩
        rw [h1]; congr 2; omega
      · by_cases hiw : i = w
        · refine Or.inl ⟨0, by simp, ?_, c, by simp, by rw [hv, hiw]; rfl⟩
          rw [h1, if_pos hiw]; rfl
        · refine Or.inr ⟨by rw [h1, if_neg hiw], ?_⟩
          intro c' hc'
          rcases List.mem_cons.1 hc' with rfl | hc'
          · rw [hv]; simpa using fun h => hiw h.symm
          · exact h2 c' hc'

/-- The sequence is not a proper prefix of a stored one, and no stored one is a proper prefix of it. -/
def Fits (n : Node I F) (seq : List I) : Prop :=
  ∀ s f, (s, f) ∈ n.paths → (s <+: seq ∨ seq <+: s) → s = seq

theorem follow_spec (form : F) (instrs : List I) (v : List I) (ch : List (Node I F)) (fs : List F) (oui : Nat)
    (hwf : (mk v ch fs).WF) (hne : instrs ≠ []) (houi : oui < v.length)
    (hhead : 0 < oui ∨ instrs.head? = v.head?) (hfit : (mk v ch fs).Fits (v.take oui ++ instrs)) :
    ∃ n', follow form instrs (mk v ch fs) oui = some n' ∧ n'.WF ∧ n'.value.head? = v.head? ∧
      ∀ x, x ∈ n'.paths ↔ x ∈ (mk v ch fs).paths ∨ x = (v.take oui ++ instrs, form) := by
  induction instrs generalizing v ch fs oui with
  | nil => exact absurd rfl hne
  | cons instr rest ih =>
    obtain ⟨w1, w2, w3, w4⟩ := WF_iff.1 hwf
    have hget : v[oui]? = some v[oui] := List.getElem?_eq_getElem houi
    unfold follow
    simp only [hget]
    by_cases hiw : instr = v[oui]
    · have htake : v.take oui ++ [instr] = v.take (oui + 1) := by
        rw [hiw, List.take_add_one, hget]; rfl
      have hcons : ∀ l : List I, v.take oui ++ instr :: l = v.take (oui + 1) ++ l := by
        intro l; rw [← htake]; simp
      rw [if_pos hiw]
      cases rest with
      | nil =>
        -- the block ends here as well
        have hlen : oui + 1 = v.length := by
          rcases Nat.lt_or_ge (oui + 1) v.length with h | h
          · exfalso
            obtain ⟨s, f, hs, hpre⟩ := hwf.exists_path
            simp only [value] at hpre
            have h1 : v.take oui ++ [instr] <+: s := by
              rw [htake]; exact (List.take_prefix _ _).trans hpre
            have := hfit s f hs (Or.inr h1)
            have hl := hpre.length_le
            rw [this, htake, List.length_take] at hl
            omega
          · omega
        have hnew : v.take oui ++ [instr] = v := by
          rw [htake, hlen, List.take_length]
        -- and there are no children
        have hch : ch = [] := by
          cases ch with
          | nil => rfl
          | cons c l =>
            exfalso
            obtain ⟨s, f, hs, hpre⟩ := (w2 c (by simp)).exists_path
            have hp : (v ++ s, f) ∈ (mk v (c :: l) fs).paths := mem_paths.2 (Or.inr ⟨c, by simp, s, hs, rfl⟩)
            have := hfit _ _ hp (Or.inr (by rw [hnew]; exact List.prefix_append _ _))
            rw [hnew] at this
            have hs0 : s = [] := by simpa using this
            rw [hs0] at hpre
            exact (w2 c (by simp)).value_ne (List.prefix_nil.1 hpre)
        have hfs : fs ≠ [] ∧ fs.Nodup := by
          rcases w4 with ⟨_, h⟩ | ⟨h, _⟩
          · exact h
          · exact absurd hch h
        by_cases hf : form ∈ fs
        · refine ⟨mk v ch fs, ?_, hwf, rfl, ?_⟩
          · simp [hf, follow, hlen]
            intro h; omega
          · intro x
            constructor
            · exact Or.inl
            · rintro (h | rfl)
              · exact h
              · rw [hnew]; exact mem_paths.2 (Or.inl ⟨rfl, hf⟩)
        · refine ⟨mk v ch (fs ++ [form]), by simp [hlen, hf], WF_iff.2 ⟨w1, w2, w3, Or.inl ⟨hch, by simp, ?_⟩⟩, rfl, ?_⟩
          · rw [List.nodup_append]
            refine ⟨hfs.2, by simp, ?_⟩
            intro a ha b hb hab
            simp only [List.mem_singleton] at hb
            exact hf (by rw [← hb, ← hab]; exact ha)
          · rintro ⟨s, f⟩
            rw [mem_paths, mem_paths, hnew, hch]
            simp only [List.not_mem_nil, false_and, exists_false, or_false, Prod.mk.injEq, List.mem_append,
              List.mem_singleton]
            constructor
            · rintro ⟨h1, h2 | h2⟩
              · exact Or.inl ⟨h1, h2⟩
              · exact Or.inr ⟨h1, h2⟩
            · rintro (⟨h1, h2⟩ | ⟨h1, h2⟩)
              · exact ⟨h1, Or.inl h2⟩
              · exact ⟨h1, Or.inr h2⟩
      | cons next rest' =>
        simp only [List.cons_ne_nil, false_and, if_false]
        by_cases hlen : oui + 1 = v.length
        · rw [if_pos hlen]
          have hnew : v.take oui ++ instr :: next :: rest' = v ++ next :: rest' := by
            rw [hcons, hlen, List.take_length]
          rw [hnew] at hfit ⊢
          -- the node has no formulas
          have hfs : fs = [] := by
            cases fs with
            | nil => rfl
            | cons f l =>
              exfalso
              have := hfit v f (mem_paths.2 (Or.inl ⟨rfl, by simp⟩)) (Or.inl (List.prefix_append _ _))
              simp at this
          have hch : ch ≠ [] := by
            rcases w4 with ⟨_, h, _⟩ | ⟨h, _⟩
            · exact absurd hfs h
            · exact h
          subst hfs
          rcases findChild_spec next ch (fun c hc => (w2 c hc).value_ne) w3 0 none with
            ⟨j, hj, h1, c, hc, hch'⟩ | ⟨h1, h2⟩
          · have hcm : c ∈ ch := List.mem_of_getElem? hc
            rw [h1]
            simp only [Nat.zero_add, hc]
            obtain ⟨vc, cc, fc⟩ := c
            have hcv : vc ≠ [] := (w2 _ hcm).value_ne
            obtain ⟨c', e1, e2, e3, e4⟩ := ih vc cc fc 0 (w2 _ hcm) (by simp) (List.length_pos_iff.2 hcv)
              (Or.inr (by simpa [value] using hch'.symm)) (by
                intro s f hs hp
                simp only [List.take_zero, List.nil_append] at hp ⊢
                have hp' : (v ++ s, f) ∈ (mk v ch []).paths := mem_paths.2 (Or.inr ⟨_, hcm, s, hs, rfl⟩)
                have := hfit _ _ hp' (by
                  rcases hp with hp | hp
                  · exact Or.inl ((List.prefix_append_right_inj v).2 hp)
                  · exact Or.inr ((List.prefix_append_right_inj v).2 hp))
                simpa using this)
            simp only [List.take_zero, List.nil_append] at e4
            refine ⟨mk v (ch.set j c') [], by simp [e1], ?_, rfl, ?_⟩
            · refine WF_iff.2 ⟨w1, ?_, ?_, Or.inr ⟨by simpa using hch, rfl⟩⟩
              · intro d hd
                rcases List.mem_or_eq_of_mem_set hd with hd | rfl
                · exact w2 d hd
                · exact e2
              · have : (ch.set j c').map (fun c => c.value.head?) = ch.map fun c => c.value.head? := by
                  rw [List.map_set, e3]
                  have : vc.head? = (ch.map fun c => c.value.head?)[j]'(by simpa using hj) := by
                    rw [List.getElem_map]
                    have := (List.getElem?_eq_some_iff.1 hc).2
                    rw [this]; rfl
                  rw [this, List.set_getElem_self]
                rw [this]; exact w3
            · rintro ⟨s, f⟩
              rw [mem_paths, mem_paths]
              simp only [List.not_mem_nil, and_false, false_or, Prod.mk.injEq]
              constructor
              · rintro ⟨d, hd, s', hs', rfl⟩
                rcases List.mem_or_eq_of_mem_set hd with hd | rfl
                · exact Or.inl ⟨d, hd, s', hs', rfl⟩
                · rcases (e4 _).1 hs' with h | h
                  · exact Or.inl ⟨_, hcm, s', h, rfl⟩
                  · simp only [Prod.mk.injEq] at h
                    exact Or.inr ⟨by rw [h.1], h.2⟩
              · rintro (⟨d, hd, s', hs', rfl⟩ | ⟨rfl, rfl⟩)
                · obtain ⟨i, hi, rfl⟩ := List.getElem_of_mem hd
                  by_cases hij : i = j
                  · subst hij
                    refine ⟨c', List.mem_set (by simpa using hi) _, s', (e4 _).2 (Or.inl ?_), rfl⟩
                    have := (List.getElem?_eq_some_iff.1 hc).2
                    rwa [this] at hs'
                  · refine ⟨ch[i], ?_, s', hs', rfl⟩
                    rw [List.mem_iff_getElem]
                    exact ⟨i, by simpa using hi, by rw [List.getElem_set_ne (Ne.symm hij)]⟩
                · exact ⟨c', List.mem_set hj _, _, (e4 _).2 (Or.inr rfl), rfl⟩
          · rw [h1]
            refine ⟨_, rfl, WF_iff.2 ⟨w1, ?_, ?_, Or.inr ⟨by simp, rfl⟩⟩, rfl, ?_⟩
            · intro d hd
              simp only [List.mem_append, List.mem_singleton] at hd
              rcases hd with hd | rfl
              · exact w2 d hd
              · exact WF_iff.2 ⟨by simp, by simp, by simp, Or.inl ⟨rfl, by simp, by simp⟩⟩
            · rw [List.map_append, List.nodup_append]
              refine ⟨w3, by simp, ?_⟩
              intro a ha b hb
              simp only [List.mem_map] at ha
              obtain ⟨d, hd, rfl⟩ := ha
              simp only [List.map_cons, List.map_nil, List.mem_singleton] at hb
              subst hb
              simpa [value] using h2 d hd
            · rintro ⟨s, f⟩
              rw [mem_paths, mem_paths]
              simp only [List.not_mem_nil, and_false, false_or, Prod.mk.injEq, List.mem_append, List.mem_singleton]
              constructor
              · rintro ⟨d, hd | rfl, s', hs', rfl⟩
                · exact Or.inl ⟨d, hd, s', hs', rfl⟩
                · rw [mem_paths] at hs'
                  simp only [List.mem_singleton, List.not_mem_nil, false_and, exists_false, or_false] at hs'
                  exact Or.inr ⟨by rw [hs'.1], hs'.2⟩
              · rintro (⟨d, hd, s', hs', rfl⟩ | ⟨rfl, rfl⟩)
                · exact ⟨d, Or.inl hd, s', hs', rfl⟩
                · exact ⟨_, Or.inr rfl, next :: rest', mem_paths.2 (Or.inl ⟨rfl, by simp⟩), rfl⟩
        · rw [if_neg hlen]
          rw [hcons] at hfit ⊢
          exact ih v ch fs (oui + 1) hwf (by simp) (by omega) (Or.inl (by omega)) hfit
    · rw [if_neg hiw]
      have hpos : 0 < oui := by
        rcases hhead with h | h
        · exact h
        · rcases Nat.eq_zero_or_pos oui with h0 | h0
          · exfalso
            subst h0
            apply hiw
            rw [List.head?_cons, List.head?_eq_getElem?, hget] at h
            exact Option.some.inj h
          · exact h0
      have hdrop : v.drop oui ≠ [] := by
        intro h
        have := congrArg List.length h
        simp at this; omega
      have hdh : (v.drop oui).head? = some v[oui] := by
        rw [List.head?_eq_getElem?, List.getElem?_drop]; simpa using hget
      refine ⟨_, rfl, WF_iff.2 ⟨?_, ?_, ?_, Or.inr ⟨by simp, rfl⟩⟩, ?_, ?_⟩
      · intro h
        have := congrArg List.length h
        rw [List.length_take, List.length_nil] at this
        omega
      · intro d hd
        simp only [List.mem_cons, List.not_mem_nil, or_false] at hd
        rcases hd with rfl | rfl
        · exact WF_iff.2 ⟨hdrop, w2, w3, w4⟩
        · exact WF_iff.2 ⟨by simp, by simp, by simp, Or.inl ⟨rfl, by simp, by simp⟩⟩
      · simp only [List.map_cons, List.map_nil, value, hdh, List.head?_cons, List.nodup_cons, List.mem_singleton,
          Option.some.injEq, List.not_mem_nil, not_false_eq_true, and_true, List.nodup_nil]
        exact fun h => hiw h.symm
      · simp only [value]
        cases v with
        | nil => simp at houi
        | cons a l => cases oui with
          | zero => omega
          | succ n => simp
      · rintro ⟨s, f⟩
        rw [mem_paths, mem_paths]
        simp only [List.not_mem_nil, and_false, false_or, Prod.mk.injEq, List.mem_cons, or_false, exists_eq_or_imp,
          exists_eq_left]
        constructor
        · rintro (⟨s', hs', rfl⟩ | ⟨s', hs', rfl⟩)
          · left
            rcases mem_paths.1 hs' with ⟨rfl, h⟩ | ⟨c, hc, s'', hs'', rfl⟩
            · exact Or.inl ⟨List.take_append_drop _ _, h⟩
            · exact Or.inr ⟨c, hc, s'', hs'', by rw [← List.append_assoc, List.take_append_drop]⟩
          · right
            rw [mem_paths] at hs'
            simp only [List.mem_singleton, List.not_mem_nil, false_and, exists_false, or_false] at hs'
            exact ⟨by rw [hs'.1], hs'.2⟩
        · rintro ((⟨rfl, h⟩ | ⟨c, hc, s', hs', rfl⟩) | ⟨rfl, rfl⟩)
          · exact Or.inl ⟨s.drop oui, mem_paths.2 (Or.inl ⟨rfl, h⟩), (List.take_append_drop _ _).symm⟩
          · exact Or.inl ⟨v.drop oui ++ s', mem_paths.2 (Or.inr ⟨c, hc, s', hs', rfl⟩), by
              rw [← List.append_assoc, List.take_append_drop]⟩
          · exact Or.inr ⟨instr :: rest, mem_paths.2 (Or.inl ⟨rfl, by simp⟩), rfl⟩

/-- Inserting a first sequence. -/
theorem insert_empty (seq : List I) (form : F) : (empty : Node I F).insert seq form = some (mk seq [] [form]) := rfl

theorem insert_spec (n : Node I F) (hwf : n.WF) (seq : List I) (form : F) (hhead : seq.head? = n.value.head?)
    (hfit : n.Fits seq) : ∃ n', n.insert seq form = some n' ∧ n'.WF ∧ n'.value.head? = n.value.head? ∧
      ∀ x, x ∈ n'.paths ↔ x ∈ n.paths ∨ x = (seq, form) := by
  obtain ⟨v, ch, fs⟩ := n
  cases v with
  | nil => exact absurd rfl hwf.value_ne
  | cons i v =>
    have hne : seq ≠ [] := by rintro rfl; simp [value] at hhead
    obtain ⟨n', h1, h2, h3, h4⟩ := follow_spec form seq (i :: v) ch fs 0 hwf hne (by simp) (Or.inr hhead)
      (by simpa using hfit)
    exact ⟨n', h1, h2, h3, by simpa using h4⟩

/-- Insertions of sequences that all start with `i0`, none of which is a proper prefix of another. -/
theorem insertAll_spec (i0 : I) (l : List (List I × F)) (n : Node I F) (hwf : n.WF) (hn : n.value.head? = some i0)
    (hl : ∀ p ∈ l, p.1.head? = some i0)
    (hpre : ∀ p ∈ n.paths ++ l, ∀ q ∈ n.paths ++ l, p.1 <+: q.1 → p.1 = q.1) :
    ∃ n', n.insertAll l = some n' ∧ n'.WF ∧ n'.value.head? = some i0 ∧
      ∀ x, x ∈ n'.paths ↔ x ∈ n.paths ∨ x ∈ l := by
  induction l generalizing n with
  | nil => exact ⟨n, rfl, hwf, hn, by simp⟩
  | cons p l ih =>
    obtain ⟨s, f⟩ := p
    obtain ⟨n1, h1, h2, h3, h4⟩ := insert_spec n hwf s f (by rw [hn]; exact hl (s, f) (by simp)) (by
      intro s' f' hs' hp
      rcases hp with hp | hp
      · exact hpre (s', f') (by simp [hs']) (s, f) (by simp) hp
      · exact (hpre (s, f) (by simp) (s', f') (by simp [hs']) hp).symm)
    obtain ⟨n2, e1, e2, e3, e4⟩ := ih n1 h2 (by rw [h3, hn]) (fun p hp => hl p (List.mem_cons_of_mem _ hp)) (by
      have tr : ∀ p ∈ n1.paths ++ l, p ∈ n.paths ++ (s, f) :: l := by
        intro p hp
        simp only [List.mem_append, List.mem_cons, h4] at hp ⊢
        rcases hp with (hp | hp) | hp
        · exact Or.inl hp
        · exact Or.inr (Or.inl hp)
        · exact Or.inr (Or.inr hp)
      exact fun p hp q hq => hpre p (tr p hp) q (tr q hq))
    refine ⟨n2, by simp [insertAll, h1, e1], e2, e3, fun x => ?_⟩
    rw [e4, h4, List.mem_cons]
    exact or_assoc

/-- Every entry is stored once. -/
theorem WF.nodup {n : Node I F} (h : n.WF) : n.paths.Nodup := by
  induction n using ind with
  | h v ch fs ih =>
    obtain ⟨_, h2, h3, h4⟩ := WF_iff.1 h
    have hL : (pathsL v ch).Nodup := by
      clear h h4
      induction ch with
      | nil => simp [pathsL]
      | cons c rest ih2 =>
        simp only [List.map_cons, List.nodup_cons] at h3
        simp only [pathsL]
        rw [List.nodup_append]
        refine ⟨?_, ih2 (fun c hc => ih c (List.mem_cons_of_mem _ hc)) (fun c hc => h2 c (List.mem_cons_of_mem _ hc)) h3.2, ?_⟩
        · rw [List.nodup_iff_pairwise_ne, List.pairwise_map]
          refine (List.nodup_iff_pairwise_ne.1 (ih c (by simp) (h2 c (by simp)))).imp ?_
          rintro ⟨a1, a2⟩ ⟨b1, b2⟩ hab heq
          simp only [Prod.mk.injEq, List.append_cancel_left_eq] at heq
          exact hab (by rw [heq.1, heq.2])
        · rintro ⟨s, f⟩ ha ⟨s', f'⟩ hb heq
          simp only [List.mem_map, Prod.mk.injEq] at ha
          obtain ⟨⟨s1, f1⟩, hs1, rfl, rfl⟩ := ha
          obtain ⟨d, hd, s2, hs2, rfl⟩ := mem_pathsL.1 hb
          simp only [Prod.mk.injEq, List.append_cancel_left_eq] at heq
          obtain ⟨rfl, rfl⟩ := heq
          -- both children start with the same instruction
          apply h3.1
          rw [List.mem_map]
          refine ⟨d, hd, ?_⟩
          have p1 := path_prefix hs1
          have p2 := path_prefix hs2
          have n1 := (h2 c (by simp)).value_ne
          have n2 := (h2 d (by simp [hd])).value_ne
          obtain ⟨x, hx⟩ := p1
          obtain ⟨y, hy⟩ := p2
          cases hc : c.value with
          | nil => exact absurd hc n1
          | cons a l =>
            cases hd : d.value with
            | nil => exact absurd hd n2
            | cons b m =>
              rw [hc] at hx; rw [hd] at hy
              rw [← hx] at hy
              simp only [List.cons_append, List.cons.injEq] at hy
              simp [hy.1]
    rcases h4 with ⟨h4, _, h5⟩ | ⟨_, h4⟩
    · subst h4
      simp only [paths, pathsL, List.append_nil]
      rw [List.nodup_iff_pairwise_ne, List.pairwise_map]
      refine (List.nodup_iff_pairwise_ne.1 h5).imp ?_
      intro a b hab heq
      simp only [Prod.mk.injEq, true_and] at heq
      exact hab heq
    · subst h4
      simpa [paths] using hL

end Verif.Unif.Node
