import Verif.Unif.Compute
/-!
# The code agrees with the strict variant wherever the latter succeeds
-/

namespace Verif.Unif

/-- Every success of the first is a success of the second. -/
def AULe (au au' : AU) : Prop := ∀ t1 t2 s r, au t1 t2 s = .ok r → au' t1 t2 s = .ok r

variable {au au' : AU}

theorem step_le (hle : AULe au au') (m m' : M) (i : Instr) (h : m.step au i = .ok m') : m.step au' i = .ok m' := by
  cases i with
  | fin t =>
    simp only [M.step, M.fin] at h ⊢
    split at h
    · exact h
    · rename_i b hl
      split at h
      · rename_i hb
        rw [if_pos hb]
        split at h
        · rename_i x t hx
          rw [Res.bind_ok] at h
          obtain ⟨s, hs, h⟩ := h
          rw [Res.bind_ok]
          exact ⟨s, hle _ _ _ _ hs, h⟩
        · cases h
      · rename_i hb
        rw [if_neg hb]
        exact h
  | compare i j =>
    simp only [M.step] at h ⊢
    split at h
    · simpa using h
    · split at h
      · rename_i a b ha hb
        split at h
        · rename_i he
          rw [if_pos he]; exact h
        · rename_i he
          rw [if_neg he]
          rw [Res.bind_ok] at h ⊢
          obtain ⟨s, hs, h⟩ := h
          exact ⟨s, hle _ _ _ _ hs, h⟩
      · rename_i hn
        exact h
  | begin => exact h
  | right => exact h
  | down => exact h
  | check p => exact h
  | push i => exact h
  | pop i => exact h
  | put i => exact h

theorem exec_le (hle : AULe au au') (is : List Instr) (m m' : M) (h : exec au is m = .ok m') :
    exec au' is m = .ok m' := by
  induction is generalizing m with
  | nil => exact h
  | cons i is ih =>
    simp only [exec, Res.bind_ok] at h ⊢
    obtain ⟨m1, h1, h⟩ := h
    exact ⟨m1, step_le hle _ _ _ h1, ih _ h⟩

theorem computeLoop_le (hle : AULe au au') (metas : List Nat) (subs : List (Nat × UT)) (done : List Nat)
    (T E : Subst) (r : Subst × Subst) (h : computeLoop true au metas subs done T E = .ok r) :
    computeLoop false au' metas subs done T E = .ok r := by
  induction subs generalizing done T E with
  | nil => exact h
  | cons p rest ih =>
    obtain ⟨i, u⟩ := p
    simp only [computeLoop] at h ⊢
    split at h
    · cases h
    · simp only [Bool.false_and, Bool.false_eq_true, if_false]
      split at h
      · rename_i hmu; rw [if_pos hmu]; exact ih _ _ _ h
      · rename_i hmu
        rw [if_neg hmu]
        split at h
        · cases h
        · split at h
          · exact ih _ _ _ h
          · split at h
            · rename_i hv; rw [if_pos hv]; exact ih _ _ _ h
            · rename_i hv
              rw [if_neg hv]
              rw [Res.bind_ok] at h ⊢
              obtain ⟨T', h1, h⟩ := h
              exact ⟨T', hle _ _ _ _ h1, ih _ _ _ h⟩

theorem mergeLoop_le (hle : AULe au au') (n : Nat) (rest res r : Subst) (h : mergeLoop au n rest res = .ok r) :
    mergeLoop au' n rest res = .ok r := by
  induction rest generalizing res with
  | nil => exact h
  | cons p rest ih =>
    obtain ⟨k, v⟩ := p
    simp only [mergeLoop] at h ⊢
    split at h
    · rename_i hk
      rw [if_pos hk]
      rw [Res.bind_ok] at h ⊢
      obtain ⟨s, hs, h⟩ := h
      exact ⟨s, hle _ _ _ _ hs, ih _ h⟩
    · rename_i hk
      rw [if_neg hk]
      rw [Res.bind_ok] at h ⊢
      obtain ⟨s, hs, h⟩ := h
      exact ⟨s, hs, ih _ h⟩

theorem merge_le (hle : AULe au au') (n : Nat) (s1 s2 r : Subst) (h : merge au n s1 s2 = .ok r) :
    merge au' n s1 s2 = .ok r := by
  simp only [merge] at h ⊢
  split at h
  · rename_i h1; rw [if_pos h1]; exact h
  · rename_i h1
    rw [if_neg h1]
    split at h
    · rename_i h2; rw [if_pos h2]; exact h
    · rename_i h2; rw [if_neg h2]; exact mergeLoop_le hle _ _ _ _ h

theorem tryUnif_le (hle : AULe au au') (n : Nat) (t1 t2 : UT) (s r : Subst)
    (h : tryUnif true au n t1 t2 s = .ok r) : tryUnif false au' n t1 t2 s = .ok r := by
  simp only [tryUnif, compute, Res.bind_ok] at h ⊢
  obtain ⟨m, hm, ⟨T, F⟩, h1, F', hF, T', hT, q, hq, h⟩ := h
  exact ⟨m, exec_le hle _ _ _ hm, ⟨T, F⟩, computeLoop_le hle _ _ _ _ _ _ h1, F', hF, T', hT, q,
    merge_le hle _ _ _ _ hq, h⟩

theorem strict_agree (n : Nat) : AULe (addUnif true n) (addUnif false n) := by
  induction n with
  | zero => intro t1 t2 s r h; simp [addUnif] at h
  | succ n ih =>
    intro t1 t2 s r h
    have try' : ∀ t1 t2, (tryUnif true (addUnif true n) n t1 t2 s).bind (elimBoth n) = .ok r →
        (tryUnif false (addUnif false n) n t1 t2 s).bind (elimBoth n) = .ok r := by
      intro t1 t2 h
      rw [Res.bind_ok] at h ⊢
      obtain ⟨q, hq, h⟩ := h
      exact ⟨q, tryUnif_le ih _ _ _ _ _ hq, h⟩
    simp only [addUnif] at h ⊢
    cases t1 with
    | mv x =>
      simp only [addUnifBody] at h ⊢
      split at h
      · rename_i hc; rw [if_pos hc]; exact try' _ _ h
      · rename_i hc; rw [if_neg hc]; exact h
    | fn p l =>
      cases t2 with
      | mv y =>
        simp only [addUnifBody] at h ⊢
        split at h
        · rename_i hc; rw [if_pos hc]; exact try' _ _ h
        · rename_i hc; rw [if_neg hc]; exact h
      | fn q m => exact try' _ _ h

end Verif.Unif
