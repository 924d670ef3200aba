import Verif.Unif.Compute
/-!
# The result does not depend on the fuel

A call that ends with some fuel ends in the same way with more fuel. So "the call returns `o`" is
"there is some fuel with which the model returns `o`", and this determines `o`.
-/

namespace Verif.Unif

universe u v

/-- The second is the result the first would have with more fuel. -/
def Res.Le {α : Type u} (x y : Res α) : Prop := x = .out ∨ x = y

theorem Res.Le.refl {α : Type u} (x : Res α) : x.Le x := Or.inr rfl

theorem Res.Le.trans {α : Type u} {x y z : Res α} (h : x.Le y) (h' : y.Le z) : x.Le z := by
  rcases h with h | h
  · exact Or.inl h
  · subst h; exact h'

theorem Res.Le.bind {α : Type u} {β : Type v} {x y : Res α} {f g : α → Res β} (h : x.Le y)
    (hf : ∀ a, (f a).Le (g a)) : (x.bind f).Le (y.bind g) := by
  rcases h with rfl | rfl
  · exact Or.inl rfl
  · cases x with
    | ok a => exact hf a
    | fail => exact Or.inr rfl
    | panic => exact Or.inr rfl
    | out => exact Or.inr rfl

theorem elimInside_mono (key : Nat) (value : UT) {n m : Nat} (hnm : n ≤ m) (s : Subst) (top : Bool) :
    (elimInside key value n s top).Le (elimInside key value m s top) := by
  induction n generalizing m s top with
  | zero => exact Or.inl rfl
  | succ n ih =>
    cases m with
    | zero => omega
    | succ m =>
      refine Res.Le.bind (.refl _) fun r => ?_
      split
      · exact ih (by omega) _ _
      · exact .refl _

theorem elimRound_mono {n m : Nat} (hnm : n ≤ m) (ts : Subst) (acc : Subst × Bool) :
    (elimRound n ts acc).Le (elimRound m ts acc) := by
  induction ts generalizing acc with
  | nil => exact .refl _
  | cons p ts ih =>
    obtain ⟨k, v⟩ := p
    simp only [elimRound]
    split
    · exact Res.Le.bind (elimInside_mono k v hnm _ _) fun r => ih r
    · exact .refl _

theorem eliminate_mono {n m : Nat} (hnm : n ≤ m) (s : Subst) : (eliminate n s).Le (eliminate m s) := by
  induction n generalizing m s with
  | zero => exact Or.inl rfl
  | succ n ih =>
    cases m with
    | zero => omega
    | succ m =>
      refine Res.Le.bind (elimRound_mono (by omega) _ _) fun r => ?_
      split
      · exact ih (by omega) _
      · exact .refl _

theorem elimBoth_mono {n m : Nat} (hnm : n ≤ m) (s : Subst) : (elimBoth n s).Le (elimBoth m s) :=
  eliminate_mono hnm _

section
variable {au au' : AU} (hle : ∀ t1 t2 s, (au t1 t2 s).Le (au' t1 t2 s))
include hle

theorem step_mono (m : M) (i : Instr) : (m.step au i).Le (m.step au' i) := by
  cases i with
  | fin t =>
    simp only [M.step, M.fin]
    split
    · exact .refl _
    · split
      · split
        · exact Res.Le.bind (hle _ _ _) fun _ => .refl _
        · exact .refl _
      · exact .refl _
  | compare i j =>
    simp only [M.step]
    split
    · exact .refl _
    · split
      · split
        · exact .refl _
        · exact Res.Le.bind (hle _ _ _) fun _ => .refl _
      · exact .refl _
  | begin => exact .refl _
  | right => exact .refl _
  | down => exact .refl _
  | check p => exact .refl _
  | push i => exact .refl _
  | pop i => exact .refl _
  | put i => exact .refl _

theorem exec_mono (is : List Instr) (m : M) : (exec au is m).Le (exec au' is m) := by
  induction is generalizing m with
  | nil => exact .refl _
  | cons i is ih => exact Res.Le.bind (step_mono hle m i) fun a => ih a

theorem computeLoop_mono (strict : Bool) (metas : List Nat) (subs : List (Nat × UT)) (done : List Nat)
    (T E : Subst) : (computeLoop strict au metas subs done T E).Le (computeLoop strict au' metas subs done T E) := by
  induction subs generalizing done T E with
  | nil => exact .refl _
  | cons p rest ih =>
    obtain ⟨i, u⟩ := p
    simp only [computeLoop]
    split
    · exact .refl _
    · split
      · exact ih _ _ _
      · split
        · exact .refl _
        · split
          · exact ih _ _ _
          · split
            · exact ih _ _ _
            · exact Res.Le.bind (hle _ _ _) fun a => ih _ _ _

theorem mergeLoop_mono {n m : Nat} (hnm : n ≤ m) (rest res : Subst) :
    (mergeLoop au n rest res).Le (mergeLoop au' m rest res) := by
  induction rest generalizing res with
  | nil => exact .refl _
  | cons p rest ih =>
    obtain ⟨k, v⟩ := p
    simp only [mergeLoop]
    split
    · exact Res.Le.bind (hle _ _ _) fun a => ih a
    · exact Res.Le.bind (elimBoth_mono hnm _) fun a => ih a

theorem merge_mono {n m : Nat} (hnm : n ≤ m) (s1 s2 : Subst) : (merge au n s1 s2).Le (merge au' m s1 s2) := by
  simp only [merge]
  split
  · exact .refl _
  · split
    · exact .refl _
    · exact mergeLoop_mono hle hnm _ _

theorem tryUnif_mono (strict : Bool) {n m : Nat} (hnm : n ≤ m) (t1 t2 : UT) (s : Subst) :
    (tryUnif strict au n t1 t2 s).Le (tryUnif strict au' m t1 t2 s) :=
  Res.Le.bind (exec_mono hle _ _) fun _ => Res.Le.bind (computeLoop_mono hle _ _ _ _ _ _) fun _ =>
    Res.Le.bind (elimBoth_mono hnm _) fun _ => Res.Le.bind (elimBoth_mono hnm _) fun _ =>
    Res.Le.bind (merge_mono hle hnm _ _) fun _ => elimBoth_mono hnm _

theorem addUnifBody_mono (strict : Bool) {n m : Nat} (hnm : n ≤ m) (t1 t2 : UT) (s : Subst) :
    (addUnifBody strict au n t1 t2 s).Le (addUnifBody strict au' m t1 t2 s) := by
  have h := fun t1 t2 => Res.Le.bind (tryUnif_mono hle strict hnm t1 t2 s) fun a => elimBoth_mono hnm a
  cases t1 with
  | mv x =>
    simp only [addUnifBody]
    split
    · exact h _ _
    · exact elimBoth_mono hnm _
  | fn p l =>
    cases t2 with
    | mv y =>
      simp only [addUnifBody]
      split
      · exact h _ _
      · exact elimBoth_mono hnm _
    | fn q m => exact h _ _

end

theorem addUnif_mono (strict : Bool) {n m : Nat} (hnm : n ≤ m) (t1 t2 : UT) (s : Subst) :
    (addUnif strict n t1 t2 s).Le (addUnif strict m t1 t2 s) := by
  induction n generalizing m t1 t2 s with
  | zero => exact Or.inl rfl
  | succ n ih =>
    cases m with
    | zero => omega
    | succ m => exact addUnifBody_mono (fun t1 t2 s => ih (by omega) t1 t2 s) strict (by omega) t1 t2 s

/-- `AddUnification(t1, t2, s)` ends with result `o`. -/
def Unifies (t1 t2 : UT) (s : Subst) (o : Res Subst) : Prop := o ≠ .out ∧ ∃ n, addUnif false n t1 t2 s = o

/-- `MergeSubstitutions(s1, s2)` ends with result `o`. -/
def Merges (s1 s2 : Subst) (o : Res Subst) : Prop := o ≠ .out ∧ ∃ n, merge (addUnif false n) n s1 s2 = o

theorem det_of_mono {α : Type u} {f : Nat → Res α} (h : ∀ n m, n ≤ m → (f n).Le (f m)) {o o' : Res α}
    (ho : o ≠ .out) (ho' : o' ≠ .out) (h1 : ∃ n, f n = o) (h2 : ∃ n, f n = o') : o = o' := by
  obtain ⟨n, rfl⟩ := h1
  obtain ⟨m, rfl⟩ := h2
  rcases Nat.le_total n m with hnm | hnm
  · exact (h n m hnm).resolve_left ho
  · exact ((h m n hnm).resolve_left ho').symm

/-- The result is determined. -/
theorem Unifies.det {t1 t2 : UT} {s : Subst} {o o' : Res Subst} (h : Unifies t1 t2 s o) (h' : Unifies t1 t2 s o') :
    o = o' :=
  det_of_mono (f := fun n => addUnif false n t1 t2 s) (fun _ _ hnm => addUnif_mono false hnm t1 t2 s) h.1 h'.1 h.2 h'.2

theorem Merges.det {s1 s2 : Subst} {o o' : Res Subst} (h : Merges s1 s2 o) (h' : Merges s1 s2 o') : o = o' :=
  det_of_mono (f := fun n => merge (addUnif false n) n s1 s2)
    (fun _ _ hnm => merge_mono (fun t1 t2 s => addUnif_mono false hnm t1 t2 s) hnm s1 s2) h.1 h'.1 h.2 h'.2

end Verif.Unif
