import Verif.Unif.Mixed
import Verif.Unif.Matching
/-!
# C103: properties of the translation of type arguments and of merging mixed substitutions
-/

namespace Verif.Unif.Mixed
open Verif.Unif

/-! ### Specification -/

mutual
/-- Each symbol has as many type arguments as its declared type has type variables. -/
def Typed (pi : Nat → Nat) : PT → Prop
  | .mv _ => True
  | .fn p tys args => tys.length = pi p ∧ TypedL pi args
def TypedL (pi : Nat → Nat) : List PT → Prop
  | [] => True
  | a :: l => Typed pi a ∧ TypedL pi l
end

mutual
/-- A term as a first-order term: its type arguments count like other arguments. -/
def PT.val : PT → UT
  | .mv i => .mv i
  | .fn p tys args => .fn p (tys ++ PT.valL args)
def PT.valL : List PT → List UT
  | [] => []
  | a :: l => PT.val a :: PT.valL l
end

/-- The metavariable of a binding and its value. -/
def Mix.binding : Mix → Nat × UT
  | .ty k v => (k, v)
  | .tm k v => (k, v.val)

/-- The instantiation of types and terms satisfies the bindings. -/
def Sat (σ : Nat → UT) (s : List Mix) : Prop := ∀ b ∈ s, σ b.binding.1 = b.binding.2.inst σ

/-- No metavariables in the values. -/
def Closed (s : List Mix) : Prop := ∀ b ∈ s, b.binding.2.occ = []

/-- The values are well-formed. -/
def TypedS (pi : Nat → Nat) (s : List Mix) : Prop := ∀ k v, .tm k v ∈ s → Typed pi v

/-- Merging ends with this result. -/
def MergesMixed (pi : Nat → Nat) (isTy : Nat → Bool) (s1 s2 : List Mix) (o : Res (List Mix)) : Prop :=
  o ≠ .out ∧ ∃ n, mergeMixed pi isTy n s1 s2 = o

/-- **C103, the full claim**: type arguments that were made arguments are found again; merging two substitutions without metavariables in their values
succeeds only if an instantiation satisfies both. -/
def C103_statement : Prop :=
  (∀ pi t, Typed pi t → t.enc.dec pi = some t) ∧
  ∀ pi isTy s1 s2 r, TypedS pi s1 → TypedS pi s2 → Closed s1 → Closed s2 → MergesMixed pi isTy s1 s2 (.ok r) → ∃ σ, Sat σ s1 ∧ Sat σ s2

/-- A substitution that can be satisfied together with the other is never refused. -/
def C103_complete_statement : Prop :=
  ∀ pi isTy s1 s2 σ, TypedS pi s1 → TypedS pi s2 → Sat σ s1 → Sat σ s2 → ¬ MergesMixed pi isTy s1 s2 .fail

/-! ### Type arguments are found again -/

variable {pi : Nat → Nat}

theorem embL_length : ∀ l : List UT, (embL l).length = l.length
  | [] => rfl
  | _ :: l => by simp [embL, embL_length l]

theorem toTyL_embL {l : List UT} (h : ∀ a ∈ l, (emb a).toTy = a) : PT.toTyL (embL l) = l := by
  induction l with
  | nil => rfl
  | cons a l ih => simp only [embL, PT.toTyL, h a (by simp), ih fun b hb => h b (by simp [hb])]

theorem toTy_emb (t : UT) : (emb t).toTy = t := by
  induction t using UT.ind with
  | mv i => rfl
  | fn p args ih => simp only [emb, PT.toTy, toTyL_embL ih]

theorem decL_skip (l : List UT) (m : List PT) : PT.decL pi l.length (embL l ++ m) = PT.decL pi 0 m := by
  induction l with
  | nil => rfl
  | cons a l ih => simpa [embL, PT.decL] using ih

theorem take_embL (l : List UT) (m : List PT) : (embL l ++ m).take l.length = embL l := by
  rw [← embL_length l]; simp

mutual
theorem dec_enc : ∀ t : PT, Typed pi t → t.enc.dec pi = some t
  | .mv i, _ => by simp [PT.enc, PT.dec]
  | .fn p tys args, h => by
    obtain ⟨h1, h2⟩ := h
    simp only [PT.enc, PT.dec, ne_eq, not_true_eq_false, if_false, ← h1]
    rw [if_neg (by simp [embL_length]), decL_skip, take_embL, toTyL_embL fun a _ => toTy_emb a, decL_enc args h2]
    rfl
theorem decL_enc : ∀ l : List PT, TypedL pi l → PT.decL pi 0 (PT.encL l) = some l
  | [], _ => by simp [PT.encL, PT.decL]
  | a :: l, h => by simp [PT.encL, PT.decL, dec_enc a h.1, decL_enc l h.2]
end

mutual
theorem dec_typed : ∀ t : PT, Typed pi t → t.dec pi = some t
  | .mv i, _ => by simp [PT.dec]
  | .fn p tys args, h => by
    obtain ⟨h1, h2⟩ := h
    simp only [PT.dec]
    split
    · rfl
    · rename_i ht
      have ht : tys = [] := by simpa using ht
      subst ht
      rw [← h1]
      simp [decL_typed args h2, PT.toTyL]
theorem decL_typed : ∀ l : List PT, TypedL pi l → PT.decL pi 0 l = some l
  | [], _ => by simp [PT.decL]
  | a :: l, h => by simp [PT.decL, dec_typed a h.1, decL_typed l h.2]
end

/-- **C103, first half**: in an answer of the index, type arguments are found again. -/
theorem C103_roundtrip (pi : Nat → Nat) (t : PT) (h : Typed pi t) : t.enc.dec pi = some t := dec_enc t h

/-- What is translated stays as it is when it is translated again. -/
theorem C103_again (pi : Nat → Nat) (t : PT) (h : Typed pi t) : (t.enc.dec pi).bind (PT.dec pi) = some t := by
  rw [dec_enc t h]; exact dec_typed t h

/-! ### Merging -/

namespace Ex
/-- `A` and `B` are types, `c : !>[T:$tType]:$i`, `f : !>[T:$tType]:($i > $i)`, `a : $i`. -/
def A : UT := .fn 1 []
def B : UT := .fn 2 []
def a : PT := .fn 3 [] []
def c (t : UT) : PT := .fn 10 [t] []
def f (t : UT) (x : PT) : PT := .fn 11 [t] [x]
def arity (p : Nat) : Nat := if p = 10 ∨ p = 11 then 1 else 0
end Ex
open Ex

/-- The hypotheses are met: `f<A>(f<B>(c<A>))`. -/
example : Typed arity (f A (f B (c A))) ∧ (f A (f B (c A))).enc ≠ f A (f B (c A)) :=
  ⟨by simp [Typed, TypedL, f, c, arity], by decide⟩

/-- **C103 is violated for constants with type arguments**: `X ↦ c<A>` and `X ↦ c<B>` are merged, although no instantiation satisfies both. -/
theorem C103_violated_constant : MergesMixed arity (fun _ => false) [.tm 0 (c A)] [.tm 0 (c B)] (.ok [.tm 0 (c B)]) ∧
    ¬ ∃ σ, Sat σ [.tm 0 (c A)] ∧ Sat σ [.tm 0 (c B)] := by
  refine ⟨⟨by simp, 9, by rfl⟩, ?_⟩
  rintro ⟨σ, h1, h2⟩
  have e1 := h1 _ (List.mem_singleton.2 rfl)
  have e2 := h2 _ (List.mem_singleton.2 rfl)
  simp only [Mix.binding] at e1 e2
  have := e1.symm.trans e2
  simp [c, A, B, PT.val, PT.valL, UT.inst, UT.eval, UT.evalL, termAlg] at this

theorem C103_statement_false : ¬ C103_statement := by
  intro h
  refine C103_violated_constant.2 (h.2 arity (fun _ => false) _ _ _ ?_ ?_ ?_ ?_ C103_violated_constant.1)
  · intro k v hv; simp only [List.mem_singleton, Mix.tm.injEq] at hv; rw [hv.2]; simp [Typed, TypedL, c, arity]
  · intro k v hv; simp only [List.mem_singleton, Mix.tm.injEq] at hv; rw [hv.2]; simp [Typed, TypedL, c, arity]
  · intro b hb; rw [List.mem_singleton.1 hb]; rfl
  · intro b hb; rw [List.mem_singleton.1 hb]; rfl

/-- **… and refused for functions with type arguments**: `X ↦ f<A>(Y)` and `X ↦ f<A>(a)` are satisfied by `Y ↦ a`, but merging them fails. -/
theorem C103_violated_function : MergesMixed arity (fun _ => false) [.tm 0 (f A (.mv 1))] [.tm 0 (f A a)] .fail ∧
    ∃ σ, Sat σ [.tm 0 (f A (.mv 1))] ∧ Sat σ [.tm 0 (f A a)] := by
  refine ⟨⟨by simp, 9, by rfl⟩, fun i => if i = 0 then (f A a).val else a.val, ?_, ?_⟩ <;>
  · intro b hb
    rw [List.mem_singleton.1 hb]
    rfl

theorem C103_complete_false : ¬ C103_complete_statement := by
  intro h
  obtain ⟨h0, σ, h1, h2⟩ := C103_violated_function
  refine h arity (fun _ => false) _ _ σ ?_ ?_ h1 h2 h0
  · intro k v hv; simp only [List.mem_singleton, Mix.tm.injEq] at hv; rw [hv.2]; simp [Typed, TypedL, f, arity]
  · intro k v hv; simp only [List.mem_singleton, Mix.tm.injEq] at hv; rw [hv.2]; simp [Typed, TypedL, f, a, arity]

end Verif.Unif.Mixed
