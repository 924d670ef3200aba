import Verif.AST.ReplaceLemmas
import Verif.Search.Rules
/-!
# Witness terms of the GS3 proof (`src/Mods/gs3/dependency.go`)

The proof that the search builds does not record with which term a quantified formula has been
instantiated. The GS3 translation recovers it by comparing the quantified formula with the result of
the step: it collects the positions of the variable in the body, and reads the terms found at these
positions in the result. The outer `Option` of the model is a Go panic (an index out of range) or the
call of `Glob.Anomaly`; the inner one is a nil term.
-/

namespace Verif.Gs3
open Verif.AST

/-- `occurrence` (src/Mods/gs3/dependency.go:45). -/
abbrev Path := List Nat

/-- `getNextFormula` (src/Mods/gs3/dependency.go:90-108). -/
def nextForm : Form → Form
  | .all vs f => if vs.length > 1 then .all vs.tail f else f
  | .ex vs f => if vs.length > 1 then .ex vs.tail f else f
  | .neg f => .neg (nextForm f)
  | f => f

mutual
/-- `getVariableOccurrencesTerm` (src/Mods/gs3/dependency.go:156-170); the accumulator `currentOcc`
is the concatenation of the results. -/
def occT (x : Nat) (path : Path) : Term → List Path
  | .var i => if i = x then [path] else []
  | .mv _ => []
  | .fn _ _ args => occTL x path 0 args
/-- The loops over arguments (src/Mods/gs3/dependency.go:125-127,165-167), from the argument number
`i`. -/
def occTL (x : Nat) (path : Path) (i : Nat) : List Term → List Path
  | [] => []
  | a :: l => occT x (path ++ [i]) a ++ occTL x path (i + 1) l
end

mutual
/-- `getVariableOccurrencesForm`, `getUnaryOcc`, `getNAryOcc` (src/Mods/gs3/dependency.go:120-154). -/
def occF (x : Nat) (path : Path) : Form → List Path
  | .pred _ _ args => occTL x path 0 args
  | .top => []
  | .bot => []
  | .neg f => occF x (path ++ [0]) f
  | .and fs => occFL x path 0 fs
  | .or fs => occFL x path 0 fs
  | .imp f g => occF x (path ++ [0]) f ++ occF x (path ++ [1]) g
  | .equ f g => occF x (path ++ [0]) f ++ occF x (path ++ [1]) g
  | .all _ f => occF x (path ++ [0]) f
  | .ex _ f => occF x (path ++ [0]) f
/-- The loop of `getNAryOcc` (src/Mods/gs3/dependency.go:149-154). -/
def occFL (x : Nat) (path : Path) (i : Nat) : List Form → List Path
  | [] => []
  | f :: fs => occF x (path ++ [i]) f ++ occFL x path (i + 1) fs
end

/-- `getTerm` (src/Mods/gs3/dependency.go:229-241); `none` is nil. -/
def getTerm : Term → Path → Option Term
  | t, [] => some t
  | .fn _ _ args, i :: p =>
    match args[i]? with
    | none => none
    | some a => getTerm a p
  | _, _ :: _ => none

/-- `getTermAux`, `getUnaryTerm`, `getNAryTerm` (src/Mods/gs3/dependency.go:187-227). The outer `none`
is the panic of `occ[0]` on an empty path. -/
def getTermAux : Form → Path → Option (Option Term)
  | .top, _ => some none
  | .bot, _ => some none
  | _, [] => none
  | .pred _ _ args, i :: p =>
    match args[i]? with
    | none => some none
    | some a => some (getTerm a p)
  | .neg f, i :: p => if i > 0 then some none else getTermAux f p
  | .and fs, i :: p =>
    match fs[i]? with
    | none => some none
    | some f => getTermAux f p
  | .or fs, i :: p =>
    match fs[i]? with
    | none => some none
    | some f => getTermAux f p
  | .imp f g, i :: p =>
    match [f, g][i]? with
    | none => some none
    | some h => getTermAux h p
  | .equ f g, i :: p =>
    match [f, g][i]? with
    | none => some none
    | some h => getTermAux h p
  | .all _ f, i :: p => if i > 0 then some none else getTermAux f p
  | .ex _ f, i :: p => if i > 0 then some none else getTermAux f p

/-- The loop of `getTermAt` (src/Mods/gs3/dependency.go:173-186); `cur` is the variable `term`. The
call of `Glob.Anomaly` ends the program. -/
def getTermLoop (form : Form) : Option Term → List Path → Option (Option Term)
  | cur, [] => some cur
  | cur, o :: os =>
    match getTermAux form o with
    | none => none
    | some t =>
      match cur with
      | none => getTermLoop form t os
      | some c => if some c = t then getTermLoop form (some c) os else none

/-- `getTermAt` (src/Mods/gs3/dependency.go:173-186). -/
def getTermAt (form : Form) (os : List Path) : Option (Option Term) := getTermLoop form none os

/-- `getResultTerm` (src/Mods/gs3/dependency.go:110-113). -/
def resultTerm (v : TVar) (bare result : Form) : Option (Option Term) :=
  getTermAt result (occF v.index [] bare)

/-- `manageGammasInstantiations` (src/Mods/gs3/dependency.go:52-68); `At(0)` panics on an empty list of
variables. -/
def gammaTerm (form result : Form) : Option (Option Term) :=
  match form with
  | .all (v :: _) _ => resultTerm v (nextForm form) result
  | .all [] _ => none
  | .neg (.ex (v :: _) _) => resultTerm v (nextForm form) result
  | .neg (.ex [] _) => none
  | _ => some none

/-- `manageDeltasSkolemisations` (src/Mods/gs3/dependency.go:72-88). -/
def deltaTerm (form result : Form) : Option (Option Term) :=
  match form with
  | .ex (v :: _) _ => resultTerm v (nextForm form) result
  | .ex [] _ => none
  | .neg (.all (v :: _) _) => resultTerm v (nextForm form) result
  | .neg (.all [] _) => none
  | _ => some none

/-! ## Specification: the variables that occur in a formula, bound or not -/

mutual
/-- All occurrences of variables in the atoms of a formula. -/
def allVars : Form → List Nat
  | .pred _ _ args => Term.varsL args
  | .top => []
  | .bot => []
  | .neg f => allVars f
  | .and fs => allVarsL fs
  | .or fs => allVarsL fs
  | .imp f g => allVars f ++ allVars g
  | .equ f g => allVars f ++ allVars g
  | .all _ f => allVars f
  | .ex _ f => allVars f
def allVarsL : List Form → List Nat
  | [] => []
  | f :: fs => allVars f ++ allVarsL fs
end

theorem mem_allVarsL {l : List Form} {i : Nat} : i ∈ allVarsL l ↔ ∃ a ∈ l, i ∈ allVars a := by
  induction l with
  | nil => simp [allVarsL]
  | cons a l ih => simp [allVarsL, ih]

/-! ## Lemmas -/

theorem occTL_nil_iff {x : Nat} {l : List Term}
    (ih : ∀ a ∈ l, ∀ path, occT x path a = [] ↔ x ∉ Term.vars a) (path : Path) (i : Nat) :
    occTL x path i l = [] ↔ x ∉ Term.varsL l := by
  induction l generalizing i with
  | nil => simp [occTL, Term.varsL]
  | cons a l ihl =>
    simp only [occTL, Term.varsL, List.append_eq_nil_iff, List.mem_append, not_or]
    rw [ih a (by simp), ihl (fun b hb => ih b (by simp [hb]))]

theorem occT_nil_iff (x : Nat) (t : Term) : ∀ path, occT x path t = [] ↔ x ∉ Term.vars t := by
  induction t using Term.ind with
  | var i => intro path; simp only [occT, Term.vars]; split <;> simp_all [eq_comm]
  | mv i => intro path; simp [occT, Term.vars]
  | fn p tys args ih => intro path; simp only [occT, Term.vars]; exact occTL_nil_iff ih path 0

theorem occFL_nil_iff {x : Nat} {l : List Form}
    (ih : ∀ a ∈ l, ∀ path, occF x path a = [] ↔ x ∉ allVars a) (path : Path) (i : Nat) :
    occFL x path i l = [] ↔ x ∉ allVarsL l := by
  induction l generalizing i with
  | nil => simp [occFL, allVarsL]
  | cons a l ihl =>
    simp only [occFL, allVarsL, List.append_eq_nil_iff, List.mem_append, not_or]
    rw [ih a (by simp), ihl (fun b hb => ih b (by simp [hb]))]

theorem occF_nil_iff (x : Nat) (f : Form) : ∀ path, occF x path f = [] ↔ x ∉ allVars f := by
  induction f using Form.ind with
  | pred p tys args =>
    intro path; simp only [occF, allVars]
    exact occTL_nil_iff (fun a _ => occT_nil_iff x a) path 0
  | top => intro path; simp [occF, allVars]
  | bot => intro path; simp [occF, allVars]
  | neg f ih => intro path; simp [occF, allVars, ih]
  | and fs ih => intro path; simp only [occF, allVars]; exact occFL_nil_iff ih path 0
  | or fs ih => intro path; simp only [occF, allVars]; exact occFL_nil_iff ih path 0
  | imp f g ihf ihg => intro path; simp [occF, allVars, ihf, ihg]
  | equ f g ihf ihg => intro path; simp [occF, allVars, ihf, ihg]
  | all vs f ih => intro path; simp [occF, allVars, ih]
  | ex vs f ih => intro path; simp [occF, allVars, ih]

/-- Paths collected in a list of terms lead, in the list with the variable replaced, to the new term. -/
theorem occTL_get {x : Nat} {t : Term} {l : List Term}
    (ih : ∀ a ∈ l, ∀ path, ∀ o ∈ occT x path a, ∃ q, o = path ++ q ∧
      getTerm (replT (.var x) t a).1 q = some t) (path : Path) (i : Nat) :
    ∀ o ∈ occTL x path i l, ∃ j q a, o = path ++ (i + j) :: q ∧ l[j]? = some a ∧
      getTerm (replT (.var x) t a).1 q = some t := by
  induction l generalizing i with
  | nil => intro o ho; simp [occTL] at ho
  | cons a l ihl =>
    intro o ho
    simp only [occTL, List.mem_append] at ho
    rcases ho with ho | ho
    · obtain ⟨q, rfl, hq⟩ := ih a (by simp) _ o ho
      exact ⟨0, q, a, by simp, by simp, hq⟩
    · obtain ⟨j, q, b, rfl, hb, hq⟩ := ihl (fun b hb => ih b (by simp [hb])) (i + 1) o ho
      exact ⟨j + 1, q, b, by simp; omega, by simpa using hb, hq⟩

theorem occT_get {x : Nat} {t : Term} (s : Term) (hx : x ∉ s.funs) :
    ∀ path, ∀ o ∈ occT x path s, ∃ q, o = path ++ q ∧
      getTerm (replT (.var x) t s).1 q = some t := by
  induction s using Term.ind with
  | var i =>
    intro path o ho
    simp only [occT] at ho
    split at ho
    · rename_i h; subst h
      simp only [List.mem_singleton] at ho; subst ho
      exact ⟨[], by simp, by simp [replT, Term.index, getTerm]⟩
    · simp at ho
  | mv i => intro path o ho; simp [occT] at ho
  | fn p tys args ih =>
    intro path o ho
    simp only [Term.funs, List.mem_cons, not_or, Term.mem_funsL, not_exists, not_and] at hx
    simp only [occT] at ho
    obtain ⟨j, q, a, rfl, ha, hq⟩ := occTL_get (t := t) (fun a ha => ih a ha (hx.2 a ha)) path 0 o ho
    refine ⟨(0 + j) :: q, rfl, ?_⟩
    rw [replT_fn_fst, if_neg hx.1]
    simp [getTerm, ha, hq]

theorem occFL_get {x : Nat} {t : Term} {l : List Form}
    (ih : ∀ a ∈ l, ∀ path, ∀ o ∈ occF x path a, ∃ q, o = path ++ q ∧
      getTermAux (Form.replaceTermByTerm (.var x) t a).1 q = some (some t)) (path : Path) (i : Nat) :
    ∀ o ∈ occFL x path i l, ∃ j q a, o = path ++ (i + j) :: q ∧ l[j]? = some a ∧
      getTermAux (Form.replaceTermByTerm (.var x) t a).1 q = some (some t) := by
  induction l generalizing i with
  | nil => intro o ho; simp [occFL] at ho
  | cons a l ihl =>
    intro o ho
    simp only [occFL, List.mem_append] at ho
    rcases ho with ho | ho
    · obtain ⟨q, rfl, hq⟩ := ih a (by simp) _ o ho
      exact ⟨0, q, a, by simp, by simp, hq⟩
    · obtain ⟨j, q, b, rfl, hb, hq⟩ := ihl (fun b hb => ih b (by simp [hb])) (i + 1) o ho
      exact ⟨j + 1, q, b, by simp; omega, by simpa using hb, hq⟩

theorem occF_get {x : Nat} {t : Term} (f : Form) (hx : x ∉ f.funs) :
    ∀ path, ∀ o ∈ occF x path f, ∃ q, o = path ++ q ∧
      getTermAux (Form.replaceTermByTerm (.var x) t f).1 q = some (some t) := by
  induction f using Form.ind with
  | pred p tys args =>
    intro path o ho
    simp only [Form.funs, Term.mem_funsL, not_exists, not_and] at hx
    simp only [occF] at ho
    obtain ⟨j, q, a, rfl, ha, hq⟩ := occTL_get (t := t) (fun a ha => occT_get a (hx a ha)) path 0 o ho
    refine ⟨(0 + j) :: q, rfl, ?_⟩
    simp [Form.replaceTermByTerm, replTL_fst, getTermAux, ha, hq]
  | top => intro path o ho; simp [occF] at ho
  | bot => intro path o ho; simp [occF] at ho
  | neg f ih =>
    intro path o ho
    obtain ⟨q, rfl, hq⟩ := ih hx _ o ho
    exact ⟨0 :: q, by simp, by simp [Form.replaceTermByTerm, getTermAux, hq]⟩
  | and fs ih =>
    intro path o ho
    simp only [Form.funs, Form.mem_funsL, not_exists, not_and] at hx
    obtain ⟨j, q, a, rfl, ha, hq⟩ := occFL_get (fun a ha => ih a ha (hx a ha)) path 0 o ho
    refine ⟨(0 + j) :: q, rfl, ?_⟩
    simp [Form.replaceTermByTerm, Form.replaceTermByTermL_fst, getTermAux, ha, hq]
  | or fs ih =>
    intro path o ho
    simp only [Form.funs, Form.mem_funsL, not_exists, not_and] at hx
    obtain ⟨j, q, a, rfl, ha, hq⟩ := occFL_get (fun a ha => ih a ha (hx a ha)) path 0 o ho
    refine ⟨(0 + j) :: q, rfl, ?_⟩
    simp [Form.replaceTermByTerm, Form.replaceTermByTermL_fst, getTermAux, ha, hq]
  | imp f g ihf ihg =>
    intro path o ho
    simp only [Form.funs, List.mem_append, not_or] at hx
    simp only [occF, List.mem_append] at ho
    rcases ho with ho | ho
    · obtain ⟨q, rfl, hq⟩ := ihf hx.1 _ o ho
      exact ⟨0 :: q, by simp, by simp [Form.replaceTermByTerm, getTermAux, hq]⟩
    · obtain ⟨q, rfl, hq⟩ := ihg hx.2 _ o ho
      exact ⟨1 :: q, by simp, by simp [Form.replaceTermByTerm, getTermAux, hq]⟩
  | equ f g ihf ihg =>
    intro path o ho
    simp only [Form.funs, List.mem_append, not_or] at hx
    simp only [occF, List.mem_append] at ho
    rcases ho with ho | ho
    · obtain ⟨q, rfl, hq⟩ := ihf hx.1 _ o ho
      exact ⟨0 :: q, by simp, by simp [Form.replaceTermByTerm, getTermAux, hq]⟩
    · obtain ⟨q, rfl, hq⟩ := ihg hx.2 _ o ho
      exact ⟨1 :: q, by simp, by simp [Form.replaceTermByTerm, getTermAux, hq]⟩
  | all vs f ih =>
    intro path o ho
    obtain ⟨q, rfl, hq⟩ := ih hx _ o ho
    exact ⟨0 :: q, by simp, by simp [Form.replaceTermByTerm, getTermAux, hq]⟩
  | ex vs f ih =>
    intro path o ho
    obtain ⟨q, rfl, hq⟩ := ih hx _ o ho
    exact ⟨0 :: q, by simp, by simp [Form.replaceTermByTerm, getTermAux, hq]⟩

theorem getTermLoop_const {form : Form} {t : Term} {os : List Path}
    (h : ∀ o ∈ os, getTermAux form o = some (some t)) : getTermLoop form (some t) os = some (some t) := by
  induction os with
  | nil => rfl
  | cons o os ih =>
    simp only [getTermLoop, h o (by simp), if_true]
    exact ih (fun o' ho' => h o' (by simp [ho']))

/-- The term read in the formula obtained by replacing a variable. -/
theorem resultTerm_replace {v : TVar} {t : Term} {bare : Form} (hx : v.index ∉ bare.funs) :
    resultTerm v bare (bare.replaceTermByTerm (.var v.index) t).1 =
      some (if v.index ∈ allVars bare then some t else none) := by
  have hg := occF_get (t := t) bare hx []
  have hn := occF_nil_iff v.index bare []
  unfold resultTerm getTermAt
  cases ho : occF v.index [] bare with
  | nil => rw [if_neg (hn.1 ho)]; rfl
  | cons o os =>
    rw [if_pos (Classical.byContradiction fun h => by rw [hn.2 h] at ho; cases ho)]
    have hall : ∀ o' ∈ o :: os, getTermAux (bare.replaceTermByTerm (.var v.index) t).1 o' = some (some t) := by
      intro o' ho'
      obtain ⟨q, rfl, hq⟩ := hg o' (by rw [ho]; exact ho')
      simpa using hq
    simp only [getTermLoop, hall o (by simp)]
    exact getTermLoop_const (fun o' ho' => hall o' (by simp [ho']))

/-! ## C66: the witness terms -/

/-- Specification: the first variable of a quantified or negated quantified formula. -/
def firstVar : Form → Option Nat
  | .all (v :: _) _ => some v.index
  | .ex (v :: _) _ => some v.index
  | .neg (.all (v :: _) _) => some v.index
  | .neg (.ex (v :: _) _) => some v.index
  | _ => none

theorem tail_quant (t : Term) (old : Term) (v : TVar) (vs : List TVar) (f : Form) :
    ((if (v :: vs).length > 1 then Form.all (v :: vs).tail f else f).replaceTermByTerm old t).1 =
      if vs.length > 0 then .all vs (f.replaceTermByTerm old t).1 else (f.replaceTermByTerm old t).1 := by
  cases vs <;> simp [Form.replaceTermByTerm]

theorem tail_quant' (t : Term) (old : Term) (v : TVar) (vs : List TVar) (f : Form) :
    ((if (v :: vs).length > 1 then Form.ex (v :: vs).tail f else f).replaceTermByTerm old t).1 =
      if vs.length > 0 then .ex vs (f.replaceTermByTerm old t).1 else (f.replaceTermByTerm old t).1 := by
  cases vs <;> simp [Form.replaceTermByTerm]

theorem allVars_nextForm (f : Form) : allVars (nextForm f) = allVars f := by
  induction f using Form.ind <;> simp_all [nextForm, allVars]
  all_goals (split <;> simp [allVars])

theorem funs_nextForm (f : Form) : (nextForm f).funs = f.funs := by
  induction f using Form.ind <;> simp_all [nextForm, Form.funs]
  all_goals (split <;> simp [Form.funs])

/-- The formula that a quantifier step with the term `t` generates: the first variable is removed and
replaced by `t` (this is what `instantiate` and `skolemize` do, see `instantiate_eq` and
`skolemize_eq`). -/
def stepResult (t : Term) (f : Form) : Form :=
  match firstVar f with
  | some x => ((nextForm f).replaceTermByTerm (.var x) t).1
  | none => f

theorem skolemize_eq {sk : Nat} {args : List Nat} {f r : Form}
    (h : Search.skolemize sk args f = some r) : r = stepResult (.fn sk [] (args.map .mv)) f := by
  unfold Search.skolemize at h
  split at h
  · simp only [Option.some.injEq] at h; subst h
    simp only [stepResult, firstVar, nextForm, Form.replaceTermByTerm, tail_quant, Search.skoFirst]
  · simp only [Option.some.injEq] at h; subst h
    simp only [stepResult, firstVar, nextForm, tail_quant', Search.skoFirst]
  · cases h

/-- Specification: the first quantifier of the formula ranges over terms. -/
def overTerms : Form → Bool
  | .all (v :: _) _ => !Search.isTType v.ty
  | .neg (.ex (v :: _) _) => !Search.isTType v.ty
  | _ => false

theorem instantiate_eq {m k : Nat} {f r : Form} (ht : overTerms f = true)
    (h : Search.instantiate m k f = some r) : r = stepResult (.mv m) f := by
  unfold Search.instantiate at h
  split at h
  · rename_i v vs g
    simp only [overTerms, Bool.not_eq_true'] at ht
    simp only [Option.some.injEq] at h; subst h
    simp only [stepResult, firstVar, nextForm, Form.replaceTermByTerm, tail_quant', Search.instFirst, ht,
      Form.substituteVarByMeta_eq]
    simp
  · rename_i v vs g
    simp only [overTerms, Bool.not_eq_true'] at ht
    simp only [Option.some.injEq] at h; subst h
    simp only [stepResult, firstVar, nextForm, tail_quant, Search.instFirst, ht,
      Form.substituteVarByMeta_eq]
    simp
  · cases h

/-- The gamma case, for any term. -/
theorem gammaTerm_stepResult {f : Form} {x : Nat} {t : Term}
    (hk : Search.showKind f = .gamma) (hv : firstVar f = some x) (hx : x ∉ f.funs) :
    gammaTerm f (stepResult t f) = some (if x ∈ allVars f then some t else none) := by
  rw [← funs_nextForm] at hx
  rw [← allVars_nextForm]
  unfold firstVar at hv
  split at hv
  all_goals first
    | (simp only [Option.some.injEq] at hv; subst hv
       first
        | (simp only [gammaTerm, stepResult, firstVar]; exact resultTerm_replace hx)
        | exact absurd hk (by simp [Search.showKind]))
    | cases hv

/-- The delta case, for any term. -/
theorem deltaTerm_stepResult {f : Form} {x : Nat} {t : Term}
    (hk : Search.showKind f = .delta) (hv : firstVar f = some x) (hx : x ∉ f.funs) :
    deltaTerm f (stepResult t f) = some (if x ∈ allVars f then some t else none) := by
  rw [← funs_nextForm] at hx
  rw [← allVars_nextForm]
  unfold firstVar at hv
  split at hv
  all_goals first
    | (simp only [Option.some.injEq] at hv; subst hv
       first
        | (simp only [deltaTerm, stepResult, firstVar]; exact resultTerm_replace hx)
        | exact absurd hk (by simp [Search.showKind]))
    | cases hv

theorem skolemize_kind {sk : Nat} {args : List Nat} {f r : Form}
    (h : Search.skolemize sk args f = some r) : Search.showKind f = .delta ∧ ∃ x, firstVar f = some x := by
  unfold Search.skolemize at h
  split at h
  · exact ⟨rfl, _, rfl⟩
  · exact ⟨rfl, _, rfl⟩
  · cases h

theorem instantiate_kind {m k : Nat} {f r : Form}
    (h : Search.instantiate m k f = some r) : Search.showKind f = .gamma ∧ ∃ x, firstVar f = some x := by
  unfold Search.instantiate at h
  split at h
  · exact ⟨rfl, _, rfl⟩
  · exact ⟨rfl, _, rfl⟩
  · cases h

/-- **C66, Skolem terms.** From a delta formula and the formula that Skolemisation makes of it, the
translation recovers exactly the Skolem term, and nil exactly when the quantified variable does not
occur; it never stops with the anomaly. -/
theorem C66_delta {sk : Nat} {args : List Nat} {f r : Form} {x : Nat}
    (h : Search.skolemize sk args f = some r) (hv : firstVar f = some x) (hx : x ∉ f.funs) :
    deltaTerm f r = some (if x ∈ allVars f then some (.fn sk [] (args.map .mv)) else none) := by
  rw [skolemize_eq h]
  exact deltaTerm_stepResult (skolemize_kind h).1 hv hx

/-- **C66, instances.** From a gamma formula over terms and the instance that the search makes of it,
the translation recovers exactly the metavariable, and nil exactly when the quantified variable does
not occur; it never stops with the anomaly. -/
theorem C66_gamma {m k : Nat} {f r : Form} {x : Nat} (ht : overTerms f = true)
    (h : Search.instantiate m k f = some r) (hv : firstVar f = some x) (hx : x ∉ f.funs) :
    gammaTerm f r = some (if x ∈ allVars f then some (.mv m) else none) := by
  rw [instantiate_eq ht h]
  exact gammaTerm_stepResult (instantiate_kind h).1 hv hx

/-- The full claim: also once the metavariable of the instance has been replaced by its value (as
the search does in the finished proof), the value is recovered. -/
def C66_statement : Prop :=
  ∀ (m k : Nat) (f r : Form) (x : Nat) (t : Term), overTerms f = true →
    Search.instantiate m k f = some r → firstVar f = some x → x ∉ f.funs → m ∉ f.metas →
    gammaTerm (f.replaceMetaByTerm m t) (r.replaceMetaByTerm m t) =
      some (if x ∈ allVars f then some t else none)

mutual
/-- Each argument of each atom contains the variable at most once. -/
def LinArgs (x : Nat) : Form → Prop
  | .pred _ _ args => ∀ a ∈ args, (Term.vars a).count x ≤ 1
  | .top => True
  | .bot => True
  | .neg f => LinArgs x f
  | .and fs => LinArgsL x fs
  | .or fs => LinArgsL x fs
  | .imp f g => LinArgs x f ∧ LinArgs x g
  | .equ f g => LinArgs x f ∧ LinArgs x g
  | .all _ f => LinArgs x f
  | .ex _ f => LinArgs x f
def LinArgsL (x : Nat) : List Form → Prop
  | [] => True
  | f :: fs => LinArgs x f ∧ LinArgsL x fs
end

theorem linArgsL_iff {x : Nat} {l : List Form} : LinArgsL x l ↔ ∀ f ∈ l, LinArgs x f := by
  induction l with
  | nil => simp [LinArgsL]
  | cons a l ih => simp [LinArgsL, ih]

theorem replT_absent {x : Nat} {u a : Term} (hv : x ∉ a.vars) (hf : x ∉ a.funs) (hu : u ≠ .var x) :
    (replT (.var x) u a).1 = a := by
  induction a using Term.ind with
  | var i => simp only [Term.vars, List.mem_singleton] at hv; rw [replT_var_fst, if_neg hv]
  | mv i => simp [replT, Ne.symm hu]
  | fn p tys args ih =>
    simp only [Term.funs, List.mem_cons, not_or, Term.mem_funsL, not_exists, not_and] at hf
    simp only [Term.vars, Term.mem_varsL, not_exists, not_and] at hv
    rw [replT_fn_fst, if_neg hf.1]
    congr 1
    calc _ = args.map id := List.map_congr_left (fun a ha => ih a ha (hv a ha) (hf.2 a ha))
      _ = args := by simp

theorem replaceFirst_absent {m : Nat} {t : Term} {l : List Term}
    (h : ∀ a ∈ l, Term.replaceSubTermBy (.mv m) t a = a) : Term.replaceFirst (.mv m) t l = l := by
  induction l with
  | nil => rfl
  | cons a l ih =>
    simp only [Term.replaceFirst, h a (by simp), if_true]
    rw [ih (fun b hb => h b (by simp [hb]))]

theorem replaceSub_absent {m : Nat} {t a : Term} (h : m ∉ a.metas) :
    Term.replaceSubTermBy (.mv m) t a = a := by
  induction a using Term.ind with
  | var i => simp [Term.replaceSubTermBy]
  | mv i =>
    simp only [Term.metas, List.mem_singleton] at h
    have : ¬ Term.mv i = .mv m := fun e => h (by injection e with e; exact e.symm)
    simp [Term.replaceSubTermBy, this]
  | fn p tys args ih =>
    simp only [Term.metas, Term.mem_metasL, not_exists, not_and] at h
    simp only [Term.replaceSubTermBy]
    rw [if_neg (by simp), replaceFirst_absent (fun a ha => ih a ha (h a ha))]

theorem replaceFirst_linear {x m : Nat} {t : Term} {l : List Term} (ht : t ≠ .var x)
    (ih : ∀ a ∈ l, (Term.vars a).count x ≤ 1 →
      Term.replaceSubTermBy (.mv m) t (replT (.var x) (.mv m) a).1 = (replT (.var x) t a).1)
    (hm : ∀ a ∈ l, m ∉ a.metas) (hf : ∀ a ∈ l, x ∉ a.funs) (hl : (Term.varsL l).count x ≤ 1) :
    Term.replaceFirst (.mv m) t (l.map fun a => (replT (.var x) (.mv m) a).1) =
      l.map fun a => (replT (.var x) t a).1 := by
  induction l with
  | nil => rfl
  | cons a l ihl =>
    simp only [Term.varsL, List.count_append] at hl
    have htail := ihl (fun b hb => ih b (by simp [hb])) (fun b hb => hm b (by simp [hb]))
      (fun b hb => hf b (by simp [hb])) (by omega)
    have hhead := ih a (by simp) (by omega)
    simp only [List.map_cons, Term.replaceFirst, hhead]
    split
    · rename_i h; rw [htail, h]
    · rename_i h
      have hxa : x ∈ a.vars := Classical.byContradiction fun hn => h (by
        rw [replT_absent hn (hf a (by simp)) (by simp), replT_absent hn (hf a (by simp)) ht])
      have h1 : 0 < (Term.vars a).count x := List.count_pos_iff.2 hxa
      have h0 : (Term.varsL l).count x = 0 := by omega
      have hno : ∀ b ∈ l, x ∉ b.vars := fun b hb hxb =>
        absurd (List.count_pos_iff.2 (Term.mem_varsL.2 ⟨b, hb, hxb⟩)) (by omega)
      congr 1
      apply List.map_congr_left
      intro b hb
      rw [replT_absent (hno b hb) (hf b (by simp [hb])) (by simp),
        replT_absent (hno b hb) (hf b (by simp [hb])) ht]

theorem replaceSub_linear {x m : Nat} {t a : Term} (ht : t ≠ .var x) (hm : m ∉ a.metas)
    (hf : x ∉ a.funs) (hl : (Term.vars a).count x ≤ 1) :
    Term.replaceSubTermBy (.mv m) t (replT (.var x) (.mv m) a).1 = (replT (.var x) t a).1 := by
  induction a using Term.ind with
  | var i =>
    rw [replT_var_fst, replT_var_fst]
    split
    · simp [Term.replaceSubTermBy]
    · simp [Term.replaceSubTermBy]
  | mv i =>
    simp only [Term.metas, List.mem_singleton] at hm
    have : ¬ Term.mv i = .mv m := fun e => hm (by injection e with e; exact e.symm)
    simp [replT, Ne.symm ht, Term.replaceSubTermBy, this]
  | fn p tys args ih =>
    simp only [Term.funs, List.mem_cons, not_or, Term.mem_funsL, not_exists, not_and] at hf
    simp only [Term.metas, Term.mem_metasL, not_exists, not_and] at hm
    simp only [Term.vars] at hl
    rw [replT_fn_fst, if_neg hf.1, replT_fn_fst, if_neg hf.1]
    simp only [Term.replaceSubTermBy]
    rw [if_neg (by simp)]
    congr 1
    exact replaceFirst_linear ht (fun a ha h => ih a ha (hm a ha) (hf.2 a ha) h) hm hf.2 hl

/-- Replacing the metavariable of an instance by its value gives the instance with the value, when no
argument of an atom contains the variable twice. -/
theorem replaceMeta_linear {x m : Nat} {t : Term} {f : Form} (ht : t ≠ .var x) (hm : m ∉ f.metas)
    (hf : x ∉ f.funs) (hl : LinArgs x f) :
    (f.replaceTermByTerm (.var x) (.mv m)).1.replaceMetaByTerm m t =
      (f.replaceTermByTerm (.var x) t).1 := by
  induction f using Form.ind with
  | pred p tys args =>
    simp only [Form.funs, Term.mem_funsL, not_exists, not_and] at hf
    simp only [Form.metas, Term.mem_metasL, not_exists, not_and] at hm
    simp only [Form.replaceTermByTerm, Form.replaceMetaByTerm, replTL_fst, List.map_map]
    congr 1
    apply List.map_congr_left
    intro a ha
    exact replaceSub_linear ht (hm a ha) (hf a ha) (hl a ha)
  | top => rfl
  | bot => rfl
  | neg f ih => simp only [Form.replaceTermByTerm, Form.replaceMetaByTerm, ih hm hf hl]
  | and fs ih =>
    simp only [Form.funs, Form.mem_funsL, not_exists, not_and] at hf
    simp only [Form.metas, Form.mem_metasL, not_exists, not_and] at hm
    simp only [LinArgs, linArgsL_iff] at hl
    simp only [Form.replaceTermByTerm, Form.replaceMetaByTerm, Form.replaceTermByTermL_fst,
      Form.replaceMetaByTermL_eq, List.map_map]
    congr 1
    exact List.map_congr_left (fun a ha => ih a ha (hm a ha) (hf a ha) (hl a ha))
  | or fs ih =>
    simp only [Form.funs, Form.mem_funsL, not_exists, not_and] at hf
    simp only [Form.metas, Form.mem_metasL, not_exists, not_and] at hm
    simp only [LinArgs, linArgsL_iff] at hl
    simp only [Form.replaceTermByTerm, Form.replaceMetaByTerm, Form.replaceTermByTermL_fst,
      Form.replaceMetaByTermL_eq, List.map_map]
    congr 1
    exact List.map_congr_left (fun a ha => ih a ha (hm a ha) (hf a ha) (hl a ha))
  | imp f g ihf ihg =>
    simp only [Form.funs, Form.metas, List.mem_append, not_or] at hf hm
    simp only [Form.replaceTermByTerm, Form.replaceMetaByTerm, ihf hm.1 hf.1 hl.1, ihg hm.2 hf.2 hl.2]
  | equ f g ihf ihg =>
    simp only [Form.funs, Form.metas, List.mem_append, not_or] at hf hm
    simp only [Form.replaceTermByTerm, Form.replaceMetaByTerm, ihf hm.1 hf.1 hl.1, ihg hm.2 hf.2 hl.2]
  | all vs f ih => simp only [Form.replaceTermByTerm, Form.replaceMetaByTerm, ih hm hf hl]
  | ex vs f ih => simp only [Form.replaceTermByTerm, Form.replaceMetaByTerm, ih hm hf hl]

theorem replaceMeta_absent {m : Nat} {t : Term} {f : Form} (hm : m ∉ f.metas) :
    f.replaceMetaByTerm m t = f := by
  induction f using Form.ind with
  | pred p tys args =>
    simp only [Form.metas, Term.mem_metasL, not_exists, not_and] at hm
    simp only [Form.replaceMetaByTerm]
    congr 1
    calc _ = args.map id := List.map_congr_left (fun a ha => replaceSub_absent (hm a ha))
      _ = args := by simp
  | top => rfl
  | bot => rfl
  | neg f ih => simp only [Form.replaceMetaByTerm, ih hm]
  | and fs ih =>
    simp only [Form.metas, Form.mem_metasL, not_exists, not_and] at hm
    simp only [Form.replaceMetaByTerm, Form.replaceMetaByTermL_eq]
    congr 1
    calc _ = fs.map id := List.map_congr_left (fun a ha => ih a ha (hm a ha))
      _ = fs := by simp
  | or fs ih =>
    simp only [Form.metas, Form.mem_metasL, not_exists, not_and] at hm
    simp only [Form.replaceMetaByTerm, Form.replaceMetaByTermL_eq]
    congr 1
    calc _ = fs.map id := List.map_congr_left (fun a ha => ih a ha (hm a ha))
      _ = fs := by simp
  | imp f g ihf ihg =>
    simp only [Form.metas, List.mem_append, not_or] at hm
    simp only [Form.replaceMetaByTerm, ihf hm.1, ihg hm.2]
  | equ f g ihf ihg =>
    simp only [Form.metas, List.mem_append, not_or] at hm
    simp only [Form.replaceMetaByTerm, ihf hm.1, ihg hm.2]
  | all vs f ih => simp only [Form.replaceMetaByTerm, ih hm]
  | ex vs f ih => simp only [Form.replaceMetaByTerm, ih hm]

theorem metas_nextForm (f : Form) : (nextForm f).metas = f.metas := by
  induction f using Form.ind <;> simp_all [nextForm, Form.metas]
  all_goals (split <;> simp [Form.metas])

theorem linArgs_nextForm {x : Nat} (f : Form) : LinArgs x (nextForm f) ↔ LinArgs x f := by
  induction f using Form.ind <;> simp_all [nextForm, LinArgs]
  all_goals (split <;> simp [LinArgs])

/-- **C66 (partial).** When no argument of an atom contains the quantified variable twice, the value
of the metavariable is recovered. Missing: arguments with two occurrences, where the replacement of
the metavariable stops after the first one (C14). -/
theorem C66_witness_partial {m k : Nat} {f r : Form} {x : Nat} {t : Term} (ht : overTerms f = true)
    (h : Search.instantiate m k f = some r) (hv : firstVar f = some x) (hx : x ∉ f.funs)
    (hm : m ∉ f.metas) (htx : t ≠ .var x) (hl : LinArgs x f) :
    gammaTerm (f.replaceMetaByTerm m t) (r.replaceMetaByTerm m t) =
      some (if x ∈ allVars f then some t else none) := by
  rw [replaceMeta_absent hm, instantiate_eq ht h]
  have : (stepResult (.mv m) f).replaceMetaByTerm m t = stepResult t f := by
    simp only [stepResult, hv]
    exact replaceMeta_linear htx (by rwa [metas_nextForm]) (by rwa [funs_nextForm])
      ((linArgs_nextForm f).2 hl)
  rw [this]
  exact gammaTerm_stepResult (instantiate_kind h).1 hv hx

/-- `∀x p(f(x), x)`, whose instance with `X := a` gives back `a`. -/
example :
    let f : Form := .all [⟨"x", 7, .constr "$i" []⟩] (.pred 1 [] [.fn 2 [] [.var 7], .var 7])
    Search.instantiate 20 0 f = some (.pred 1 [] [.fn 2 [] [.mv 20], .mv 20]) ∧
    gammaTerm f ((Form.pred 1 [] [.fn 2 [] [.mv 20], .mv 20]).replaceMetaByTerm 20 (.fn 3 [] [])) =
      some (some (.fn 3 [] [])) := by decide +kernel

/-- `∃x q`, where the variable does not occur. -/
example : deltaTerm (.ex [⟨"x", 7, .constr "$i" []⟩] (.pred 1 [] [])) (.pred 1 [] []) = some none := by
  decide +kernel

/-- A formula whose variable occurs twice in one argument of an atom: `∀x p(f(x, x))`. -/
def twice : Form := .all [⟨"x", 7, .constr "$i" []⟩] (.pred 1 [] [.fn 2 [] [.var 7, .var 7]])

/-- **C66 fails** for `∀x p(f(x, x))` instantiated with `a`: the finished proof contains `p(f(a, X))`,
and the translation stops with the anomaly "The same variable is instanciated as two different
terms". -/
theorem C66_violated :
    Search.instantiate 20 0 twice = some (.pred 1 [] [.fn 2 [] [.mv 20, .mv 20]]) ∧
    gammaTerm (twice.replaceMetaByTerm 20 (.fn 3 [] []))
      ((Form.pred 1 [] [.fn 2 [] [.mv 20, .mv 20]]).replaceMetaByTerm 20 (.fn 3 [] [])) = none := by
  decide +kernel

theorem C66_statement_false : ¬ C66_statement := fun h => by
  have := h 20 0 twice _ 7 (.fn 3 [] []) (by decide +kernel) C66_violated.1 rfl (by decide +kernel)
    (by decide +kernel)
  rw [C66_violated.2] at this
  cases this

end Verif.Gs3
