import Verif.Unif.Term

/-!
# Congruence closure of the SAT-based equality module (`src/Mods/equality/sateq`)

The heap of equivalence classes is represented by the map to representatives and the sizes; that looking up a representative is such a
map, that it is not changed by lookups and changed by `merge` as written here is C40 (`Verif.Equality.UnionFind`).
Term records are pointers; each has its own class, so that two records are the same object exactly when they are equal.
The index `partitionIndex` is left out: it is only read when the SAT problem is built (`Verif.Equality.SatBuild`). Type arguments are not recorded by the code either
(`funTermRecord`, src/Mods/equality/sateq/termrep.go:127-135).
-/

namespace Verif.Equality
open Verif.Unif

/-- `termRecord` of a function term (src/Mods/equality/sateq/termrep.go:137-144). -/
structure Rec where
  sym : Nat
  args : List Nat
  cls : Nat
deriving DecidableEq

/-- The classes on the heap: representative, size of the class of a root, number of the next class. -/
structure Heap where
  rep : Nat → Nat
  size : Nat → Nat
  next : Nat

/-- `Problem` (src/Mods/equality/sateq/problem.go:44-52). -/
structure Pb where
  funs : List Rec
  metas : List (Nat × Nat)
  super : Nat → Option (List Rec)
  goals : List (List (Nat × Nat))

/-- A problem and the heap. -/
structure St where
  h : Heap
  p : Pb

def Heap.empty : Heap := ⟨id, fun _ => 1, 0⟩

/-- `NewProblem` (src/Mods/equality/sateq/problem.go:54-65). -/
def Pb.new : Pb := ⟨[], [], fun _ => none, []⟩

/-- The loop over the arguments in `termRecord.congruent` (src/Mods/equality/sateq/termrep.go:162-168); `none` is the panic of an
index out of range. Further arguments of the second record are not looked at. -/
def argsCongruent (rep : Nat → Nat) : List Nat → List Nat → Option Bool
  | [], _ => some true
  | _ :: _, [] => none
  | a :: l, b :: m => if rep a = rep b then argsCongruent rep l m else some false

/-- `termRecord.congruent` for function terms (src/Mods/equality/sateq/termrep.go:157-170). -/
def recCongruent (rep : Nat → Nat) (t t2 : Rec) : Option Bool :=
  if t.sym ≠ t2.sym then some false else argsCongruent rep t.args t2.args

/-- The search for a congruent record (src/Mods/equality/sateq/problem.go:122-128). The records with another symbol are in other
lists of `functionsIndex`. -/
def findCongruent (rep : Nat → Nat) (t : Rec) : List Rec → Option (Option Rec)
  | [] => some none
  | t2 :: l =>
    if t2.sym = t.sym then
      (recCongruent rep t t2).bind fun b => if b then some (some t2) else findCongruent rep t l
    else findCongruent rep t l

/-- `addNewTermRecord` for a function term (src/Mods/equality/sateq/problem.go:137-153). -/
def addFun (st : St) (t : Rec) : St :=
  { st with p := { st.p with
      funs := st.p.funs ++ [t]
      super := fun c => if c = st.h.rep t.cls then some [t] else st.p.super c } }

/-- `addNewTermRecord` for a metavariable (src/Mods/equality/sateq/problem.go:137-153). -/
def addMeta (st : St) (i c : Nat) : St :=
  { st with p := { st.p with
      metas := (i, c) :: st.p.metas
      super := fun x => if x = st.h.rep c then some [] else st.p.super x } }

/-- `makeEqClass` (src/Mods/equality/sateq/termrep.go:111-117). -/
def newClass (st : St) : Nat × St :=
  (st.h.next, { st with h := { st.h with next := st.h.next + 1, size := fun c => if c = st.h.next then 1 else st.h.size c } })

mutual
/-- `getEquivalenceClass` (src/Mods/equality/sateq/problem.go:107-135). -/
def getClass : UT → St → Option (Nat × St)
  | .mv i, st =>
    match st.p.metas.find? (fun e => e.1 == i) with
    | some e => some (e.2, st)
    | none => let r := newClass st; some (r.2.h.rep r.1, addMeta r.2 i r.1)
  | .fn f args, st =>
    (getClassL args st).bind fun r =>
      let n := newClass r.2
      let t : Rec := ⟨f, r.1, n.1⟩
      (findCongruent n.2.h.rep t n.2.p.funs).bind fun
        | some t2 => some (t2.cls, n.2)
        | none => some (n.2.h.rep n.1, addFun n.2 t)
def getClassL : List UT → St → Option (List Nat × St)
  | [], st => some ([], st)
  | a :: l, st => (getClass a st).bind fun r => (getClassL l r.2).bind fun r2 => some (r.1 :: r2.1, r2.2)
end

/-- `AppendIfNotContains` (src/Glob/list.go:282-291) for term records. -/
def appendNew (l : List Rec) : List Rec → List Rec
  | [] => l
  | t :: m => if t ∈ l then appendNew l m else appendNew (l ++ [t]) m

/-- `mergeEquivalenceClasses` (src/Mods/equality/sateq/problem.go:155-186). `none`: a missing entry of the map is used, an index is out of
range, or the recursion is deeper than the first argument. -/
def mergeClasses : Nat → St → Nat → Nat → Option St
  | 0, _, _, _ => none
  | k + 1, st, a, b =>
    if st.h.rep a = st.h.rep b then some st
    else
      let m := if st.h.size (st.h.rep a) < st.h.size (st.h.rep b) then st.h.rep b else st.h.rep a
      let d := if st.h.size (st.h.rep a) < st.h.size (st.h.rep b) then st.h.rep a else st.h.rep b
      (st.p.super m).bind fun sm => (st.p.super d).bind fun sd =>
        let l := appendNew sm sd
        let h : Heap := { st.h with
          rep := fun c => if st.h.rep c = d then m else st.h.rep c
          size := fun c => if c = m then st.h.size m + st.h.size d else st.h.size c }
        let p : Pb := { st.p with super := fun c => if c = d then none else if c = m then some l else st.p.super c }
        l.foldlM (fun st t3 =>
          (st.p.super m).bind fun l4 => l4.foldlM (fun st t4 =>
            if st.h.rep t3.cls = st.h.rep t4.cls then some st
            else (recCongruent st.h.rep t3 t4).bind fun c => if c then mergeClasses k st t3.cls t4.cls else some st) st) ⟨h, p⟩

/-- `AddAssumption` (src/Mods/equality/sateq/problem.go:188-190). -/
def addAssumption (k : Nat) (st : St) (e : UT × UT) : Option St :=
  (getClass e.1 st).bind fun r1 => (getClass e.2 r1.2).bind fun r2 => mergeClasses k r2.2 r1.1 r2.1

/-- The pairs of `AddGoal` (src/Mods/equality/sateq/problem.go:195-197). Duplicates, which the code drops, are kept. -/
def goalPairs : List (UT × UT) → St → Option (List (Nat × Nat) × St)
  | [], st => some ([], st)
  | e :: l, st => (getClass e.1 st).bind fun r1 => (getClass e.2 r1.2).bind fun r2 =>
      (goalPairs l r2.2).bind fun r3 => some ((r1.1, r2.1) :: r3.1, r3.2)

/-- `AddGoal` (src/Mods/equality/sateq/problem.go:192-200). -/
def addGoal (st : St) (g : List (UT × UT)) : Option St :=
  (goalPairs g st).bind fun r => some { r.2 with p := { r.2.p with goals := r.2.p.goals ++ [r.1] } }

/-- `HasTrivialGoals` and `isTrivialGoal` (src/Mods/equality/sateq/problem.go:202-218). -/
def hasTrivialGoals (st : St) : Bool := st.p.goals.any fun g => g.all fun p => decide (st.h.rep p.1 = st.h.rep p.2)

/-- `format` followed by `HasTrivialGoals` (src/Mods/equality/sateq/problem.go:67-79, 224-228): the answer on a ground problem. -/
def answer (k : Nat) (E : List (UT × UT)) (gs : List (List (UT × UT))) : Option Bool :=
  (E.foldlM (addAssumption k) ⟨Heap.empty, Pb.new⟩).bind fun st => (gs.foldlM addGoal st).bind fun st => some (hasTrivialGoals st)

/-! ### Specification -/

/-- The equations entail an equation: it holds in every interpretation in which they hold. -/
def Entails (E : List (UT × UT)) (s t : UT) : Prop :=
  ∀ (D : Type) (A : Alg D) (σ : Nat → D), (∀ e ∈ E, e.1.eval A σ = e.2.eval A σ) → s.eval A σ = t.eval A σ

/-- Some goal is entailed. -/
def Solvable (E : List (UT × UT)) (gs : List (List (UT × UT))) : Prop := ∃ g ∈ gs, ∀ e ∈ g, Entails E e.1 e.2

def PairAr (ar : Nat → Nat) (e : UT × UT) : Prop := e.1.Ar ar ∧ e.2.Ar ar

/-- The full property. -/
def C39_statement : Prop := ∀ (ar : Nat → Nat) (E : List (UT × UT)) (gs : List (List (UT × UT))),
  (∀ e ∈ E, PairAr ar e) → (∀ g ∈ gs, ∀ e ∈ g, PairAr ar e) → ∃ k b, answer k E gs = some b ∧ (b = true ↔ Solvable E gs)

/-! ### Invariants -/

structure WF (ar : Nat → Nat) (st : St) : Prop where
  idem : ∀ c, st.h.rep (st.h.rep c) = st.h.rep c
  lt : ∀ c, c < st.h.next → st.h.rep c < st.h.next
  fresh : ∀ c, st.h.next ≤ c → st.h.rep c = c
  cls : ∀ r ∈ st.p.funs, r.cls < st.h.next
  args : ∀ r ∈ st.p.funs, ∀ a ∈ r.args, a < st.h.next
  arity : ∀ r ∈ st.p.funs, r.args.length = ar r.sym
  metas : ∀ e ∈ st.p.metas, e.2 < st.h.next
  uniq : ∀ e ∈ st.p.metas, ∀ e' ∈ st.p.metas, e.1 = e'.1 → e.2 = e'.2
  sup : ∀ r l, st.p.super r = some l → ∀ t ∈ l, st.h.rep t.cls = r ∧ t ∈ st.p.funs
  supF : ∀ r ∈ st.p.funs, (st.p.super (st.h.rep r.cls)).isSome
  supM : ∀ e ∈ st.p.metas, (st.p.super (st.h.rep e.2)).isSome

/-- A class that terms of the problem belong to. -/
def Known (st : St) (c : Nat) : Prop := c < st.h.next ∧ (st.p.super (st.h.rep c)).isSome

/-- The values of the classes in an interpretation. -/
structure Good {D : Type} (A : Alg D) (σ : Nat → D) (val : Nat → D) (st : St) : Prop where
  rep : ∀ c, val (st.h.rep c) = val c
  funs : ∀ r ∈ st.p.funs, val r.cls = A r.sym (r.args.map val)
  metas : ∀ e ∈ st.p.metas, val e.2 = σ e.1

mutual
/-- A class represents a term. -/
def Has (st : St) : UT → Nat → Prop
  | .mv i, c => ∃ c', (i, c') ∈ st.p.metas ∧ st.h.rep c = st.h.rep c'
  | .fn f args, c => ∃ r ∈ st.p.funs, r.sym = f ∧ HasL st args r.args ∧ st.h.rep c = st.h.rep r.cls
def HasL (st : St) : List UT → List Nat → Prop
  | [], [] => True
  | t :: l, c :: m => Has st t c ∧ HasL st l m
  | _, _ => False
end

/-- Congruent records are in the same class. -/
def Closed (st : St) : Prop := ∀ r ∈ st.p.funs, ∀ r' ∈ st.p.funs, r.sym = r'.sym → r.args.map st.h.rep = r'.args.map st.h.rep →
  st.h.rep r.cls = st.h.rep r'.cls

/-- What later states keep. -/
structure Le (st st' : St) : Prop where
  rep : ∀ a b, st.h.rep a = st.h.rep b → st'.h.rep a = st'.h.rep b
  funs : ∀ r ∈ st.p.funs, r ∈ st'.p.funs
  metas : ∀ e ∈ st.p.metas, e ∈ st'.p.metas

theorem Le.refl (st : St) : Le st st := ⟨fun _ _ h => h, fun _ h => h, fun _ h => h⟩

theorem Le.trans {a b c : St} (h1 : Le a b) (h2 : Le b c) : Le a c :=
  ⟨fun _ _ h => h2.rep _ _ (h1.rep _ _ h), fun _ h => h2.funs _ (h1.funs _ h), fun _ h => h2.metas _ (h1.metas _ h)⟩

theorem hasL_mono {st st' : St} (ts : List UT) (h : ∀ t ∈ ts, ∀ c, Has st t c → Has st' t c) (cs : List Nat)
    (hh : HasL st ts cs) : HasL st' ts cs := by
  induction ts generalizing cs with
  | nil => cases cs <;> simp_all [HasL]
  | cons t ts ih =>
    cases cs with
    | nil => simp [HasL] at hh
    | cons c cs =>
      simp only [HasL] at hh ⊢
      exact ⟨h t (by simp) c hh.1, ih (fun t ht => h t (by simp [ht])) cs hh.2⟩

theorem Has.mono {st st' : St} (hle : Le st st') (t : UT) : ∀ c, Has st t c → Has st' t c := by
  induction t using UT.ind with
  | mv i =>
    rintro c h
    simp only [Has] at h ⊢
    obtain ⟨c', h1, h2⟩ := h
    exact ⟨c', hle.metas _ h1, hle.rep _ _ h2⟩
  | fn f args ih =>
    intro c h
    simp only [Has] at h ⊢
    obtain ⟨r, h1, h2, h3, h4⟩ := h
    exact ⟨r, hle.funs _ h1, h2, hasL_mono args ih _ h3, hle.rep _ _ h4⟩

theorem Has.congr {st : St} {t : UT} {c c' : Nat} (h : Has st t c) (e : st.h.rep c = st.h.rep c') : Has st t c' := by
  cases t with
  | mv i =>
    simp only [Has] at h ⊢
    obtain ⟨x, h1, h2⟩ := h
    exact ⟨x, h1, e ▸ h2⟩
  | fn f args =>
    simp only [Has] at h ⊢
    obtain ⟨r, h1, h2, h3, h4⟩ := h
    exact ⟨r, h1, h2, h3, e ▸ h4⟩

theorem HasL.congr {st : St} (ts : List UT) (cs ds : List Nat) (h : HasL st ts cs) (e : cs.map st.h.rep = ds.map st.h.rep) :
    HasL st ts ds := by
  induction ts generalizing cs ds with
  | nil => cases cs <;> cases ds <;> simp_all [HasL]
  | cons t ts ih =>
    cases cs with
    | nil => simp [HasL] at h
    | cons c cs =>
      cases ds with
      | nil => simp at e
      | cons d ds =>
        simp only [List.map_cons, List.cons.injEq] at e
        simp only [HasL] at h ⊢
        exact ⟨h.1.congr e.1, ih cs ds h.2 e.2⟩

/-! ### Searching for a congruent record -/

theorem argsCongruent_spec (rep : Nat → Nat) (l m : List Nat) (h : l.length = m.length) :
    argsCongruent rep l m = some (decide (l.map rep = m.map rep)) := by
  induction l generalizing m with
  | nil => cases m <;> simp_all [argsCongruent]
  | cons a l ih =>
    cases m with
    | nil => simp at h
    | cons b m =>
      simp only [argsCongruent]
      split
      · rename_i e
        rw [ih m (by simpa using h)]
        simp [e]
      · rename_i e
        simp [e]

theorem findCongruent_spec (rep : Nat → Nat) (t : Rec) (l : List Rec)
    (h : ∀ r ∈ l, r.sym = t.sym → t.args.length = r.args.length) :
    (∃ r ∈ l, findCongruent rep t l = some (some r) ∧ r.sym = t.sym ∧ t.args.map rep = r.args.map rep) ∨
    (findCongruent rep t l = some none ∧ ∀ r ∈ l, r.sym = t.sym → t.args.map rep ≠ r.args.map rep) := by
  induction l with
  | nil => exact Or.inr ⟨rfl, by simp⟩
  | cons r l ih =>
    have ih := ih (fun r hr => h r (by simp [hr]))
    have lift : findCongruent rep t (r :: l) = findCongruent rep t l →
        (r.sym = t.sym → t.args.map rep ≠ r.args.map rep) →
        (∃ r' ∈ r :: l, findCongruent rep t (r :: l) = some (some r') ∧ r'.sym = t.sym ∧ t.args.map rep = r'.args.map rep) ∨
        (findCongruent rep t (r :: l) = some none ∧ ∀ r' ∈ r :: l, r'.sym = t.sym → t.args.map rep ≠ r'.args.map rep) := by
      intro e hne
      rw [e]
      rcases ih with ⟨r', h1, h2⟩ | ⟨h1, h2⟩
      · exact Or.inl ⟨r', by simp [h1], h2⟩
      · refine Or.inr ⟨h1, fun r' hr' => ?_⟩
        rcases List.mem_cons.1 hr' with rfl | hr'
        · exact hne
        · exact h2 r' hr'
    by_cases hs : r.sym = t.sym
    · have hc : recCongruent rep t r = some (decide (t.args.map rep = r.args.map rep)) := by
        simp only [recCongruent, hs, ne_eq, not_true, if_false]
        exact argsCongruent_spec rep _ _ (h r (by simp) hs)
      by_cases he : t.args.map rep = r.args.map rep
      · exact Or.inl ⟨r, by simp, by simp [findCongruent, hs, hc, he], hs, he⟩
      · exact lift (by simp [findCongruent, hs, hc, he]) (fun _ => he)
    · exact lift (by simp [findCongruent, hs]) (fun h => absurd h hs)

/-! ### Looking up the class of a term -/

theorem wf_newClass {ar : Nat → Nat} {st : St} (h : WF ar st) : WF ar (newClass st).2 :=
  ⟨h.idem, fun c hc => by
      simp only [newClass] at hc ⊢
      by_cases hc' : c < st.h.next
      · have := h.lt c hc'; omega
      · rw [h.fresh c (by omega)]; exact hc,
    fun c hc => h.fresh c (by simp only [newClass] at hc; omega),
    fun r hr => Nat.lt_succ_of_lt (h.cls r hr), fun r hr a ha => Nat.lt_succ_of_lt (h.args r hr a ha), h.arity,
    fun e he => Nat.lt_succ_of_lt (h.metas e he), h.uniq, h.sup, h.supF, h.supM⟩

/-- What is known after a lookup. -/
structure Looked (ar : Nat → Nat) (st st' : St) : Prop where
  wf : WF ar st'
  rep : st'.h.rep = st.h.rep
  next : st.h.next ≤ st'.h.next
  funs : ∀ r ∈ st.p.funs, r ∈ st'.p.funs
  metas : ∀ e ∈ st.p.metas, e ∈ st'.p.metas
  goals : st'.p.goals = st.p.goals
  known : ∀ c, Known st c → Known st' c
  closed : Closed st → Closed st'

theorem Looked.le {ar : Nat → Nat} {st st' : St} (h : Looked ar st st') : Le st st' :=
  ⟨fun _ _ e => by rw [h.rep]; exact e, h.funs, h.metas⟩

theorem Looked.trans {ar : Nat → Nat} {a b c : St} (h1 : Looked ar a b) (h2 : Looked ar b c) : Looked ar a c :=
  ⟨h2.wf, h2.rep.trans h1.rep, Nat.le_trans h1.next h2.next, fun _ h => h2.funs _ (h1.funs _ h),
    fun _ h => h2.metas _ (h1.metas _ h), h2.goals.trans h1.goals, fun _ h => h2.known _ (h1.known _ h), fun h => h2.closed (h1.closed h)⟩

theorem Looked.refl {ar : Nat → Nat} {st : St} (h : WF ar st) : Looked ar st st :=
  ⟨h, rfl, Nat.le_refl _, fun _ h => h, fun _ h => h, rfl, fun _ h => h, fun h => h⟩

/-- In every interpretation, the values of the new classes can be chosen. -/
def Extends (st st' : St) (ts : List UT) (cs : List Nat) : Prop :=
  ∀ (D : Type) (A : Alg D) (σ : Nat → D) (val : Nat → D), Good A σ val st →
    ∃ val', Good A σ val' st' ∧ (∀ c < st.h.next, val' c = val c) ∧ cs.map val' = ts.map (UT.eval A σ)

theorem looked_newClass {ar : Nat → Nat} {st : St} (h : WF ar st) : Looked ar st (newClass st).2 :=
  ⟨wf_newClass h, rfl, Nat.le_succ _, fun _ h => h, fun _ h => h, rfl, fun _ hc => ⟨Nat.lt_succ_of_lt hc.1, hc.2⟩, fun h => h⟩

theorem getClass_mv (ar : Nat → Nat) (i : Nat) (st : St) (h : WF ar st) :
    ∃ c st', getClass (.mv i) st = some (c, st') ∧ Looked ar st st' ∧ Known st' c ∧ Has st' (.mv i) c ∧ Extends st st' [.mv i] [c] := by
  simp only [getClass]
  split
  · rename_i e he
    have hm := List.mem_of_find?_eq_some he
    have hi : e.1 = i := by simpa using List.find?_some he
    refine ⟨e.2, st, rfl, Looked.refl h, ⟨h.metas e hm, h.supM e hm⟩, ?_, ?_⟩
    · simp only [Has]
      exact ⟨e.2, by rw [← hi]; exact hm, rfl⟩
    · intro D A σ val hg
      exact ⟨val, hg, fun _ _ => rfl, by simp [UT.eval, hg.metas e hm, hi]⟩
  · rename_i hn
    have hw := wf_newClass h
    have hf : st.h.rep st.h.next = st.h.next := h.fresh _ (Nat.le_refl _)
    have hno : ∀ e ∈ st.p.metas, e.1 ≠ i := by
      intro e he hi
      have := List.find?_eq_none.1 hn e he
      simp [hi] at this
    refine ⟨_, _, rfl, ?_, ?_, ?_, ?_⟩
    · refine ⟨⟨hw.idem, hw.lt, hw.fresh, hw.cls, hw.args, hw.arity, ?_, ?_, ?_, ?_, ?_⟩, rfl, Nat.le_succ _, fun _ h => h,
        fun e he => List.mem_cons_of_mem _ he, rfl, ?_, fun h => h⟩
      · intro e he
        rcases List.mem_cons.1 he with rfl | he
        · simp [newClass, addMeta]
        · exact hw.metas e he
      · intro e he e' he' hee
        rcases List.mem_cons.1 he with rfl | he <;> rcases List.mem_cons.1 he' with rfl | he'
        · rfl
        · exact absurd hee.symm (hno e' he')
        · exact absurd hee (hno e he)
        · exact h.uniq e he e' he' hee
      · intro r l hr t ht
        simp only [addMeta, newClass, hf] at hr
        split at hr
        · cases hr; cases ht
        · exact h.sup r l hr t ht
      · intro r hr
        simp only [addMeta, newClass, hf]
        split
        · rfl
        · exact h.supF r hr
      · intro e he
        simp only [addMeta, newClass, hf]
        split
        · rfl
        · rename_i hne
          rcases List.mem_cons.1 he with rfl | he
          · simp [newClass, hf] at hne
          · exact h.supM e he
      · intro c hc
        refine ⟨Nat.lt_succ_of_lt hc.1, ?_⟩
        show ((if st.h.rep c = st.h.rep st.h.next then some [] else st.p.super (st.h.rep c)) : Option (List Rec)).isSome = true
        split
        · rfl
        · exact hc.2
    · refine ⟨?_, ?_⟩
      · simp [newClass, addMeta, hf]
      · simp [newClass, addMeta, hf]
    · simp only [Has]
      exact ⟨st.h.next, by simp [addMeta, newClass], by simp [addMeta, newClass, hf]⟩
    · intro D A σ val hg
      refine ⟨fun c => if c = st.h.next then σ i else val c, ⟨?_, ?_, ?_⟩, ?_, ?_⟩
      · intro c
        show (if st.h.rep c = st.h.next then σ i else val (st.h.rep c)) = (if c = st.h.next then σ i else val c)
        by_cases hc : c = st.h.next
        · simp [hc, hf]
        · rw [if_neg hc]
          by_cases hc' : c < st.h.next
          · have := h.lt c hc'
            rw [if_neg (by omega)]; exact hg.rep c
          · rw [h.fresh c (by omega), if_neg hc]
      · intro r hr
        have h1 := h.cls r hr
        have h2 := h.args r hr
        show (if r.cls = st.h.next then σ i else val r.cls) = A r.sym (r.args.map fun c => if c = st.h.next then σ i else val c)
        rw [if_neg (by omega), hg.funs r hr]
        congr 1
        refine List.map_congr_left fun a ha => ?_
        have := h2 a ha
        rw [if_neg (by omega)]
      · intro e he
        rcases List.mem_cons.1 he with rfl | he
        · simp [newClass]
        · have := h.metas e he
          show (if e.2 = st.h.next then σ i else val e.2) = σ e.1
          rw [if_neg (by omega)]
          exact hg.metas e he
      · intro c hc
        simp only
        rw [if_neg (by omega)]
      · simp [newClass, hf, UT.eval]

theorem getClassL_spec (ar : Nat → Nat) (ts : List UT)
    (ih : ∀ t ∈ ts, ∀ st, t.Ar ar → WF ar st → ∃ c st', getClass t st = some (c, st') ∧ Looked ar st st' ∧ Known st' c ∧ Has st' t c ∧
      Extends st st' [t] [c]) (st : St) (ha : UT.ArL ar ts) (h : WF ar st) :
    ∃ cs st', getClassL ts st = some (cs, st') ∧ Looked ar st st' ∧ (∀ c ∈ cs, Known st' c) ∧ HasL st' ts cs ∧ Extends st st' ts cs ∧
      cs.length = ts.length := by
  induction ts generalizing st with
  | nil =>
    exact ⟨[], st, rfl, Looked.refl h, by simp, by simp [HasL], fun D A σ val hg => ⟨val, hg, fun _ _ => rfl, rfl⟩, rfl⟩
  | cons t ts ihl =>
    simp only [UT.ArL] at ha
    obtain ⟨c, st1, e1, l1, k1, h1, x1⟩ := ih t (by simp) st ha.1 h
    obtain ⟨cs, st2, e2, l2, k2, h2, x2, n2⟩ := ihl (fun t ht => ih t (by simp [ht])) st1 ha.2 l1.wf
    refine ⟨c :: cs, st2, ?_, l1.trans l2, ?_, ?_, ?_, by simp [n2]⟩
    · simp only [getClassL, e1, Option.bind_some, e2]
    · intro c' hc'
      rcases List.mem_cons.1 hc' with rfl | hc'
      · exact l2.known _ k1
      · exact k2 c' hc'
    · simp only [HasL]
      exact ⟨h1.mono l2.le, h2⟩
    · intro D A σ val hg
      obtain ⟨v1, g1, a1, m1⟩ := x1 D A σ val hg
      obtain ⟨v2, g2, a2, m2⟩ := x2 D A σ v1 g1
      refine ⟨v2, g2, fun c hc => (a2 c (Nat.lt_of_lt_of_le hc l1.next)).trans (a1 c hc), ?_⟩
      simp only [List.map_cons, List.map_nil, List.cons.injEq, and_true] at m1 m2 ⊢
      exact ⟨(a2 c k1.1).trans m1, m2⟩

theorem getClass_spec (ar : Nat → Nat) (t : UT) : ∀ st, t.Ar ar → WF ar st →
    ∃ c st', getClass t st = some (c, st') ∧ Looked ar st st' ∧ Known st' c ∧ Has st' t c ∧ Extends st st' [t] [c] := by
  induction t using UT.ind with
  | mv i => intro st _ h; exact getClass_mv ar i st h
  | fn f args ih =>
    intro st ha h
    simp only [UT.Ar] at ha
    obtain ⟨cs, st1, e1, l1, k1, h1, x1, n1⟩ := getClassL_spec ar args ih st ha.2 h
    have h0 := l1.wf
    have lN := looked_newClass h0
    have hf : st1.h.rep st1.h.next = st1.h.next := h0.fresh _ (Nat.le_refl _)
    have hfind := findCongruent_spec st1.h.rep ⟨f, cs, st1.h.next⟩ st1.p.funs
      (fun r hr hs => by simp only at hs ⊢; rw [n1, ha.1, h0.arity r hr, hs])
    simp only [getClass, e1, Option.bind_some]
    rcases hfind with ⟨r, hr, hfr, hs, hargs⟩ | ⟨hfr, hno⟩
    · refine ⟨r.cls, (newClass st1).2, ?_, l1.trans lN, ⟨Nat.lt_succ_of_lt (h0.cls r hr), h0.supF r hr⟩, ?_, ?_⟩
      · simp only [newClass, hfr, Option.bind_some]
      · simp only [Has]
        refine ⟨r, hr, hs, ?_, rfl⟩
        exact HasL.congr args cs r.args (hasL_mono args (fun t _ c hh => Has.mono lN.le t c hh) cs h1) hargs
      · intro D A σ val hg
        obtain ⟨v1, g1, a1, m1⟩ := x1 D A σ val hg
        refine ⟨v1, ⟨g1.rep, g1.funs, g1.metas⟩, a1, ?_⟩
        have : r.args.map v1 = cs.map v1 := by
          have e2 : ∀ l : List Nat, l.map v1 = (l.map st1.h.rep).map v1 := fun l => by
            rw [List.map_map]
            exact List.map_congr_left fun a _ => (g1.rep a).symm
          rw [e2, e2 cs, hargs]
        simp only at hs
        simp only [List.map_cons, List.map_nil, List.cons.injEq, and_true, UT.eval]
        rw [g1.funs r hr, this, m1, hs, UT.evalL_eq]
    · have hw := lN.wf
      refine ⟨st1.h.next, addFun (newClass st1).2 ⟨f, cs, st1.h.next⟩, ?_, ?_, ?_, ?_, ?_⟩
      · simp only [newClass, hfr, Option.bind_some, hf]
      · refine l1.trans ⟨⟨hw.idem, hw.lt, hw.fresh, ?_, ?_, ?_, hw.metas, hw.uniq, ?_, ?_, ?_⟩, rfl, Nat.le_succ _,
          fun r hr => by simp only [addFun, newClass]; exact List.mem_append_left _ hr, fun _ h => h, rfl, ?_, ?_⟩
        · intro r hr
          simp only [addFun, newClass, List.mem_append, List.mem_singleton] at hr ⊢
          rcases hr with hr | rfl
          · exact Nat.lt_succ_of_lt (h0.cls r hr)
          · simp
        · intro r hr a haa
          simp only [addFun, newClass, List.mem_append, List.mem_singleton] at hr ⊢
          rcases hr with hr | rfl
          · exact Nat.lt_succ_of_lt (h0.args r hr a haa)
          · exact Nat.lt_succ_of_lt (k1 a haa).1
        · intro r hr
          simp only [addFun, newClass, List.mem_append, List.mem_singleton] at hr ⊢
          rcases hr with hr | rfl
          · exact h0.arity r hr
          · simp [n1, ha.1]
        · intro r l hr t ht
          simp only [addFun, newClass, hf] at hr ⊢
          split at hr
          · rename_i e
            cases hr
            simp only [List.mem_singleton] at ht
            subst ht
            exact ⟨by simp [hf, e], by simp⟩
          · exact ⟨(h0.sup r l hr t ht).1, List.mem_append_left _ (h0.sup r l hr t ht).2⟩
        · intro r hr
          simp only [addFun, newClass, hf, List.mem_append, List.mem_singleton] at hr ⊢
          split
          · rfl
          · rename_i hne
            rcases hr with hr | rfl
            · exact h0.supF r hr
            · exact absurd hf hne
        · intro e he
          simp only [addFun, newClass, hf]
          split
          · rfl
          · exact h0.supM e he
        · intro c hc
          refine ⟨Nat.lt_succ_of_lt hc.1, ?_⟩
          show ((if st1.h.rep c = st1.h.rep st1.h.next then some [⟨f, cs, st1.h.next⟩] else st1.p.super (st1.h.rep c)) :
            Option (List Rec)).isSome = true
          split
          · rfl
          · exact hc.2
        · intro hcl r hr r' hr' hs hargs
          simp only [addFun, newClass, List.mem_append, List.mem_singleton] at hr hr' hargs ⊢
          rcases hr with hr | rfl <;> rcases hr' with hr' | rfl
          · exact hcl r hr r' hr' hs hargs
          · exact absurd hargs.symm (hno r hr hs)
          · exact absurd hargs (hno r' hr' hs.symm)
          · rfl
      · refine ⟨?_, ?_⟩
        · simp [newClass, addFun]
        · simp [newClass, addFun]
      · simp only [Has]
        refine ⟨⟨f, cs, st1.h.next⟩, by simp [addFun], rfl, ?_, rfl⟩
        have hle : Le st1 (addFun (newClass st1).2 ⟨f, cs, st1.h.next⟩) := ⟨fun _ _ e => e, fun r hr => by
          simp only [addFun, newClass]; exact List.mem_append_left _ hr, fun _ h => h⟩
        exact hasL_mono args (fun t _ c hh => Has.mono hle t c hh) cs h1
      · intro D A σ val hg
        obtain ⟨v1, g1, a1, m1⟩ := x1 D A σ val hg
        have hcs : cs.map (fun c => if c = st1.h.next then A f (cs.map v1) else v1 c) = cs.map v1 :=
          List.map_congr_left fun a ha => by
            have := (k1 a ha).1
            rw [if_neg (by omega)]
        refine ⟨fun c => if c = st1.h.next then A f (cs.map v1) else v1 c, ⟨?_, ?_, ?_⟩, ?_, ?_⟩
        · intro c
          show (if st1.h.rep c = st1.h.next then A f (cs.map v1) else v1 (st1.h.rep c)) = (if c = st1.h.next then A f (cs.map v1) else v1 c)
          by_cases hc : c = st1.h.next
          · simp [hc, hf]
          · rw [if_neg hc]
            by_cases hc' : c < st1.h.next
            · have := h0.lt c hc'
              rw [if_neg (by omega)]; exact g1.rep c
            · rw [h0.fresh c (by omega), if_neg hc]
        · intro r hr
          simp only [addFun, newClass, List.mem_append, List.mem_singleton] at hr
          rcases hr with hr | rfl
          · have h3 := h0.cls r hr
            have h2 := h0.args r hr
            rw [if_neg (by omega), g1.funs r hr]
            congr 1
            refine List.map_congr_left fun a ha => ?_
            have := h2 a ha
            rw [if_neg (by omega)]
          · simp only [if_true]
            rw [hcs]
        · intro e he
          have := h0.metas e he
          show (if e.2 = st1.h.next then A f (cs.map v1) else v1 e.2) = σ e.1
          rw [if_neg (by omega)]
          exact g1.metas e he
        · intro c hc
          have := l1.next
          show (if c = st1.h.next then A f (cs.map v1) else v1 c) = val c
          rw [if_neg (by omega)]
          exact a1 c hc
        · simp only [List.map_cons, List.map_nil, if_true, UT.eval, m1, UT.evalL_eq]

/-! ### Merging -/

theorem mem_appendNew {t : Rec} {m : List Rec} : ∀ {l : List Rec}, t ∈ appendNew l m ↔ t ∈ l ∨ t ∈ m := by
  induction m with
  | nil => simp [appendNew]
  | cons x m ih =>
    intro l
    simp only [appendNew]
    split
    · rename_i hx
      rw [ih]
      constructor
      · rintro (h | h)
        · exact Or.inl h
        · exact Or.inr (by simp [h])
      · rintro (h | h)
        · exact Or.inl h
        · rcases List.mem_cons.1 h with rfl | h
          · exact Or.inl hx
          · exact Or.inr h
    · rw [ih]
      simp [or_assoc]

theorem foldlM_skip {α β : Type} (f : β → α → Option β) (b : β) (l : List α) (h : ∀ a ∈ l, f b a = some b) :
    l.foldlM f b = some b := by
  induction l with
  | nil => rfl
  | cons a l ih =>
    rw [List.foldlM_cons, h a (by simp)]
    exact ih (fun a ha => h a (by simp [ha]))

/-- The classes of two known classes are joined, and nothing else happens: the loop that is meant to propagate congruence only meets
records of one and the same class. -/
theorem merge_spec (ar : Nat → Nat) (k : Nat) (st : St) (a b : Nat) (h : WF ar st) (ka : Known st a) (kb : Known st b) :
    ∃ st', mergeClasses (k + 1) st a b = some st' ∧ WF ar st' ∧ st'.p.funs = st.p.funs ∧ st'.p.metas = st.p.metas ∧
      st'.p.goals = st.p.goals ∧ st'.h.next = st.h.next ∧ st'.h.rep a = st'.h.rep b ∧
      (∀ x y, st.h.rep x = st.h.rep y → st'.h.rep x = st'.h.rep y) ∧
      (∀ (D : Type) (val : Nat → D), (∀ c, val (st.h.rep c) = val c) → val a = val b → ∀ c, val (st'.h.rep c) = val c) := by
  simp only [mergeClasses]
  by_cases e : st.h.rep a = st.h.rep b
  · exact ⟨st, by rw [if_pos e], h, rfl, rfl, rfl, rfl, e, fun _ _ h => h, fun D val hv _ => hv⟩
  · rw [if_neg e]
    have key : ∀ m d, (m = st.h.rep a ∧ d = st.h.rep b ∨ m = st.h.rep b ∧ d = st.h.rep a) →
        ∃ st', (st.p.super m).bind (fun sm => (st.p.super d).bind fun sd =>
          let l := appendNew sm sd
          let h : Heap := { st.h with
            rep := fun c => if st.h.rep c = d then m else st.h.rep c
            size := fun c => if c = m then st.h.size m + st.h.size d else st.h.size c }
          let p : Pb := { st.p with super := fun c => if c = d then none else if c = m then some l else st.p.super c }
          l.foldlM (fun st t3 =>
            (st.p.super m).bind fun l4 => l4.foldlM (fun st t4 =>
              if st.h.rep t3.cls = st.h.rep t4.cls then some st
              else (recCongruent st.h.rep t3 t4).bind fun c => if c then mergeClasses k st t3.cls t4.cls else some st) st) ⟨h, p⟩) = some st' ∧
          WF ar st' ∧ st'.p.funs = st.p.funs ∧ st'.p.metas = st.p.metas ∧
          st'.p.goals = st.p.goals ∧ st'.h.next = st.h.next ∧ st'.h.rep a = st'.h.rep b ∧
          (∀ x y, st.h.rep x = st.h.rep y → st'.h.rep x = st'.h.rep y) ∧
          (∀ (D : Type) (val : Nat → D), (∀ c, val (st.h.rep c) = val c) → val a = val b → ∀ c, val (st'.h.rep c) = val c) := by
      intro m d hmd
      have hne : m ≠ d := by 
        rcases hmd with ⟨rfl, rfl⟩ | ⟨rfl, rfl⟩
        · exact e
        · exact Ne.symm e
      have hm : ∃ sm, st.p.super m = some sm := by
        rcases hmd with ⟨rfl, rfl⟩ | ⟨rfl, rfl⟩
        · exact Option.isSome_iff_exists.1 ka.2
        · exact Option.isSome_iff_exists.1 kb.2
      have hd : ∃ sd, st.p.super d = some sd := by
        rcases hmd with ⟨rfl, rfl⟩ | ⟨rfl, rfl⟩
        · exact Option.isSome_iff_exists.1 kb.2
        · exact Option.isSome_iff_exists.1 ka.2
      have mm : st.h.rep m = m := by rcases hmd with ⟨rfl, rfl⟩ | ⟨rfl, rfl⟩ <;> exact h.idem _
      have dd : st.h.rep d = d := by rcases hmd with ⟨rfl, rfl⟩ | ⟨rfl, rfl⟩ <;> exact h.idem _
      have ml : m < st.h.next := by
        rcases hmd with ⟨rfl, rfl⟩ | ⟨rfl, rfl⟩
        · exact h.lt _ ka.1
        · exact h.lt _ kb.1
      obtain ⟨sm, hsm⟩ := hm
      obtain ⟨sd, hsd⟩ := hd
      have hl : ∀ t ∈ appendNew sm sd, (st.h.rep t.cls = m ∨ st.h.rep t.cls = d) ∧ t ∈ st.p.funs := by
        intro t ht
        rcases mem_appendNew.1 ht with ht | ht
        · exact ⟨Or.inl (h.sup m sm hsm t ht).1, (h.sup m sm hsm t ht).2⟩
        · exact ⟨Or.inr (h.sup d sd hsd t ht).1, (h.sup d sd hsd t ht).2⟩
      have hl' : ∀ t ∈ appendNew sm sd, (if st.h.rep t.cls = d then m else st.h.rep t.cls) = m := by
        intro t ht
        rcases (hl t ht).1 with h1 | h1
        · simp [h1]
        · simp [h1]
      simp only [hsm, hsd, Option.bind_some]
      refine ⟨⟨_, _⟩, foldlM_skip _ _ _ ?_, ?_, rfl, rfl, rfl, rfl, ?_, ?_, ?_⟩
      · intro t3 h3
        simp only [if_neg hne, if_true, Option.bind_some]
        refine foldlM_skip _ _ _ fun t4 h4 => ?_
        exact if_pos ((hl' t3 h3).trans (hl' t4 h4).symm)
      · refine ⟨fun c => ?_, fun c hc => ?_, fun c hc => ?_, h.cls, h.args, h.arity, h.metas, h.uniq, ?_, ?_, ?_⟩
        · simp only
          by_cases hc : st.h.rep c = d
          · simp [hc, mm]
          · simp [hc, h.idem]
        · simp only
          split
          · exact ml
          · exact h.lt c hc
        · simp only
          rw [h.fresh c hc]
          have : d < st.h.next := by
            rcases hmd with ⟨rfl, rfl⟩ | ⟨rfl, rfl⟩
            · exact h.lt _ kb.1
            · exact h.lt _ ka.1
          simp only at hc
          rw [if_neg (by omega)]
        · intro r l hr t ht
          simp only at hr ⊢
          split at hr
          · cases hr
          · rename_i hrd
            split at hr
            · rename_i hrm
              cases hr
              exact ⟨by rw [hl' t ht, hrm], (hl t ht).2⟩
            · have := h.sup r l hr t ht
              exact ⟨by rw [this.1, if_neg hrd], this.2⟩
        · intro r hr
          simp only
          by_cases hc : st.h.rep r.cls = d
          · simp [hc, hne]
          · simp only [if_neg hc]
            split
            · rfl
            · exact h.supF r hr
        · intro r hr
          simp only
          by_cases hc : st.h.rep r.2 = d
          · simp [hc, hne]
          · simp only [if_neg hc]
            split
            · rfl
            · exact h.supM r hr
      · simp only
        rcases hmd with ⟨rfl, rfl⟩ | ⟨rfl, rfl⟩ <;> simp [e]
      · intro x y hxy
        simp only [hxy]
      · intro D val hv hab c
        simp only
        split
        · rename_i hc
          have h1 : val m = val d := by
            rcases hmd with ⟨rfl, rfl⟩ | ⟨rfl, rfl⟩
            · rw [hv, hv, hab]
            · rw [hv, hv, hab]
          rw [h1, ← hc, hv]
        · exact hv c
    by_cases hs : st.h.size (st.h.rep a) < st.h.size (st.h.rep b)
    · simp only [if_pos hs]
      exact key _ _ (Or.inr ⟨rfl, rfl⟩)
    · simp only [if_neg hs]
      exact key _ _ (Or.inl ⟨rfl, rfl⟩)

/-! ### Assumptions -/

/-- What is known when the assumptions `E` have been added. -/
structure Holds (ar : Nat → Nat) (E : List (UT × UT)) (st : St) : Prop where
  wf : WF ar st
  sat : ∀ (D : Type) (A : Alg D) (σ : Nat → D), (∀ e ∈ E, e.1.eval A σ = e.2.eval A σ) → ∃ val, Good A σ val st
  has : ∀ e ∈ E, ∃ c c', Has st e.1 c ∧ Has st e.2 c' ∧ st.h.rep c = st.h.rep c'

/-- Terms without arguments. -/
def Flat : UT → Prop
  | .mv _ => True
  | .fn _ args => args = []

theorem getClass_flat_funs (t : UT) (st st' : St) (c : Nat) (hf : Flat t) (h : ∀ r ∈ st.p.funs, r.args = [])
    (he : getClass t st = some (c, st')) : ∀ r ∈ st'.p.funs, r.args = [] := by
  cases t with
  | mv i =>
    simp only [getClass] at he
    split at he
    · cases he; exact h
    · cases he; exact h
  | fn f args =>
    simp only [Flat] at hf
    subst hf
    simp only [getClass, getClassL, Option.bind_some] at he
    cases hx : findCongruent (newClass st).2.h.rep ⟨f, [], (newClass st).1⟩ (newClass st).2.p.funs with
    | none => rw [hx] at he; cases he
    | some o =>
      rw [hx] at he
      cases o with
      | some t2 => cases he; exact h
      | none =>
        cases he
        intro r hr
        simp only [addFun, newClass, List.mem_append, List.mem_singleton] at hr
        rcases hr with hr | rfl
        · exact h r hr
        · rfl

theorem addAssumption_spec (ar : Nat → Nat) (k : Nat) (E : List (UT × UT)) (e : UT × UT) (st : St) (ha : PairAr ar e)
    (h : Holds ar E st) : ∃ st', addAssumption (k + 1) st e = some st' ∧ Holds ar (E ++ [e]) st' ∧ st'.p.goals = st.p.goals ∧
      ((∀ r ∈ st.p.funs, r.args = []) → Flat e.1 → Flat e.2 → Closed st → Closed st' ∧ ∀ r ∈ st'.p.funs, r.args = []) := by
  obtain ⟨c, st1, e1, l1, k1, h1, x1⟩ := getClass_spec ar e.1 st ha.1 h.wf
  obtain ⟨c', st2, e2, l2, k2, h2, x2⟩ := getClass_spec ar e.2 st1 ha.2 l1.wf
  obtain ⟨st3, e3, w3, f3, m3, g3, n3, r3, p3, v3⟩ := merge_spec ar k st2 c c' l2.wf (l2.known _ k1) k2
  have le3 : Le st2 st3 := ⟨p3, fun r hr => f3 ▸ hr, fun r hr => m3 ▸ hr⟩
  refine ⟨st3, by simp only [addAssumption, e1, e2, Option.bind_some, e3], ⟨w3, ?_, ?_⟩, ?_, ?_⟩
  · intro D A σ hE
    obtain ⟨v, g⟩ := h.sat D A σ (fun e he => hE e (by simp [he]))
    obtain ⟨v1, g1, a1, q1⟩ := x1 D A σ v g
    obtain ⟨v2, g2, a2, q2⟩ := x2 D A σ v1 g1
    simp only [List.map_cons, List.map_nil, List.cons.injEq, and_true] at q1 q2
    refine ⟨v2, ⟨v3 D v2 g2.rep ?_, fun r hr => g2.funs r (f3 ▸ hr), fun r hr => g2.metas r (m3 ▸ hr)⟩⟩
    rw [a2 c k1.1, q1, q2]
    exact hE e (by simp)
  · intro e' he'
    simp only [List.mem_append, List.mem_singleton] at he'
    rcases he' with he' | rfl
    · obtain ⟨x, y, hx, hy, hxy⟩ := h.has e' he'
      have le := (l1.le.trans l2.le).trans le3
      exact ⟨x, y, hx.mono le, hy.mono le, le.rep _ _ hxy⟩
    · exact ⟨c, c', h1.mono (l2.le.trans le3), h2.mono le3, r3⟩
  · rw [g3, l2.goals, l1.goals]
  · intro hfl f1 f2 hcl
    have a1 := getClass_flat_funs e.1 st st1 c f1 hfl e1
    have a2 := getClass_flat_funs e.2 st1 st2 c' f2 a1 e2
    have cl2 : Closed st2 := l2.closed (l1.closed hcl)
    refine ⟨fun r hr r' hr' hs hargs => ?_, fun r hr => a2 r (f3 ▸ hr)⟩
    rw [f3] at hr hr'
    exact p3 _ _ (cl2 r hr r' hr' hs (by rw [a2 r hr, a2 r' hr']))

theorem holds_empty (ar : Nat → Nat) : Holds ar [] ⟨Heap.empty, Pb.new⟩ := by
  refine ⟨⟨fun _ => rfl, fun c hc => by simp [Heap.empty] at hc, fun _ _ => rfl, ?_, ?_, ?_, ?_, ?_, ?_, ?_, ?_⟩, ?_, by simp⟩
  all_goals first
    | (intro D A σ _; exact ⟨fun c => A c [], ⟨fun _ => rfl, by simp [Pb.new], by simp [Pb.new]⟩⟩)
    | simp [Pb.new]

theorem assumptions_spec (ar : Nat → Nat) (k : Nat) (E done : List (UT × UT)) (st : St) (ha : ∀ e ∈ E, PairAr ar e)
    (h : Holds ar done st) : ∃ st', E.foldlM (addAssumption (k + 1)) st = some st' ∧ Holds ar (done ++ E) st' ∧ st'.p.goals = st.p.goals ∧
      ((∀ r ∈ st.p.funs, r.args = []) → (∀ e ∈ E, Flat e.1 ∧ Flat e.2) → Closed st → Closed st') := by
  induction E generalizing done st with
  | nil => exact ⟨st, rfl, by simpa using h, rfl, fun _ _ h => h⟩
  | cons e E ih =>
    obtain ⟨st1, e1, h1, g1, c1⟩ := addAssumption_spec ar k done e st (ha e (by simp)) h
    obtain ⟨st2, e2, h2, g2, c2⟩ := ih (done ++ [e]) st1 (fun e he => ha e (by simp [he])) h1
    refine ⟨st2, ?_, by simpa using h2, g2.trans g1, ?_⟩
    · rw [List.foldlM_cons, e1]
      exact e2
    · intro hf hE hcl
      have := c1 hf (hE e (by simp)).1 (hE e (by simp)).2 hcl
      exact c2 this.2 (fun e he => hE e (by simp [he])) this.1

/-! ### Goals -/

/-- Two lists are related element by element. -/
inductive All2 {α β : Type} (R : α → β → Prop) : List α → List β → Prop where
  | nil : All2 R [] []
  | cons {a b l m} : R a b → All2 R l m → All2 R (a :: l) (b :: m)

theorem All2.imp {α β : Type} {R S : α → β → Prop} (h : ∀ a b, R a b → S a b) {l : List α} {m : List β} (hl : All2 R l m) : All2 S l m := by
  induction hl with
  | nil => exact .nil
  | cons hh _ ih => exact .cons (h _ _ hh) ih

theorem All2.snoc {α β : Type} {R : α → β → Prop} {l : List α} {m : List β} {a : α} {b : β} (hl : All2 R l m) (h : R a b) :
    All2 R (l ++ [a]) (m ++ [b]) := by
  induction hl with
  | nil => exact .cons h .nil
  | cons hh _ ih => exact .cons hh ih

/-- Pairs of classes represent pairs of terms. -/
abbrev PairsHave (st : St) (g : List (UT × UT)) (ps : List (Nat × Nat)) : Prop :=
  All2 (fun e p => Has st e.1 p.1 ∧ Has st e.2 p.2) g ps

theorem PairsHave.mono {st st' : St} (hle : Le st st') {g : List (UT × UT)} {ps : List (Nat × Nat)} (h : PairsHave st g ps) :
    PairsHave st' g ps := by
  induction h with
  | nil => exact .nil
  | cons h _ ih => exact .cons ⟨h.1.mono hle, h.2.mono hle⟩ ih

theorem goalPairs_spec (ar : Nat → Nat) (g : List (UT × UT)) (st : St) (ha : ∀ e ∈ g, PairAr ar e) (h : WF ar st) :
    ∃ ps st', goalPairs g st = some (ps, st') ∧ Looked ar st st' ∧ PairsHave st' g ps ∧
      (∀ (D : Type) (A : Alg D) (σ : Nat → D), (∃ val, Good A σ val st) → ∃ val, Good A σ val st') := by
  induction g generalizing st with
  | nil => exact ⟨[], st, rfl, Looked.refl h, .nil, fun _ _ _ h => h⟩
  | cons e g ih =>
    obtain ⟨c, st1, e1, l1, k1, h1, x1⟩ := getClass_spec ar e.1 st (ha e (by simp)).1 h
    obtain ⟨c', st2, e2, l2, k2, h2, x2⟩ := getClass_spec ar e.2 st1 (ha e (by simp)).2 l1.wf
    obtain ⟨ps, st3, e3, l3, h3, x3⟩ := ih st2 (fun e he => ha e (by simp [he])) l2.wf
    refine ⟨(c, c') :: ps, st3, by simp only [goalPairs, e1, e2, e3, Option.bind_some], (l1.trans l2).trans l3,
      .cons ⟨h1.mono (l2.le.trans l3.le), h2.mono l3.le⟩ h3, ?_⟩
    rintro D A σ ⟨v, g⟩
    obtain ⟨v1, g1, _⟩ := x1 D A σ v g
    obtain ⟨v2, g2, _⟩ := x2 D A σ v1 g1
    exact x3 D A σ ⟨v2, g2⟩

theorem goals_spec (ar : Nat → Nat) (E : List (UT × UT)) (gs done : List (List (UT × UT))) (st : St)
    (ha : ∀ g ∈ gs, ∀ e ∈ g, PairAr ar e) (h : Holds ar E st) (hg : All2 (PairsHave st) done st.p.goals) :
    ∃ st', gs.foldlM addGoal st = some st' ∧ Holds ar E st' ∧ All2 (PairsHave st') (done ++ gs) st'.p.goals ∧
      (Closed st → Closed st') := by
  induction gs generalizing done st with
  | nil => exact ⟨st, rfl, h, by simpa using hg, fun h => h⟩
  | cons g gs ih =>
    obtain ⟨ps, st1, e1, l1, h1, x1⟩ := goalPairs_spec ar g st (ha g (by simp)) h.wf
    have le : Le st { st1 with p := { st1.p with goals := st1.p.goals ++ [ps] } } := ⟨l1.le.rep, l1.funs, l1.metas⟩
    have hle : Le st1 { st1 with p := { st1.p with goals := st1.p.goals ++ [ps] } } := ⟨fun _ _ h => h, fun _ h => h, fun _ h => h⟩
    obtain ⟨st2, e2, h2, g2, c2⟩ := ih (done ++ [g]) { st1 with p := { st1.p with goals := st1.p.goals ++ [ps] } }
      (fun g hg => ha g (by simp [hg]))
      ⟨⟨l1.wf.idem, l1.wf.lt, l1.wf.fresh, l1.wf.cls, l1.wf.args, l1.wf.arity, l1.wf.metas, l1.wf.uniq, l1.wf.sup, l1.wf.supF, l1.wf.supM⟩,
        fun D A σ hE => by
          obtain ⟨v, gd⟩ := x1 D A σ (h.sat D A σ hE)
          exact ⟨v, gd.rep, gd.funs, gd.metas⟩,
        fun e he => by
          obtain ⟨c, c', k1, k2, k3⟩ := h.has e he
          exact ⟨c, c', k1.mono le, k2.mono le, le.rep _ _ k3⟩⟩
      (by
        have h3 : All2 (PairsHave { st1 with p := { st1.p with goals := st1.p.goals ++ [ps] } }) done st1.p.goals := by
          have hg' : All2 (PairsHave st) done st1.p.goals := l1.goals ▸ hg
          exact hg'.imp fun _ _ hh => hh.mono le
        exact h3.snoc (h1.mono hle))
    refine ⟨st2, ?_, h2, by simpa using g2, fun hc => c2 (l1.closed hc)⟩
    rw [List.foldlM_cons]
    simp only [addGoal, e1, Option.bind_some]
    exact e2

/-! ### Soundness and completeness -/

theorem hasL_val {D : Type} {A : Alg D} {σ : Nat → D} {val : Nat → D} {st : St} (ts : List UT)
    (h : ∀ t ∈ ts, ∀ c, Has st t c → val c = t.eval A σ) (cs : List Nat) (hh : HasL st ts cs) : cs.map val = ts.map (UT.eval A σ) := by
  induction ts generalizing cs with
  | nil => cases cs <;> simp_all [HasL]
  | cons t ts ih =>
    cases cs with
    | nil => simp [HasL] at hh
    | cons c cs =>
      simp only [HasL] at hh
      simp only [List.map_cons, List.cons.injEq]
      exact ⟨h t (by simp) c hh.1, ih (fun t ht => h t (by simp [ht])) cs hh.2⟩

/-- A class that represents a term has the value of the term. -/
theorem has_val {D : Type} {A : Alg D} {σ : Nat → D} {val : Nat → D} {st : St} (hg : Good A σ val st) (t : UT) :
    ∀ c, Has st t c → val c = t.eval A σ := by
  induction t using UT.ind with
  | mv i =>
    rintro c h
    simp only [Has] at h
    obtain ⟨c', h1, h2⟩ := h
    rw [← hg.rep c, h2, hg.rep, hg.metas _ h1, UT.eval]
  | fn f args ih =>
    intro c h
    simp only [Has] at h
    obtain ⟨r, h1, h2, h3, h4⟩ := h
    rw [← hg.rep c, h4, hg.rep, hg.funs r h1, UT.eval, UT.evalL_eq, h2, hasL_val args ih _ h3]

theorem pairs_sound {st : St} {D : Type} {A : Alg D} {σ val : Nat → D} (hg : Good A σ val st) {g : List (UT × UT)}
    {ps : List (Nat × Nat)} (h : PairsHave st g ps) (ht : ∀ p ∈ ps, st.h.rep p.1 = st.h.rep p.2) :
    ∀ e ∈ g, e.1.eval A σ = e.2.eval A σ := by
  induction h with
  | nil => simp
  | @cons e p g ps hep _ ih =>
    intro e' he'
    rcases List.mem_cons.1 he' with rfl | he'
    · rw [← has_val hg _ _ hep.1, ← has_val hg _ _ hep.2, ← hg.rep p.1, ht p (by simp), hg.rep]
    · exact ih (fun p hp => ht p (by simp [hp])) e' he'

/-- The interpretation read off a state: classes are the elements, and one more. -/
def classAlg (st : St) : Alg (Option Nat) := fun f ds =>
  match st.p.funs.find? (fun r => decide (r.sym = f ∧ r.args.map (fun a => some (st.h.rep a)) = ds)) with
  | some r => some (st.h.rep r.cls)
  | none => none

def classVal (st : St) : Nat → Option Nat := fun i =>
  match st.p.metas.find? (fun e => e.1 == i) with
  | some e => some (st.h.rep e.2)
  | none => none

theorem map_some_inj (l m : List Nat) (h : l.map some = m.map some) : l = m := by
  induction l generalizing m with
  | nil => cases m <;> simp_all
  | cons a l ih =>
    cases m with
    | nil => simp at h
    | cons b m =>
      simp only [List.map_cons, List.cons.injEq, Option.some.injEq] at h
      rw [h.1, ih m h.2]

theorem class_good {ar : Nat → Nat} {st : St} (h : WF ar st) (hc : Closed st) :
    Good (classAlg st) (classVal st) (fun c => some (st.h.rep c)) st := by
  refine ⟨fun c => by simp [h.idem], fun r hr => ?_, fun e he => ?_⟩
  · simp only [classAlg]
    split
    · rename_i r' hf
      have hm := List.mem_of_find?_eq_some hf
      have hp := List.find?_some hf
      simp only [decide_eq_true_eq] at hp
      refine congrArg some (hc r hr r' hm hp.1.symm ?_)
      refine map_some_inj _ _ ?_
      simpa [List.map_map, Function.comp_def] using hp.2.symm
    · rename_i hf
      have := List.find?_eq_none.1 hf r hr
      simp at this
  · simp only [classVal]
    split
    · rename_i e' hf
      have hm := List.mem_of_find?_eq_some hf
      have hp := List.find?_some hf
      simp only [beq_iff_eq] at hp
      rw [h.uniq e he e' hm hp.symm]
    · rename_i hf
      have := List.find?_eq_none.1 hf e he
      simp at this

theorem pairs_complete {st : St} {A : Alg (Option Nat)} {σ : Nat → Option Nat} (hg : Good A σ (fun c => some (st.h.rep c)) st)
    {g : List (UT × UT)} {ps : List (Nat × Nat)} (h : PairsHave st g ps) (ht : ∀ e ∈ g, e.1.eval A σ = e.2.eval A σ) :
    ∀ p ∈ ps, st.h.rep p.1 = st.h.rep p.2 := by
  induction h with
  | nil => simp
  | @cons e p g ps hep _ ih =>
    intro p' hp'
    rcases List.mem_cons.1 hp' with rfl | hp'
    · have h1 := has_val hg _ _ hep.1
      have h2 := has_val hg _ _ hep.2
      have := ht e (by simp)
      rw [← h1, ← h2] at this
      simpa using this
    · exact ih (fun e he => ht e (by simp [he])) p' hp'

theorem forall₂_left {α β : Type} {R : α → β → Prop} {l : List α} {m : List β} (h : All2 R l m) :
    ∀ b ∈ m, ∃ a ∈ l, R a b := by
  induction h with
  | nil => simp
  | cons h _ ih =>
    intro b hb
    rcases List.mem_cons.1 hb with rfl | hb
    · exact ⟨_, by simp, h⟩
    · obtain ⟨a, ha, hr⟩ := ih b hb
      exact ⟨a, by simp [ha], hr⟩

theorem forall₂_right {α β : Type} {R : α → β → Prop} {l : List α} {m : List β} (h : All2 R l m) :
    ∀ a ∈ l, ∃ b ∈ m, R a b := by
  induction h with
  | nil => simp
  | cons h _ ih =>
    intro b hb
    rcases List.mem_cons.1 hb with rfl | hb
    · exact ⟨_, by simp, h⟩
    · obtain ⟨a, ha, hr⟩ := ih b hb
      exact ⟨a, by simp [ha], hr⟩

/-- **C39 (soundness).** Whatever the equations and goals: the procedure ends without panic and reports success only if some goal
holds in every interpretation of the equations, metavariables being read as unknown constants. -/
theorem C39_sound (ar : Nat → Nat) (E : List (UT × UT)) (gs : List (List (UT × UT))) (hE : ∀ e ∈ E, PairAr ar e)
    (hg : ∀ g ∈ gs, ∀ e ∈ g, PairAr ar e) (k : Nat) :
    ∃ b, answer (k + 1) E gs = some b ∧ (b = true → Solvable E gs) := by
  obtain ⟨st, e1, h1, g1, -⟩ := assumptions_spec ar k E [] ⟨Heap.empty, Pb.new⟩ hE (holds_empty ar)
  obtain ⟨st2, e2, h2, g2, -⟩ := goals_spec ar E gs [] st hg (by simpa using h1) (by rw [g1]; exact .nil)
  refine ⟨hasTrivialGoals st2, by simp only [answer, e1, Option.bind_some, e2], fun hb => ?_⟩
  simp only [hasTrivialGoals, List.any_eq_true, List.all_eq_true, decide_eq_true_eq] at hb
  obtain ⟨ps, hps, ht⟩ := hb
  obtain ⟨g, hgm, hhas⟩ := forall₂_left g2 ps hps
  refine ⟨g, by simpa using hgm, fun e he D A σ hsat => ?_⟩
  obtain ⟨val, good⟩ := h2.sat D A σ hsat
  exact pairs_sound good hhas (fun p hp => ht p hp) e he

/-- The state in which the goals are checked. -/
def final (k : Nat) (E : List (UT × UT)) (gs : List (List (UT × UT))) : Option St :=
  (E.foldlM (addAssumption k) ⟨Heap.empty, Pb.new⟩).bind fun st => gs.foldlM addGoal st

/-- **C39, in part.** If the recorded terms happen to be closed under congruence when the goals are checked, the answer is exact.
What is missing for the full property is that the code closes them: it does not (`C39_violated`). -/
theorem C39_exact_partial (ar : Nat → Nat) (E : List (UT × UT)) (gs : List (List (UT × UT))) (hE : ∀ e ∈ E, PairAr ar e)
    (hg : ∀ g ∈ gs, ∀ e ∈ g, PairAr ar e) (k : Nat) (hcl : ∀ st, final (k + 1) E gs = some st → Closed st) :
    ∃ b, answer (k + 1) E gs = some b ∧ (b = true ↔ Solvable E gs) := by
  obtain ⟨st, e1, h1, g1, -⟩ := assumptions_spec ar k E [] ⟨Heap.empty, Pb.new⟩ hE (holds_empty ar)
  obtain ⟨st2, e2, h2, g2, -⟩ := goals_spec ar E gs [] st hg (by simpa using h1) (by rw [g1]; exact .nil)
  obtain ⟨b, hb, hs⟩ := C39_sound ar E gs hE hg k
  refine ⟨b, hb, hs, fun hsol => ?_⟩
  have hcl' : Closed st2 := hcl st2 (by simp only [final, e1, Option.bind_some, e2])
  have hb' : b = hasTrivialGoals st2 := by
    simp only [answer, e1, Option.bind_some, e2, Option.some.injEq] at hb
    exact hb.symm
  subst hb'
  obtain ⟨g, hgm, hent⟩ := hsol
  obtain ⟨ps, hps, hhas⟩ := forall₂_right g2 g (by simpa using hgm)
  have good := class_good h2.wf hcl'
  simp only [hasTrivialGoals, List.any_eq_true, List.all_eq_true, decide_eq_true_eq]
  refine ⟨ps, hps, fun p hp => pairs_complete good hhas (fun e he => hent e he _ _ _ ?_) p hp⟩
  intro e' he'
  obtain ⟨c, c', k1, k2, k3⟩ := h2.has e' he'
  rw [← has_val good _ _ k1, ← has_val good _ _ k2, k3]

/-- **C39, in part.** The answer is exact if the equations are between terms without arguments; the goals are arbitrary. -/
theorem C39_flat_partial (ar : Nat → Nat) (E : List (UT × UT)) (gs : List (List (UT × UT))) (hE : ∀ e ∈ E, PairAr ar e)
    (hg : ∀ g ∈ gs, ∀ e ∈ g, PairAr ar e) (hf : ∀ e ∈ E, Flat e.1 ∧ Flat e.2) (k : Nat) :
    ∃ b, answer (k + 1) E gs = some b ∧ (b = true ↔ Solvable E gs) := by
  refine C39_exact_partial ar E gs hE hg k fun st hst => ?_
  obtain ⟨st1, e1, h1, g1, c1⟩ := assumptions_spec ar k E [] ⟨Heap.empty, Pb.new⟩ hE (holds_empty ar)
  obtain ⟨st2, e2, h2, g2, c2⟩ := goals_spec ar E gs [] st1 hg (by simpa using h1) (by rw [g1]; exact .nil)
  simp only [final, e1, Option.bind_some, e2, Option.some.injEq] at hst
  subst hst
  exact c2 (c1 (by simp [Pb.new]) hf (fun r hr => by simp [Pb.new] at hr))

namespace Sample
def a : UT := .fn 0 []
def b : UT := .fn 1 []
def c : UT := .fn 2 []
def d : UT := .fn 3 []
def f (t : UT) : UT := .fn 4 [t]
def ar : Nat → Nat := fun i => if i = 4 then 1 else 0
end Sample

open Sample

/-- The answer does not depend on the depth allowed for the recursion. -/
theorem answer_depth (ar : Nat → Nat) (E : List (UT × UT)) (gs : List (List (UT × UT))) (hE : ∀ e ∈ E, PairAr ar e)
    (hg : ∀ g ∈ gs, ∀ e ∈ g, PairAr ar e) (k : Nat) : answer (k + 1) E gs = answer 1 E gs := by
  have hm : ∀ st a b, WF ar st → Known st a → Known st b → mergeClasses (k + 1) st a b = mergeClasses 1 st a b := by
    intro st a b h ka kb
    obtain ⟨st', e', _⟩ := merge_spec ar k st a b h ka kb
    obtain ⟨st'', e'', _⟩ := merge_spec ar 0 st a b h ka kb
    simp only [mergeClasses] at e' e'' ⊢
    by_cases e : st.h.rep a = st.h.rep b
    · simp [e]
    · simp only [if_neg e] at e' e'' ⊢
      have key : ∀ m d, (m = st.h.rep a ∧ d = st.h.rep b ∨ m = st.h.rep b ∧ d = st.h.rep a) → ∀ j,
          (st.p.super m).bind (fun sm => (st.p.super d).bind fun sd =>
            let l := appendNew sm sd
            let h : Heap := { st.h with
              rep := fun c => if st.h.rep c = d then m else st.h.rep c
              size := fun c => if c = m then st.h.size m + st.h.size d else st.h.size c }
            let p : Pb := { st.p with super := fun c => if c = d then none else if c = m then some l else st.p.super c }
            l.foldlM (fun (st : St) t3 =>
              (st.p.super m).bind fun l4 => l4.foldlM (fun (st : St) t4 =>
                if st.h.rep t3.cls = st.h.rep t4.cls then some st
                else (recCongruent st.h.rep t3 t4).bind fun c => if c then mergeClasses j st t3.cls t4.cls else some st) st) ⟨h, p⟩) =
          (st.p.super m).bind (fun sm => (st.p.super d).bind fun sd => some (⟨{ st.h with
              rep := fun c => if st.h.rep c = d then m else st.h.rep c
              size := fun c => if c = m then st.h.size m + st.h.size d else st.h.size c },
              { st.p with super := fun c => if c = d then none else if c = m then some (appendNew sm sd) else st.p.super c }⟩ : St)) := by
        intro m d hmd j
        have hne : m ≠ d := by 
          rcases hmd with ⟨rfl, rfl⟩ | ⟨rfl, rfl⟩
          · exact e
          · exact Ne.symm e
        cases hsm : st.p.super m with
        | none => rfl
        | some sm =>
          cases hsd : st.p.super d with
          | none => rfl
          | some sd =>
            simp only [Option.bind_some]
            have hl' : ∀ t ∈ appendNew sm sd, (if st.h.rep t.cls = d then m else st.h.rep t.cls) = m := by
              intro t ht
              rcases mem_appendNew.1 ht with ht | ht
              · simp [(h.sup m sm hsm t ht).1]
              · simp [(h.sup d sd hsd t ht).1]
            refine foldlM_skip _ _ _ fun t3 h3 => ?_
            simp only [if_neg hne, if_true, Option.bind_some]
            refine foldlM_skip _ _ _ fun t4 h4 => ?_
            exact if_pos ((hl' t3 h3).trans (hl' t4 h4).symm)
      by_cases hs : st.h.size (st.h.rep a) < st.h.size (st.h.rep b)
      · simp only [if_pos hs]
        exact (key _ _ (Or.inr ⟨rfl, rfl⟩) k).trans (key _ _ (Or.inr ⟨rfl, rfl⟩) 0).symm
      · simp only [if_neg hs]
        exact (key _ _ (Or.inl ⟨rfl, rfl⟩) k).trans (key _ _ (Or.inl ⟨rfl, rfl⟩) 0).symm
  have hA : ∀ (E done : List (UT × UT)) st, (∀ e ∈ E, PairAr ar e) → Holds ar done st →
      E.foldlM (addAssumption (k + 1)) st = E.foldlM (addAssumption 1) st := by
    intro E
    induction E with
    | nil => intros; rfl
    | cons e E ih =>
      intro done st hE h
      have ha := hE e (by simp)
      obtain ⟨c, st1, e1, l1, k1, h1, x1⟩ := getClass_spec ar e.1 st ha.1 h.wf
      obtain ⟨c', st2, e2, l2, k2, h2, x2⟩ := getClass_spec ar e.2 st1 ha.2 l1.wf
      have he : addAssumption (k + 1) st e = addAssumption 1 st e := by
        simp only [addAssumption, e1, e2, Option.bind_some]
        exact hm st2 c c' l2.wf (l2.known _ k1) k2
      obtain ⟨st3, e3, h3, _⟩ := addAssumption_spec ar 0 done e st ha h
      rw [List.foldlM_cons, List.foldlM_cons, he, e3]
      exact ih _ st3 (fun e he => hE e (by simp [he])) h3
  simp only [answer, hA E [] _ hE (holds_empty ar)]

/-- **C39 violated.** From `f(a) = c`, `f(b) = d` and `a = b` the equation `c = d` follows, but the procedure answers that the ground
problem has no solution: a term is filed under its own class instead of the classes of its arguments, so that the merge of `a` and `b`
does not reach `f(a)` and `f(b)`. -/
theorem C39_violated (k : Nat) :
    answer (k + 1) [(f a, c), (f b, d), (a, b)] [[(c, d)]] = some false ∧ Entails [(f a, c), (f b, d), (a, b)] c d := by
  constructor
  · rw [answer_depth Sample.ar _ _ (by simp [PairAr, UT.Ar, UT.ArL, a, b, c, d, f, Sample.ar])
      (by simp [PairAr, UT.Ar, UT.ArL, c, d, Sample.ar])]
    decide +kernel
  · intro D A σ h
    have h1 := h (f a, c) (by simp)
    have h2 := h (f b, d) (by simp)
    have h3 := h (a, b) (by simp)
    simp only [f, a, b, c, d, UT.eval, UT.evalL] at h1 h2 h3 ⊢
    rw [← h1, ← h2, h3]

theorem C39_statement_false : ¬ C39_statement := by
  intro h
  obtain ⟨k, b', h1, h2⟩ := h Sample.ar [(f a, c), (f b, d), (a, b)] [[(c, d)]]
    (by simp [PairAr, UT.Ar, UT.ArL, a, b, c, d, f, Sample.ar]) (by simp [PairAr, UT.Ar, UT.ArL, c, d, Sample.ar])
  have hv : Solvable [(f a, c), (f b, d), (a, b)] [[(c, d)]] := ⟨[(c, d)], by simp, by simpa using (C39_violated 0).2⟩
  cases k with
  | zero =>
    have : answer 0 [(f a, c), (f b, d), (a, b)] [[(c, d)]] = none := by decide +kernel
    rw [this] at h1
    cases h1
  | succ k =>
    rw [(C39_violated k).1] at h1
    cases h1
    exact absurd (h2.2 hv) (by simp)

/-- The order matters: with `a = b` first, the same problem is solved. -/
example : answer 1 [(a, b), (f a, c), (f b, d)] [[(c, d)]] = some true := by decide +kernel

/-- The hypotheses of the partial results are met, and the answer is not always the same. -/
example : answer 1 [(a, b), (b, c)] [[(f (f a), f (f c))]] = some true ∧ answer 1 [(a, b)] [[(f a, f c)]] = some false := by
  decide +kernel

example : (∀ e ∈ [(a, b), (b, c)], PairAr Sample.ar e) ∧ (∀ e ∈ [(a, b), (b, c)], Flat e.1 ∧ Flat e.2) := by
  simp [PairAr, UT.Ar, UT.ArL, a, b, c, Sample.ar, Flat]

/-- Without consistent arities: a record with fewer arguments is congruent to one with more, so that `p = q` is reported though only
`p(a) = q` was assumed; and in the other order of creation the comparison runs out of range. -/
theorem C39_violated_arity :
    answer 1 [(.fn 5 [a], c)] [[(.fn 5 [], c)]] = some true ∧ ¬ Entails [(.fn 5 [a], c)] (.fn 5 []) c ∧
    answer 1 [(.fn 5 [], c)] [[(.fn 5 [a], c)]] = none := by
  refine ⟨by decide +kernel, fun h => ?_, by decide +kernel⟩
  have := h Bool (fun s ds => decide (s = 5 ∧ ds = [])) (fun _ => false) (by simp [UT.eval, UT.evalL, a, c])
  simp [UT.eval, UT.evalL, c] at this

end Verif.Equality
