import Verif.Unif.CodeTreeProps
import Verif.Unif.Props
import Mathlib.Data.List.Dedup
/-!
# C29, C30: the index of atomic formulas and the search in it

Atomic formulas are terms `p(args)`, with the type arguments among the arguments as everywhere in the
unification machine (`getFunctionalArguments`, src/Unif/parsing.go:147-164).
-/

namespace Verif.Unif

/-- An atomic formula. -/
structure Atom where
  p : Nat
  args : List UT
deriving DecidableEq

/-- The term the machine works on (`unify`, src/Unif/matching.go:71-82). -/
def Atom.term (f : Atom) : UT := .fn f.p f.args

/-- `ParseFormula` for predicates with `parsePred` (src/Unif/parsing.go:113-144, 166-182). -/
def Atom.code (f : Atom) : List Instr :=
  if f.args.isEmpty then [.begin, .check f.p, .fin none]
  else .begin :: .check f.p :: .begin :: .down :: (parseL 0 [] f.args ++ [.fin none, .fin none])

/-- Insertion of formulas one after another (src/Unif/code-trees.go:129-139, 160-175). -/
def Node.addAtoms (n : Node Instr Atom) (l : List Atom) : Option (Node Instr Atom) :=
  n.insertAll (l.map fun f => (f.code, f))

/-! ### Codes are not prefixes of each other -/

/-- What remains after the block in which we are `d` levels deep has been closed. -/
def eat : Nat → List Instr → Option (List Instr)
  | _, [] => none
  | d, .begin :: l => eat (d + 1) l
  | d, .fin _ :: l => if d = 1 then some l else eat (d - 1) l
  | d, .right :: l => eat d l
  | d, .down :: l => eat d l
  | d, .check _ :: l => eat d l
  | d, .push _ :: l => eat d l
  | d, .pop _ :: l => eat d l
  | d, .put _ :: l => eat d l
  | d, .compare _ _ :: l => eat d l

theorem eat_compares (d : Nat) (seen : List Nat) (k : Nat) (l : List Instr) :
    eat d (compares seen k ++ l) = eat d l := by
  unfold compares
  generalize ((List.range seen.length).filter _) = js
  induction js with
  | nil => rfl
  | cons j js ih => simpa [eat] using ih

theorem eat_right (d : Nat) (rd : Bool) (l : List Instr) :
    eat d ((if rd then [Instr.right] else []) ++ l) = eat d l := by
  cases rd <;> simp [eat]

theorem eat_parseL_of (ts : List UT)
    (ih : ∀ t ∈ ts, ∀ (pc : Nat) (seen : List Nat) (rd : Bool) (d : Nat) (l : List Instr), 1 ≤ d →
      eat d (parseT pc seen rd t ++ l) = eat d l)
    (pc : Nat) (seen : List Nat) (d : Nat) (l : List Instr) (hd : 1 ≤ d) : eat d (parseL pc seen ts ++ l) = eat d l := by
  induction ts generalizing seen with
  | nil => simp [parseL]
  | cons t rest ih2 =>
    simp only [parseL, List.append_assoc]
    rw [ih t (by simp) pc seen _ d _ hd, ih2 (fun t ht => ih t (List.mem_cons_of_mem _ ht))]

theorem eat_parseT (t : UT) : ∀ (pc : Nat) (seen : List Nat) (rd : Bool) (d : Nat) (l : List Instr), 1 ≤ d →
    eat d (parseT pc seen rd t ++ l) = eat d l := by
  induction t using UT.ind with
  | mv k =>
    intro pc seen rd d l hd
    simp only [parseT, List.cons_append, List.append_assoc, eat, eat_compares, eat_right]
  | fn p args ih =>
    intro pc seen rd d l hd
    have hL := eat_parseL_of args ih
    have e1 : ¬ d = 0 := by omega
    by_cases he : args.isEmpty = true
    · simp only [parseT, he, if_true, List.cons_append, eat, Nat.add_eq_right, e1, if_false, Nat.add_sub_cancel,
        eat_right]
    · cases rd
      · simp [parseT, he, eat, List.append_assoc, hL _ _ (d + 1) _ (by omega), e1]
      · simp [parseT, he, eat, List.append_assoc, hL _ _ (d + 1) _ (by omega), e1]

theorem eat_parseL (ts : List UT) (pc : Nat) (seen : List Nat) (d : Nat) (l : List Instr) (hd : 1 ≤ d) :
    eat d (parseL pc seen ts ++ l) = eat d l :=
  eat_parseL_of ts (fun t _ => eat_parseT t) pc seen d l hd

/-- The code of an atomic formula is one block. -/
theorem Atom.eat_code (f : Atom) (l : List Instr) : ∃ c, f.code = .begin :: c ∧ eat 1 (c ++ l) = some l := by
  unfold Atom.code
  by_cases he : f.args.isEmpty = true
  · exact ⟨[.check f.p, .fin none], by simp [he], by simp [eat]⟩
  · exact ⟨.check f.p :: .begin :: .down :: (parseL 0 [] f.args ++ [.fin none, .fin none]), by simp [he], by
      simp [eat, List.append_assoc, eat_parseL f.args 0 [] 2 _ (by omega)]⟩

theorem Atom.code_head (f : Atom) : f.code.head? = some .begin := by
  obtain ⟨c, hc, _⟩ := f.eat_code []
  rw [hc]; rfl

theorem Atom.code_prefix {f g : Atom} (h : f.code <+: g.code) : f.code = g.code := by
  obtain ⟨x, hx⟩ := h
  obtain ⟨c, hc, h1⟩ := f.eat_code x
  obtain ⟨d, hd, h2⟩ := g.eat_code []
  rw [hc, hd] at hx
  simp only [List.cons_append, List.cons.injEq, true_and] at hx
  rw [List.append_nil] at h2
  rw [hx, h2] at h1
  have : x = [] := (Option.some.inj h1).symm
  subst this
  rw [hc, hd, ← hx]; simp

/-! ### C29 -/

/-- The index is empty or well formed, and stores exactly what was inserted. -/
theorem index_built (batches : List (List Atom)) :
    ∃ n : Node Instr Atom, batches.foldlM (fun n l => n.addAtoms l) Node.empty = some n ∧
      (n = Node.empty ∨ n.WF) ∧ ∀ s f, (s, f) ∈ n.paths ↔ s = f.code ∧ f ∈ batches.flatten := by
  -- the invariant: nothing inserted yet, or a well-formed index with the right entries
  have key : ∀ (bs : List (List Atom)) (n : Node Instr Atom) (done : List Atom),
      ((n = Node.empty ∧ done = []) ∨ (n.WF ∧ n.value.head? = some .begin)) →
      (∀ s f, (s, f) ∈ n.paths ↔ s = f.code ∧ f ∈ done) →
      ∃ n' : Node Instr Atom, bs.foldlM (fun n l => n.addAtoms l) n = some n' ∧ (n' = Node.empty ∨ n'.WF) ∧
        ∀ s f, (s, f) ∈ n'.paths ↔ s = f.code ∧ f ∈ done ++ bs.flatten := by
    intro bs
    induction bs with
    | nil =>
      intro n done h1 h2
      refine ⟨n, rfl, ?_, by simpa using h2⟩
      rcases h1 with ⟨rfl, _⟩ | h1
      · exact Or.inl rfl
      · exact Or.inr h1.1
    | cons l bs ih =>
      intro n done h1 h2
      have step : ∃ n1 : Node Instr Atom, n.addAtoms l = some n1 ∧
          ((n1 = Node.empty ∧ done ++ l = []) ∨ (n1.WF ∧ n1.value.head? = some .begin)) ∧
          (∀ s f, (s, f) ∈ n1.paths ↔ s = f.code ∧ f ∈ done ++ l) := by
        -- insertion into a well-formed index
        have ins : ∀ (l done : List Atom) (n : Node Instr Atom), n.WF → n.value.head? = some .begin →
            (∀ s f, (s, f) ∈ n.paths ↔ s = f.code ∧ f ∈ done) →
            ∃ n1 : Node Instr Atom, n.addAtoms l = some n1 ∧ (n1.WF ∧ n1.value.head? = some .begin) ∧
              (∀ s f, (s, f) ∈ n1.paths ↔ s = f.code ∧ f ∈ done ++ l) := by
          intro l done n hw hh hp
          have hcode : ∀ p ∈ n.paths ++ l.map (fun f => (f.code, f)), ∃ f : Atom, p.1 = f.code := by
            intro p hp'
            simp only [List.mem_append, List.mem_map] at hp'
            rcases hp' with hp' | ⟨f, _, rfl⟩
            · exact ⟨p.2, ((hp p.1 p.2).1 hp').1⟩
            · exact ⟨f, rfl⟩
          obtain ⟨n1, e1, e2, e3, e4⟩ := n.insertAll_spec .begin (l.map fun f => (f.code, f)) hw hh
            (by intro p hp'; obtain ⟨f, hf⟩ := hcode p (by simp [hp']); rw [hf, f.code_head])
            (by
              intro p hp' q hq hpq
              obtain ⟨f, hf⟩ := hcode p hp'
              obtain ⟨g, hg⟩ := hcode q hq
              rw [hf, hg] at hpq ⊢
              exact Atom.code_prefix hpq)
          refine ⟨n1, e1, ⟨e2, e3⟩, fun s f => ?_⟩
          rw [e4, hp]
          simp only [List.mem_map, Prod.mk.injEq, List.mem_append]
          constructor
          · rintro (⟨h, h'⟩ | ⟨g, hg, rfl, rfl⟩)
            · exact ⟨h, Or.inl h'⟩
            · exact ⟨rfl, Or.inr hg⟩
          · rintro ⟨h, h' | h'⟩
            · exact Or.inl ⟨h, h'⟩
            · exact Or.inr ⟨f, h', h.symm, rfl⟩
        rcases h1 with ⟨rfl, rfl⟩ | ⟨hw, hh⟩
        · cases l with
          | nil => exact ⟨Node.empty, rfl, Or.inl ⟨rfl, rfl⟩, by simp [Node.empty, Node.paths, Node.pathsL]⟩
          | cons f l =>
            have hw : (Node.mk f.code [] [f]).WF := by
              refine Node.WF_iff.2 ⟨?_, by simp, by simp, Or.inl ⟨rfl, by simp, by simp⟩⟩
              obtain ⟨c, hc, _⟩ := f.eat_code []
              rw [hc]; simp
            obtain ⟨n1, e1, e2, e3⟩ := ins l [f] (.mk f.code [] [f]) hw f.code_head (by
              intro s g
              rw [Node.mem_paths]
              simp only [List.mem_singleton, List.not_mem_nil, false_and, exists_false, or_false]
              constructor
              · rintro ⟨rfl, rfl⟩; exact ⟨rfl, rfl⟩
              · rintro ⟨rfl, rfl⟩; exact ⟨rfl, rfl⟩)
            exact ⟨n1, e1, Or.inr e2, by simpa using e3⟩
        · obtain ⟨n1, e1, e2, e3⟩ := ins l done n hw hh h2
          exact ⟨n1, e1, Or.inr e2, e3⟩
      obtain ⟨n1, e1, e2, e3⟩ := step
      obtain ⟨n', f1, f2, f3⟩ := ih n1 (done ++ l) e2 e3
      exact ⟨n', by simp [List.foldlM_cons, e1, f1], f2, by simpa [List.append_assoc] using f3⟩
  simpa using key batches Node.empty [] (Or.inl ⟨rfl, rfl⟩) (by simp [Node.empty, Node.paths, Node.pathsL])

/-- **C29.** Inserting any formulas, in any order and number of batches, never panics, and what is then
stored is exactly what was inserted: every formula along its own instruction sequence, exactly once, and nothing
else. -/
theorem C29_index_exact (batches : List (List Atom)) :
    ∃ n : Node Instr Atom, batches.foldlM (fun n l => n.addAtoms l) Node.empty = some n ∧
      n.paths.Nodup ∧ ∀ s f, (s, f) ∈ n.paths ↔ s = f.code ∧ f ∈ batches.flatten := by
  obtain ⟨n, h1, h2, h3⟩ := index_built batches
  refine ⟨n, h1, ?_, h3⟩
  rcases h2 with rfl | h2
  · simp [Node.empty, Node.paths, Node.pathsL]
  · exact h2.nodup

/-- Two formulas with the same code, `p(X)` and `p(Y)`, and one that shares a prefix, `p(a)`. -/
example : ((Node.empty.addAtoms [⟨5, [.mv 0]⟩, ⟨5, [.mv 1]⟩, ⟨5, [.fn 100 []]⟩]).map fun n => n.paths.length) = some 3 := by
  decide +kernel

/-- Without the bracket structure an entry would be lost: a sequence that is a proper prefix of a stored
one makes the insertion drop the stored formulas (the new child does not inherit them, lines 282-288), and one
that is shorter by one instruction is itself dropped. `C29_index_exact` shows that codes of formulas
never get there. -/
theorem C29_prefix_loses_entry :
    ((Node.empty : Node Nat Nat).insertAll [([1, 2, 3], 0), ([1], 7)]).map Node.paths = some [([1], 7)] ∧
    ((Node.empty : Node Nat Nat).insertAll [([1, 2, 3], 0), ([1, 2], 7)]).map Node.paths = some [([1, 2, 3], 0)] := by
  decide +kernel

/-! ### C30 -/

section search

/-- The results a leaf contributes (src/Unif/matching.go:177-187): `computeSubstitutions` for every formula of the
node; failures are left out. `none` is a panic or a call that does not end. -/
def leafResults (au : AU) (n : Nat) (m : M) : List Atom → Option (List (Atom × Subst))
  | [] => some []
  | f :: rest =>
    match compute false au n (UT.occL f.args) m.subst m.mt with
    | .ok r => (leafResults au n m rest).map ((f, r) :: ·)
    | .fail => leafResults au n m rest
    | .panic => none
    | .out => none

/-- `unifyAux` (src/Unif/matching.go:103-191) with `launchChildrenSearch` (205-240): the children are
searched in parallel on copies of the machine; their answers are appended in the order of arrival, that is in any
order `outs'` of the answers `outs`. -/
inductive Search (au : AU) (n : Nat) : Node Instr Atom → M → List (Atom × Subst) → Prop where
  | fail {v : List Instr} {ch : List (Node Instr Atom)} {fs : List Atom} {m : M} (h : exec au v m = .fail) :
      Search au n (.mk v ch fs) m []
  | ok {v : List Instr} {ch : List (Node Instr Atom)} {fs : List Atom} {m m' : M} {own : List (Atom × Subst)}
      {outs outs' : List (List (Atom × Subst))} (h : exec au v m = .ok m') (hown : leafResults au n m' fs = some own)
      (hlen : outs.length = ch.length)
      (hch : ∀ i (h1 : i < ch.length) (h2 : i < outs.length), Search au n ch[i] m' outs[i])
      (hperm : outs'.Perm outs) :
      Search au n (.mk v ch fs) m (own ++ outs'.flatten)

/-- Running one sequence on its own. -/
def single (au : AU) (n : Nat) (m : M) (p : List Instr × Atom) : List (Atom × Subst) :=
  match exec au p.1 m with
  | .ok m' => match compute false au n (UT.occL p.2.args) m'.subst m'.mt with
    | .ok r => [(p.2, r)]
    | _ => []
  | _ => []

theorem single_append {au : AU} {n : Nat} {m m' : M} {v : List Instr} (h : exec au v m = .ok m')
    (s : List Instr) (f : Atom) : single au n m (v ++ s, f) = single au n m' (s, f) := by
  simp only [single, exec_append, h, Res.bind]

theorem single_fail {au : AU} {n : Nat} {m : M} {v : List Instr} (h : exec au v m = .fail)
    (s : List Instr) (f : Atom) : single au n m (v ++ s, f) = [] := by
  simp only [single, exec_append, h, Res.bind]

theorem leafResults_eq {au : AU} {n : Nat} {m m' : M} {v : List Instr} (h : exec au v m = .ok m') (fs : List Atom)
    {own : List (Atom × Subst)} (ho : leafResults au n m' fs = some own) :
    own = (fs.map fun f => (v, f)).flatMap (single au n m) := by
  induction fs generalizing own with
  | nil => simp only [leafResults, Option.some.injEq] at ho; simp [← ho]
  | cons f fs ih =>
    simp only [leafResults] at ho
    simp only [List.map_cons, List.flatMap_cons]
    have hs : single au n m (v, f) = match compute false au n (UT.occL f.args) m'.subst m'.mt with
        | .ok r => [(f, r)]
        | _ => [] := by
      simp only [single, h]
    rw [hs]
    cases hc : compute false au n (UT.occL f.args) m'.subst m'.mt with
    | ok r =>
      simp only [hc, Option.map_eq_some_iff] at ho
      obtain ⟨o, h1, rfl⟩ := ho
      rw [ih h1]; rfl
    | fail =>
      simp only [hc] at ho
      rw [ih ho]; rfl
    | panic => simp [hc] at ho
    | out => simp [hc] at ho

theorem pathsL_flatMap (g : List Instr × Atom → List (Atom × Subst)) (v : List Instr) (ch : List (Node Instr Atom)) :
    (Node.pathsL v ch).flatMap g = ch.flatMap fun c => c.paths.flatMap fun p => g (v ++ p.1, p.2) := by
  induction ch with
  | nil => simp [Node.pathsL]
  | cons c rest ih => simp [Node.pathsL, ih, List.flatMap_map]

/-- What the search returns is, up to order, what running every stored sequence on its own would return. -/
theorem search_perm {au : AU} {n : Nat} (t : Node Instr Atom) (m : M) (out : List (Atom × Subst))
    (h : Search au n t m out) : out.Perm (t.paths.flatMap (single au n m)) := by
  induction t using Node.ind generalizing m out with
  | h v ch fs ih =>
    cases h with
    | fail hf =>
      have : (Node.mk v ch fs).paths.flatMap (single au n m) = [] := by
        rw [List.flatMap_eq_nil_iff]
        rintro ⟨s, f⟩ hp
        obtain ⟨x, hx⟩ := Node.path_prefix hp
        simp only [Node.value] at hx
        rw [← hx]
        exact single_fail hf x f
      rw [this]
    | ok hok hown hlen hch hperm =>
      rename_i m' own outs outs'
      simp only [Node.paths, List.flatMap_append, pathsL_flatMap]
      rw [leafResults_eq hok fs hown]
      refine List.Perm.append_left _ ((hperm.flatten).trans ?_)
      -- child by child
      have hfun : ∀ c : Node Instr Atom, (c.paths.flatMap fun p => single au n m (v ++ p.1, p.2)) =
          c.paths.flatMap (single au n m') := by
        intro c
        congr 1
        funext p
        exact single_append hok p.1 p.2
      simp only [hfun]
      clear hown hperm hok
      induction ch generalizing outs with
      | nil =>
        simp only [List.length_nil, List.length_eq_zero_iff] at hlen
        subst hlen
        simp
      | cons c rest ih2 =>
        cases outs with
        | nil => simp at hlen
        | cons o outs =>
          simp only [List.flatten_cons, List.flatMap_cons]
          refine List.Perm.append ?_ ?_
          · exact ih c (by simp) m' o (hch 0 (by simp) (by simp))
          · refine ih2 (fun c hc => ih c (List.mem_cons_of_mem _ hc)) (outs := outs) (by simpa using hlen) (fun i h1 h2 => ?_)
            exact hch (i + 1) (by simpa using h1) (by simpa using h2)

end search

/-- **C30.** Build the index from any formulas, in any batches; search it for any formula, with the parallel
sub-searches answering in any order. The answers are, up to order, exactly those of running the code of every
inserted formula (once) on its own. -/
theorem C30_search_exact (batches : List (List Atom)) (t : Node Instr Atom)
    (ht : batches.foldlM (fun n l => n.addAtoms l) Node.empty = some t) (q : Atom) (n : Nat)
    (out : List (Atom × Subst)) (h : Search (addUnif false n) n t { terms := [q.term] } out) :
    out.Perm (batches.flatten.dedup.flatMap fun f => single (addUnif false n) n { terms := [q.term] } (f.code, f)) := by
  obtain ⟨t', ht', hnd, hmem⟩ := C29_index_exact batches
  rw [ht] at ht'
  obtain rfl := Option.some.inj ht'
  refine (search_perm t _ out h).trans ?_
  have : t.paths.Perm (batches.flatten.dedup.map fun f => (f.code, f)) := by
    rw [List.perm_ext_iff_of_nodup hnd]
    · rintro ⟨s, f⟩
      rw [hmem]
      simp only [List.mem_map, List.mem_dedup, Prod.mk.injEq]
      constructor
      · rintro ⟨h1, h2⟩; exact ⟨f, h2, h1.symm, rfl⟩
      · rintro ⟨g, h2, h1, rfl⟩; exact ⟨h1.symm, h2⟩
    · rw [List.nodup_map_iff_inj_on (List.nodup_dedup _)]
      intro a _ b _ hab
      simp only [Prod.mk.injEq] at hab
      exact hab.2
  have := this.flatMap_right (f := single (addUnif false n) n { terms := [q.term] })
  rwa [List.flatMap_map] at this

/-! ### What an answer means -/

/-- The run of the code of a formula against a formula. -/
theorem exec_code {ar : Nat → Nat} {au : AU} (hb : AUBase ar au) {f q : Atom} (a1 : f.term.Ar ar) (a2 : q.term.Ar ar)
    {m' : M} (h : exec au f.code { terms := [q.term] } = .ok m') :
    f.p = q.p ∧ Post.{0} ar au [] (UT.occL f.args) { terms := [q.term] } m' (fun A σ => f.term.eval A σ = q.term.eval A σ) := by
  have hcur : ({ terms := [q.term] } : M).terms[({ terms := [q.term] } : M).q]? = some (.fn q.p q.args) := rfl
  have hi : Inv ar [] { terms := [q.term] } :=
    ⟨by simp, by simp, by simp [Subst.keys], by simp [Subst.Ar], by simp, by simpa using a2, by simp⟩
  obtain ⟨a1l, a1a⟩ := a1
  obtain ⟨a2l, a2a⟩ := a2
  by_cases he : f.args.isEmpty = true
  · have he' : f.args = [] := by simpa using he
    simp only [Atom.code, he, if_true, exec, Res.bind_ok] at h
    obtain ⟨m1, h1, m2, h2, m3, h3, h⟩ := h
    rw [step_begin_fn hcur] at h1
    simp only [Res.ok.injEq] at h1
    subst h1
    rw [step_check_fn (by rfl) (by exact hcur)] at h2
    split at h2
    · rename_i hp
      simp only [Res.ok.injEq] at h2 h
      subst h2 h
      rw [step_fin (by rfl)] at h3
      have := checkEnd_ok h3
      subst this
      have hq : q.args = [] := by
        apply List.length_eq_zero_iff.1; rw [a2l, hp, ← a1l, he']; rfl
      refine ⟨hp.symm, ?_⟩
      have := Post.refl.{0} (au := au) (UT.occL f.args) (m := { terms := [q.term] })
        (m' := { terms := [q.term], beginCount := 0 + 1 - 1 }) (eq := fun A σ => f.term.eval A σ = q.term.eval A σ) hi
        (fun A σ => by simp [Atom.term, he', hq, hp]) rfl rfl hi.arT hi.arP
      simpa only [List.nil_append] using this
    · cases h2
  · have hne : f.args.isEmpty = false := by simpa using he
    simp only [Atom.code, hne, Bool.false_eq_true, if_false, exec, Res.bind_ok] at h
    obtain ⟨m1, h1, m2, h2, m3, h3, m4, h4, h⟩ := h
    rw [step_begin_fn hcur] at h1
    simp only [Res.ok.injEq] at h1
    subst h1
    rw [step_check_fn (by rfl) (by exact hcur)] at h2
    split at h2
    · rename_i hp
      simp only [Res.ok.injEq] at h2
      subst h2
      rw [step_begin_fn (by exact hcur)] at h3
      simp only [Res.ok.injEq] at h3
      subst h3
      rw [step_down (by rfl) (by exact hcur)] at h4
      simp only [Res.ok.injEq] at h4
      subst h4
      rw [exec_append, Res.bind_ok] at h
      obtain ⟨m5, h5, h⟩ := h
      have hlen : f.args.length = q.args.length := by rw [a1l, a2l, hp]
      cases hq : q.args with
      | nil =>
        rw [hq] at hlen
        rw [List.length_nil, List.length_eq_zero_iff] at hlen
        simp [hlen] at hne
      | cons u suf =>
        rw [hq] at hlen h5 a2a
        obtain ⟨hf, hpost⟩ := exec_list.{0} f.args (fun t _ => exec_term hb t) a1a []
          { terms := u :: suf, q := 0, tot := 0 + (u :: suf).length, cnt := 0 + 1, beginCount := 0 + 1 + 1 } m5 [] u suf
          ⟨rfl, rfl, rfl, rfl, rfl⟩
          ⟨by simp, by simp, by simp [Subst.keys], by simp [Subst.Ar], by simp,
            by simpa [UT.ArL_iff] using a2a, by simp⟩ hlen h5
        simp only [exec, Res.bind_ok] at h
        obtain ⟨m6, h6, m7, h7, h⟩ := h
        simp only [Res.ok.injEq] at h
        subst h
        rw [step_fin hf.lock] at h6
        have e6 := checkEnd_ok h6
        subst e6
        rw [step_fin (by exact hf.lock)] at h7
        have e7 := checkEnd_ok h7
        subst e7
        refine ⟨hp.symm, ?_⟩
        simp only [List.nil_append] at hpost
        refine (hpost.frame (m0' := { terms := [q.term] })
          (m1' := { m5 with beginCount := m5.beginCount - 1 - 1 }) rfl rfl rfl rfl hpost.inv.arT hpost.inv.arP).congr
          (fun A σ h => ?_) (fun A hA σ h => ?_)
        · simp only [Atom.term, UT.eval, hp, hq, h]
        · simp only [Atom.term, UT.eval, hp, hq] at h
          exact (hA _ _ _ _ h).2
    · cases h2

theorem mem_single {au : AU} {n : Nat} {m : M} {p : List Instr × Atom} {a : Atom × Subst} :
    a ∈ single au n m p ↔ a.1 = p.2 ∧ ∃ m', exec au p.1 m = .ok m' ∧
      compute false au n (UT.occL p.2.args) m'.subst m'.mt = .ok a.2 := by
  unfold single
  cases hx : exec au p.1 m with
  | ok m' =>
    simp only [Res.ok.injEq]
    cases hc : compute false au n (UT.occL p.2.args) m'.subst m'.mt with
    | ok r =>
      simp only [List.mem_singleton]
      constructor
      · rintro rfl; exact ⟨rfl, m', rfl, hc⟩
      · rintro ⟨h1, _, rfl, h2⟩
        rw [hc] at h2
        simp only [Res.ok.injEq] at h2
        obtain ⟨x, y⟩ := a
        simp_all
    | _ =>
      simp only [List.not_mem_nil, false_iff, not_and, not_exists]
      rintro _ _ rfl h
      simp [hc] at h
  | _ => simp

/-- **C30, the answers.** Every answer is an inserted formula with the same predicate symbol, together with a
substitution in solved form; every instantiation that makes the formula and the query equal satisfies
that substitution. (Each symbol is used with one arity.) -/
theorem C30_answers_general (batches : List (List Atom)) (t : Node Instr Atom)
    (ht : batches.foldlM (fun n l => n.addAtoms l) Node.empty = some t) (q : Atom) (n : Nat)
    (out : List (Atom × Subst)) (h : Search (addUnif false n) n t { terms := [q.term] } out)
    {ar : Nat → Nat} (har : ∀ f ∈ batches.flatten, f.term.Ar ar) (haq : q.term.Ar ar) (f : Atom) (r : Subst)
    (hf : (f, r) ∈ out) :
    f ∈ batches.flatten ∧ f.p = q.p ∧ r.Solved ∧ ∀ σ : Nat → UT, f.term.inst σ = q.term.inst σ → Respects σ r := by
  have hm := (C30_search_exact batches t ht q n out h).mem_iff.1 hf
  simp only [List.mem_flatMap, List.mem_dedup] at hm
  obtain ⟨f', h1, h2⟩ := hm
  obtain ⟨rfl, m', h3, h4⟩ := mem_single.1 h2
  have hb : AUBase ar (addUnif false n) := fun t1 t2 s r a1 a2 hk ha h =>
    ⟨(addUnif_spec.{0} ar false n t1 t2 s r a1 a2 hk ha h).solved.1, (addUnif_spec.{0} ar false n t1 t2 s r a1 a2 hk ha h).ar⟩
  have hg : AUGen.{0} ar (addUnif false n) := fun t1 t2 s r a1 a2 hk ha h =>
    (addUnif_spec.{0} ar false n t1 t2 s r a1 a2 hk ha h).gen
  obtain ⟨e1, e2⟩ := exec_code hb (har _ h1) haq h3
  obtain ⟨c1, _, _, c4⟩ := compute_spec.{0} hb e2.inv.arS e2.inv.keys e2.inv.arM h4
  refine ⟨h1, e1, c1, fun σ hσ => ?_⟩
  obtain ⟨d1, d2⟩ := e2.gen hg termAlg termAlg_free σ (fun p hp => by cases hp) (fun p hp => by cases hp) hσ
  exact c4 hg termAlg termAlg_free σ d1 d2

namespace Sample

/-- The index of `p(a)`, `p(X)` and `r(a)`, searched for `p(Y)`. -/
def idx : Option (Node Instr Atom) := Node.empty.addAtoms [⟨5, [a]⟩, ⟨5, [X]⟩, ⟨6, [a]⟩]

/-- The search with the children answering in their order, for examples. -/
def seq (au : AU) (n : Nat) : Nat → Node Instr Atom → M → Option (List (Atom × Subst))
  | 0, _, _ => none
  | k + 1, .mk v ch fs, m => match exec au v m with
    | .ok m' => do
      let own ← leafResults au n m' fs
      let outs ← ch.mapM fun c => seq au n k c m'
      pure (own ++ outs.flatten)
    | .fail => some []
    | _ => none

/-- The answers `p(a)` with `Y ↦ a` and `p(X)` with `X ↦ Y`, none for `r(a)`. -/
example : (idx.bind fun t => seq (addUnif false 9) 9 9 t { terms := [(⟨5, [Y]⟩ : Atom).term] }) =
    some [(⟨5, [a]⟩, [(1, a)]), (⟨5, [X]⟩, [(0, Y)])] := by decide +kernel

/-- The sequential search is one of the possible searches. -/
theorem seq_search {au : AU} {n k : Nat} {t : Node Instr Atom} {m : M} {out : List (Atom × Subst)}
    (h : seq au n k t m = some out) : Search au n t m out := by
  induction k generalizing t m out with
  | zero => simp [seq] at h
  | succ k ih =>
    obtain ⟨v, ch, fs⟩ := t
    simp only [seq] at h
    split at h
    · rename_i m' hm
      simp only [Option.bind_eq_bind, Option.bind_eq_some_iff, Option.pure_def, Option.some.injEq] at h
      obtain ⟨own, h1, outs, h2, rfl⟩ := h
      have hl : outs.length = ch.length ∧ ∀ i (h1 : i < ch.length) (h2 : i < outs.length), seq au n k ch[i] m' = some outs[i] := by
        clear h1
        induction ch generalizing outs with
        | nil => simp at h2; subst h2; simp
        | cons c ch ih2 =>
          simp only [List.mapM_cons, Option.bind_eq_bind, Option.bind_eq_some_iff, Option.pure_def, Option.some.injEq] at h2
          obtain ⟨o, h3, os, h4, rfl⟩ := h2
          obtain ⟨i1, i2⟩ := ih2 os h4
          refine ⟨by simp [i1], ?_⟩
          rintro ⟨⟩ h5 h6
          · exact h3
          · exact i2 _ _ _
      exact .ok hm h1 hl.1 (fun i h1 h2 => ih (hl.2 i h1 h2)) (List.Perm.refl _)
    · simp only [Option.some.injEq] at h
      subst h
      exact .fail (by assumption)
    · cases h

end Sample

end Verif.Unif
