import Verif.Mods.DmtProps
import Verif.Unif.IndexGround
import Verif.Search.Main
/-!
# C68: rewriting a literal with the rules made from axioms (`src/Mods/dmt/rewrite.go`)

`Rewrite` looks the atom of a literal up in the code tree of its polarity, keeps the answers that instantiate the rule, and returns
the results of the rules under the substitution of the answer, each with the part of the substitution that concerns the literal.

Simplifications. The maps `positiveRewrite` and `negativeRewrite` have the printed atom as key; here the key is the atom (two
atoms that differ contain different metavariables or symbols, which are printed with their numbers). Atoms have no type arguments, as in
`Verif.Search.Main`. The index of the formula an entry comes from is left out. The answer of the code tree is any answer that the parallel
search in it can give (`Verif.Unif.Search`); `.panic` is the end of the program by `Glob.Anomaly`.
-/

namespace Verif.Mods.Dmt
open Verif.AST Verif.Search Verif.Unif
open Verif.Search.Main (ofUT ofUTL applyForm)

/-- A rule as it is stored: in the tree of its polarity and in the map of its polarity
(`addPosRewriteRule`, `addNegRewriteRule`, src/Mods/dmt/axiom_registration.go:76-98). -/
structure Stored where
  pos : Bool
  atom : Atom
  cons : Form

/-- A rule made by `RegisterAxiom` in the form in which it is stored. Atoms that are not predicates have no code
(src/Unif/parsing.go:141-143). -/
def Rule.stored : Rule → Option Stored
  | ⟨b, .pred p _ args, c⟩ => some ⟨b, ⟨p, Incr.utOfL args⟩, c⟩
  | _ => none

/-- The code tree of a polarity: the atoms are inserted one by one (src/Mods/dmt/axiom_registration.go:78-80, 86-88). -/
def tree (R : List Stored) (b : Bool) : Option (Node Instr Atom) :=
  ((R.filter fun r => decide (r.pos = b)).map fun r => [r.atom]).foldlM (fun n l => n.addAtoms l) Node.empty

/-- `findEquivalence` (src/Mods/dmt/rewrite.go:247-249) in the map filled by `rewriteMapInsertion` (src/Mods/dmt/utils.go:59-69). -/
def lookup (R : List Stored) (b : Bool) (a : Atom) : List Form :=
  (R.filter fun r => decide (r.pos = b ∧ r.atom = a)).map (·.cons)

/-- An entry of the answer: the substitution (`none`: the failure) and the formula. -/
abbrev Entry := Option Subst × Form

/-- A literal. -/
def litOf (b : Bool) (q : Atom) : Form := if b then .pred q.p [] (ofUTL q.args) else .neg (.pred q.p [] (ofUTL q.args))

/-- `isFiltering`, `checkAllMetaAreInstanciated` (src/Mods/dmt/rewrite.go:191-212). -/
def isFiltering (a : Atom) (s : Subst) : Bool :=
  (UT.occL a.args).all fun m => s.any fun p => decide (p.1 = m ∨ p.2 = .mv m)

/-- `isBotOrTop` (src/Mods/dmt/rewrite.go:151-153). -/
def isBotOrTop (f : Form) : Bool := decide (f = .bot ∨ f = .top)

/-- `insert`, `insertFirst` (src/Mods/dmt/rewrite.go:171-189). -/
def insertUnif (forms : List Form) (l : List (Atom × Subst)) (u : Atom × Subst) : List (Atom × Subst) :=
  if forms.any isBotOrTop then u :: l else l ++ [u]

/-- `sortUnifications` (src/Mods/dmt/rewrite.go:155-168). -/
def sortUnifs (R : List Stored) (b : Bool) (out : List (Atom × Subst)) : List (Atom × Subst) :=
  out.foldl (fun l u => if isFiltering u.1 u.2 then insertUnif (lookup R b u.1) l u else l) []

/-- The list of `getUnifiedEquivalence` (src/Mods/dmt/rewrite.go:229-245) with `substitute`
(src/Mods/dmt/rewritten.go:47-53); `ListAdd` adds what is not there yet. -/
def unified (s : Subst) (forms : List Form) : List Form := forms.foldl (fun l f => appendNew l (applyForm s f)) []

/-- `checkMetaAreFromSearch` (src/Mods/dmt/rewrite.go:214-227). -/
def fromSearch (metas : List Nat) (s : Subst) : Bool := s.all fun p => decide (p.1 ∈ metas) && match p.2 with
  | .mv k => decide (k ∈ metas)
  | .fn _ _ => true

/-- `addUnifToAtomics` (src/Mods/dmt/rewrite.go:137-149). -/
def addEntry (s : Subst) (l : List Entry) (c : Form) : List Entry :=
  if isBotOrTop c then (some s, c) :: l else l ++ [(some s, c)]

/-- `addRewrittenFormulas` (src/Mods/dmt/rewrite.go:87-108). -/
def addRewritten (n : Nat) (metas : List Nat) (l : List Entry) (s : Subst) (cands : List Form) : Res (List Entry) :=
  (Clean.clean n s metas).bind fun u => if fromSearch metas u then .ok (cands.foldl (addEntry u) l) else .panic

/-- The loop of `getRewrittenFormulas` (src/Mods/dmt/rewrite.go:76-82). A rule that is not found is an error, on which the search stops
(src/Search/destructive.go:979-981). -/
def rewriteLoop (n : Nat) (R : List Stored) (b : Bool) (metas : List Nat) : List (Atom × Subst) → List Entry → Res (List Entry)
  | [], l => .ok l
  | u :: us, l =>
    if (lookup R b u.1).isEmpty then .panic
    else (addRewritten n metas l u.2 (unified u.2 (lookup R b u.1))).bind (rewriteLoop n R b metas us)

/-- `Rewrite`, `rewriteGeneric`, `getRewrittenFormulas`, `rewriteFailure` (src/Mods/dmt/rewrite.go:52-85, 128-135) on the literal with
polarity `b` and atom `q`, given the answer `out` of the code tree. -/
def rewrite (n : Nat) (R : List Stored) (out : List (Atom × Subst)) (b : Bool) (q : Atom) : Res (List Entry) :=
  let us := sortUnifs R b out
  rewriteLoop n R b (UT.occL q.args) us (if us.isEmpty then [(none, litOf b q)] else [])

/-! ### Specification -/

/-- The literal of a stored rule. -/
def Stored.lit (r : Stored) : Form := litOf r.pos r.atom

/-- A stored rule is valid in an interpretation: for all values of the metavariables the literal implies the result. -/
def Stored.Valid {D : Type u} (I : Interp D) (ρ : Nat → D) (r : Stored) : Prop :=
  ∀ μ : Nat → D, Form.holds I μ ρ r.lit → Form.holds I μ ρ r.cons

/-- `σ` matches the atom of the rule with the literal. -/
def Matches (b : Bool) (q : Atom) (r : Stored) (σ : Nat → UT) : Prop := r.pos = b ∧ r.atom.term.inst σ = q.term

/-- The values of the metavariables in the instance of the rule: those of the atom have the value of what they are matched
with. -/
def matchμ {D : Type u} (I : Interp D) (ρ μ : Nat → D) (r : Stored) (σ : Nat → UT) (i : Nat) : D :=
  if i ∈ UT.occL r.atom.args then Term.eval I ρ μ (ofUT (σ i)) else μ i

/-- `G` means the result of the rule for the match. -/
def MeansResult (r : Stored) (σ : Nat → UT) (G : Form) : Prop :=
  ∀ (D : Type) (I : Interp D) (ρ μ : Nat → D), Form.holds I μ ρ G ↔ Form.holds I (matchμ I ρ μ r σ) ρ r.cons

/-- No metavariable occurs twice in an argument of an atom of the result (see C42). -/
def Stored.Linear (r : Stored) : Prop := ∀ m, r.cons.linearIn m

/-! ### Terms -/

theorem ofUTL_eq (l : List UT) : ofUTL l = l.map ofUT := by
  induction l with
  | nil => rfl
  | cons t l ih => simp [ofUTL, ih]

theorem ofUT_vars (t : UT) : (ofUT t).vars = [] := by
  induction t using UT.ind with
  | mv i => rfl
  | fn p args ih =>
    simp only [ofUT, Term.vars]
    induction args with
    | nil => rfl
    | cons a l ihl =>
      simp only [ofUTL, Term.varsL, ih a (by simp), List.nil_append]
      exact ihl fun a ha => ih a (by simp [ha])

theorem ofUT_metas (t : UT) : (ofUT t).metas = t.occ := by
  induction t using UT.ind with
  | mv i => rfl
  | fn p args ih =>
    simp only [ofUT, Term.metas, UT.occ]
    induction args with
    | nil => rfl
    | cons a l ihl =>
      simp only [ofUTL, Term.metasL, UT.occL, ih a (by simp)]
      rw [ihl fun a ha => ih a (by simp [ha])]

/-- The functions of an interpretation, for machine terms. -/
def algOf {D : Type u} (I : Interp D) : Alg D := fun p l => I.fn p [] l

theorem eval_ofUT {D : Type u} (I : Interp D) (ρ μ : Nat → D) (t : UT) :
    Term.eval I ρ μ (ofUT t) = t.eval (algOf I) μ := by
  induction t using UT.ind with
  | mv i => simp [ofUT, Term.eval, UT.eval]
  | fn p args ih =>
    simp only [ofUT, Term.eval, UT.eval, ofUTL_eq, Term.evalL_eq_map, UT.evalL_eq, List.map_map, algOf]
    congr 1
    exact List.map_congr_left fun a ha => ih a ha

theorem eval_ofUT_inst {D : Type u} (I : Interp D) (ρ μ : Nat → D) (σ : Nat → UT) (t : UT) :
    Term.eval I ρ μ (ofUT (t.inst σ)) = Term.eval I ρ (fun i => Term.eval I ρ μ (ofUT (σ i))) (ofUT t) := by
  rw [eval_ofUT, UT.eval_inst, eval_ofUT]
  exact UT.eval_congr _ fun i _ => (eval_ofUT I ρ μ (σ i)).symm

/-- What a literal says, in terms of the machine term of its atom. -/
theorem holds_litOf {D : Type u} {I : Interp D} {ρ μ μ' : Nat → D} {b : Bool} {f q : Atom} {σ : Nat → UT} (h : f.term.inst σ = q.term)
    (hμ : ∀ i ∈ UT.occL f.args, μ' i = Term.eval I ρ μ (ofUT (σ i))) :
    Form.holds I μ' ρ (litOf b f) ↔ Form.holds I μ ρ (litOf b q) := by
  have key : f.p = q.p ∧ (ofUTL f.args).map (Term.eval I ρ μ') = (ofUTL q.args).map (Term.eval I ρ μ) := by
    obtain ⟨fp, fa⟩ := f
    obtain ⟨qp, qa⟩ := q
    simp only [Atom.term, UT.inst, UT.eval, termAlg, UT.fn.injEq, UT.evalL_eq] at h
    obtain ⟨rfl, rfl⟩ := h
    refine ⟨rfl, ?_⟩
    simp only [ofUTL_eq, List.map_map]
    refine List.map_congr_left fun t ht => ?_
    show Term.eval I ρ μ' (ofUT t) = Term.eval I ρ μ (ofUT (t.inst σ))
    rw [eval_ofUT_inst, eval_ofUT, eval_ofUT]
    exact UT.eval_congr _ fun i hi => hμ i (UT.mem_occL.2 ⟨t, ht, hi⟩)
  obtain ⟨k1, k2⟩ := key
  unfold litOf
  cases b <;> simp [Form.holds_pred, k1, k2]

/-! ### Lists of entries -/

theorem mem_unified {s : Subst} {forms : List Form} {c : Form} : c ∈ unified s forms ↔ ∃ f ∈ forms, c = applyForm s f := by
  have : ∀ (l : List Form), c ∈ forms.foldl (fun l f => appendNew l (applyForm s f)) l ↔ c ∈ l ∨ ∃ f ∈ forms, c = applyForm s f := by
    induction forms with
    | nil => simp
    | cons f fs ih =>
      intro l
      rw [List.foldl_cons, ih]
      have : c ∈ appendNew l (applyForm s f) ↔ c ∈ l ∨ c = applyForm s f := by
        unfold appendNew
        split
        · rename_i h
          exact ⟨.inl, fun h' => h'.elim id fun e => e ▸ h⟩
        · simp
      rw [this, List.exists_mem_cons_iff, or_assoc]
  simpa [unified] using this []

theorem mem_addEntry {u : Subst} {l : List Entry} {c : Form} {e : Entry} : e ∈ addEntry u l c ↔ e ∈ l ∨ e = (some u, c) := by
  unfold addEntry
  split <;> simp [or_comm]

theorem mem_addEntries {u : Subst} {e : Entry} (cands : List Form) : ∀ {l : List Entry},
    e ∈ cands.foldl (addEntry u) l ↔ e ∈ l ∨ ∃ c ∈ cands, e = (some u, c) := by
  induction cands with
  | nil => simp
  | cons c cs ih =>
    intro l
    rw [List.foldl_cons, ih, mem_addEntry, List.exists_mem_cons_iff, or_assoc]

/-- Truth and falsity are in front. -/
def Front (l : List Entry) : Prop := ∀ e ∈ l, isBotOrTop e.2 = true → ∃ e' ∈ l.head?, isBotOrTop e'.2 = true

theorem front_addEntry {u : Subst} {l : List Entry} {c : Form} (h : Front l) : Front (addEntry u l c) := by
  unfold addEntry
  split
  · rename_i hc
    intro e _ _
    exact ⟨_, rfl, hc⟩
  · rename_i hc
    intro e he hb
    rcases List.mem_append.1 he with he | he
    · obtain ⟨e', h1, h2⟩ := h e he hb
      cases l with
      | nil => cases he
      | cons x l => exact ⟨e', h1, h2⟩
    · simp only [List.mem_singleton] at he
      subst he
      exact absurd hb hc

theorem front_addEntries {u : Subst} (cands : List Form) : ∀ {l : List Entry}, Front l → Front (cands.foldl (addEntry u) l) := by
  induction cands with
  | nil => exact id
  | cons c cs ih => exact fun h => ih (front_addEntry h)

theorem mem_sortUnifs {R : List Stored} {b : Bool} {out : List (Atom × Subst)} {u : Atom × Subst} :
    u ∈ sortUnifs R b out ↔ u ∈ out ∧ isFiltering u.1 u.2 = true := by
  have : ∀ l : List (Atom × Subst), u ∈ out.foldl (fun l u => if isFiltering u.1 u.2 then insertUnif (lookup R b u.1) l u else l) l ↔
      u ∈ l ∨ (u ∈ out ∧ isFiltering u.1 u.2 = true) := by
    induction out with
    | nil => simp
    | cons v out ih =>
      intro l
      rw [List.foldl_cons, ih]
      have hm : ∀ v, u ∈ insertUnif (lookup R b v.1) l v ↔ u ∈ l ∨ u = v := by
        intro v
        unfold insertUnif
        split <;> simp [or_comm]
      by_cases hv : isFiltering v.1 v.2 = true
      · rw [if_pos hv, hm]
        constructor
        · rintro ((h | rfl) | h)
          · exact .inl h
          · exact .inr ⟨by simp, hv⟩
          · exact .inr ⟨by simp [h.1], h.2⟩
        · rintro (h | ⟨h, h'⟩)
          · exact .inl (.inl h)
          · rcases List.mem_cons.1 h with rfl | h
            · exact .inl (.inr rfl)
            · exact .inr ⟨h, h'⟩
      · rw [if_neg hv]
        constructor
        · rintro (h | h)
          · exact .inl h
          · exact .inr ⟨by simp [h.1], h.2⟩
        · rintro (h | ⟨h, h'⟩)
          · exact .inl h
          · rcases List.mem_cons.1 h with rfl | h
            · exact absurd h' hv
            · exact .inr ⟨h, h'⟩
  simpa [sortUnifs] using this []

theorem mem_lookup {R : List Stored} {b : Bool} {a : Atom} {c : Form} :
    c ∈ lookup R b a ↔ ∃ r ∈ R, r.pos = b ∧ r.atom = a ∧ r.cons = c := by
  simp [lookup, and_assoc]

/-! ### Literals without metavariables -/

theorem clean_none (n : Nat) (s : Subst) : Clean.clean (n + 1) s [] = .ok [] := by
  have h : ∀ (s : Subst), s.foldl Clean.step { rel := [], changed := false } = { rel := [], changed := false } := by
    intro s
    induction s with
    | nil => rfl
    | cons p s ih =>
      rw [List.foldl_cons]
      have : Clean.step { rel := [], changed := false } p = { rel := [], changed := false } := by
        unfold Clean.step
        split <;> simp
      rw [this, ih]
  simp only [Clean.clean, Clean.rounds]
  rw [h]
  rfl

theorem rewriteLoop_ground (n : Nat) (R : List Stored) (b : Bool) (us : List (Atom × Subst)) :
    ∀ l : List Entry, (∀ u ∈ us, lookup R b u.1 ≠ []) → Front l → ∃ es, rewriteLoop (n + 1) R b [] us l = .ok es ∧ Front es ∧
      ∀ e, e ∈ es ↔ e ∈ l ∨ ∃ u ∈ us, ∃ f ∈ lookup R b u.1, e = (some [], applyForm u.2 f) := by
  induction us with
  | nil => intro l _ hf; exact ⟨l, rfl, hf, by simp⟩
  | cons u us ih =>
    intro l hl hf
    have h0 := hl u (by simp)
    obtain ⟨es, h1, h2, h3⟩ := ih ((unified u.2 (lookup R b u.1)).foldl (addEntry []) l) (fun v hv => hl v (by simp [hv]))
      (front_addEntries _ hf)
    refine ⟨es, ?_, h2, fun e => ?_⟩
    · unfold rewriteLoop
      rw [if_neg (by simpa using h0)]
      simp only [addRewritten, clean_none, Res.bind]
      rw [if_pos (by rfl)]
      exact h1
    · rw [h3, mem_addEntries]
      simp only [List.exists_mem_cons_iff, mem_unified]
      constructor
      · rintro ((h | ⟨c, ⟨f, hf, rfl⟩, rfl⟩) | h)
        · exact .inl h
        · exact .inr (.inl ⟨f, hf, rfl⟩)
        · exact .inr (.inr h)
      · rintro (h | ⟨f, hf, rfl⟩ | h)
        · exact .inl (.inl h)
        · exact .inl (.inr ⟨_, ⟨f, hf, rfl⟩, rfl⟩)
        · exact .inr h

/-- Two instantiations with the same effect agree on the metavariables of the term. -/
theorem inst_agree {σ τ : Nat → UT} (t : UT) (h : t.inst σ = t.inst τ) : ∀ i ∈ t.occ, σ i = τ i := by
  induction t using UT.ind with
  | mv i =>
    intro j hj
    simp only [UT.occ, List.mem_singleton] at hj
    subst hj
    simpa [UT.inst, UT.eval] using h
  | fn p args ih =>
    intro i hi
    obtain ⟨a, ha, hi⟩ := UT.mem_occL.1 hi
    simp only [UT.inst, UT.eval, termAlg, UT.fn.injEq, UT.evalL_eq, true_and, List.map_inj_left] at h
    exact ih a ha (h a ha) i hi

theorem applyForm_eq (s : Subst) (f : Form) : applyForm s f = substituteAll (s.map fun p => (p.1, ofUT p.2)) f := by
  simp [applyForm, substituteAll, List.foldl_map]

theorem solved_map {s : Subst} (h : s.Solved) : Solved (s.map fun p => (p.1, ofUT p.2)) := by
  refine ⟨?_, ?_, ?_⟩
  · rw [List.map_map]; exact h.1
  · intro p hp
    obtain ⟨q, _, rfl⟩ := List.mem_map.1 hp
    exact ofUT_vars _
  · intro p hp q hq
    obtain ⟨p', hp', rfl⟩ := List.mem_map.1 hp
    obtain ⟨q', hq', rfl⟩ := List.mem_map.1 hq
    rw [ofUT_metas]
    exact h.2 p' hp' q'.1 (List.mem_map.2 ⟨q', hq', rfl⟩)

theorem instμ_map {D : Type u} (I : Interp D) (ρ μ : Nat → D) (s : Subst) (i : Nat) :
    instμ I ρ μ (s.map fun p => (p.1, ofUT p.2)) i = Term.eval I ρ μ (ofUT (s.fn i)) := by
  unfold instμ Subst.fn Subst.get
  rw [List.find?_map]
  simp only [Function.comp_def]
  cases s.find? (fun p => decide (p.1 = i)) with
  | none => simp [ofUT, Term.eval]
  | some p => simp

theorem means_result {s : Subst} {r : Stored} {σ : Nat → UT} (hs : s.Solved) (hk : ∀ k ∈ s.keys, k ∈ UT.occL r.atom.args)
    (hl : r.Linear) (h : r.atom.term.inst s.fn = r.atom.term.inst σ) : MeansResult r σ (applyForm s r.cons) := by
  intro D I ρ μ
  rw [applyForm_eq, substituteAll_holds _ _ _ (solved_map hs) (fun p _ => hl p.1)]
  have : instμ I ρ μ (s.map fun p => (p.1, ofUT p.2)) = matchμ I ρ μ r σ := by
    funext i
    rw [instμ_map]
    unfold matchμ
    split
    · rename_i hi
      rw [inst_agree _ h i hi]
    · rename_i hi
      rw [Subst.fn_not_key fun hk' => hi (hk i hk')]
      simp [ofUT, Term.eval]
  rw [this]

theorem batches_mem {R : List Stored} {b : Bool} {f : Atom} :
    f ∈ ((R.filter fun r => decide (r.pos = b)).map fun r => [r.atom]).flatten ↔ ∃ r ∈ R, r.pos = b ∧ r.atom = f := by
  simp [and_assoc, eq_comm (a := f)]

/-- An answer of the code tree to a query without metavariables. -/
structure Answer (R : List Stored) (b : Bool) (q : Atom) (f : Atom) (s : Subst) : Prop where
  rule : ∃ r ∈ R, r.pos = b ∧ r.atom = f
  solved : s.Solved
  eq : f.term.inst s.fn = q.term
  keys : ∀ k ∈ s.keys, k ∈ UT.occL f.args
  filtering : isFiltering f s = true

theorem answer {ar : Nat → Nat} {R : List Stored} {b : Bool} {q : Atom} {t : Node Instr Atom} {n : Nat} {out : List (Atom × Subst)}
    (ht : tree R b = some t) (h : Search (addUnif false n) n t { terms := [q.term] } out)
    (har : ∀ r ∈ R, r.atom.term.Ar ar) (haq : q.term.Ar ar) (hg : q.term.occ = []) {f : Atom} {s : Subst} (hf : (f, s) ∈ out) :
    Answer R b q f s := by
  have har' : ∀ f ∈ ((R.filter fun r => decide (r.pos = b)).map fun r => [r.atom]).flatten, f.term.Ar ar := by
    intro f hf
    obtain ⟨r, hr, _, rfl⟩ := batches_mem.1 hf
    exact har r hr
  obtain ⟨a1, a2⟩ := C30_ground_sound _ t ht q n out h har' haq f s hf (Or.inl hg)
  obtain ⟨_, _, a3, a4⟩ := C30_answers_general _ t ht q n out h har' haq f s hf
  rw [UT.inst_ground hg] at a2
  have hocc : ∀ i ∈ UT.occL f.args, (s.fn i).occ = [] := by
    have : ∀ (t : UT), (t.inst s.fn).occ = [] → ∀ i ∈ t.occ, (s.fn i).occ = [] := by
      intro t
      induction t using UT.ind with
      | mv i =>
        intro h j hj
        simp only [UT.occ, List.mem_singleton] at hj
        subst hj
        simpa [UT.inst, UT.eval] using h
      | fn p args ih =>
        intro h i hi
        obtain ⟨a, ha, hi⟩ := UT.mem_occL.1 hi
        refine ih a ha ?_ i hi
        simp only [UT.inst, UT.eval, termAlg, UT.evalL_eq, UT.occ] at h
        refine List.eq_nil_iff_forall_not_mem.2 fun j hj => ?_
        have : j ∈ UT.occL (args.map (UT.eval UT.fn s.fn)) := UT.mem_occL.2 ⟨_, List.mem_map.2 ⟨a, ha, rfl⟩, hj⟩
        rw [h] at this
        cases this
    exact this f.term (by rw [a2]; exact hg)
  refine ⟨batches_mem.1 a1, a3, a2, ?_, ?_⟩
  · intro k hk
    refine Classical.byContradiction fun hn => ?_
    obtain ⟨⟨k', v⟩, hv, rfl⟩ := List.mem_map.1 hk
    have hkv : k' ∉ v.occ := a3.2 _ hv _ hk
    let σ : Nat → UT := fun i => if i = k' then .fn 0 [v.inst s.fn] else s.fn i
    have e1 : f.term.inst σ = f.term.inst s.fn := UT.eval_congr _ fun i hi => by
      have : i ≠ k' := fun e => hn (e ▸ hi)
      simp [σ, this]
    have e2 : v.inst σ = v.inst s.fn := UT.eval_congr _ fun i hi => by
      have : i ≠ k' := fun e => hkv (e ▸ hi)
      simp [σ, this]
    have := a4 σ (by rw [e1, a2, UT.inst_ground hg]) _ hv
    simp only [e2] at this
    have h3 : UT.fn 0 [v.inst s.fn] = v.inst s.fn := by simpa [σ] using this
    have := congrArg sizeOf h3
    simp at this
    omega
  · simp only [isFiltering, List.all_eq_true, List.any_eq_true, decide_eq_true_eq]
    intro m hm
    by_cases hk : m ∈ s.keys
    · obtain ⟨p, hp, rfl⟩ := List.mem_map.1 hk
      exact ⟨p, hp, .inl rfl⟩
    · have := hocc m hm
      rw [Subst.fn_not_key hk] at this
      simp [UT.occ] at this

/-- **C68 for literals without metavariables (partial).** Let each symbol be used with one arity and let no metavariable occur twice in an
argument of the result of a rule. Whatever the order in which the search in the code tree answers, `Rewrite` succeeds. If the
literal matches no rule, it is returned as a failure. Otherwise the entries are, up to meaning, the results of exactly the rules
that match, all of them with the empty substitution, and truth and falsity come first. (Missing: literals with
metavariables, where the claim is false.) -/
theorem C68_ground_partial {ar : Nat → Nat} (R : List Stored) (b : Bool) (q : Atom) (t : Node Instr Atom) (n : Nat)
    (out : List (Atom × Subst)) (ht : tree R b = some t)
    (h : Unif.Search (addUnif false (n + 2)) (n + 2) t { terms := [q.term] } out)
    (har : ∀ r ∈ R, r.atom.term.Ar ar) (haq : q.term.Ar ar) (hg : q.term.occ = []) (hl : ∀ r ∈ R, r.Linear) :
    ∃ es, rewrite (n + 2) R out b q = .ok es ∧
      ((¬ ∃ r ∈ R, ∃ σ, Matches b q r σ) → es = [(none, litOf b q)]) ∧
      ((∃ r ∈ R, ∃ σ, Matches b q r σ) →
        (∀ e ∈ es, e.1 = some [] ∧ ∃ r ∈ R, ∃ σ, Matches b q r σ ∧ MeansResult r σ e.2) ∧
        (∀ r ∈ R, ∀ σ, Matches b q r σ → ∃ e ∈ es, e.1 = some [] ∧ MeansResult r σ e.2)) ∧
      (∀ e ∈ es, e.2 = .top ∨ e.2 = .bot → ∃ e' ∈ es.head?, e'.2 = .top ∨ e'.2 = .bot) := by
  have hans := fun (f : Atom) (s : Subst) hf => answer (f := f) (s := s) ht h har haq hg hf
  have har' : ∀ f ∈ ((R.filter fun r => decide (r.pos = b)).map fun r => [r.atom]).flatten, f.term.Ar ar := by
    intro f hf
    obtain ⟨r, hr, _, rfl⟩ := batches_mem.1 hf
    exact har r hr
  have hex := C30_ground_exact _ t ht q n out h har' haq hg
  have hus : ∀ u, u ∈ sortUnifs R b out ↔ u ∈ out := fun u =>
    mem_sortUnifs.trans ⟨And.left, fun hu => ⟨hu, (hans u.1 u.2 hu).filtering⟩⟩
  have hlook : ∀ u ∈ sortUnifs R b out, lookup R b u.1 ≠ [] := by
    intro u hu e
    obtain ⟨r, hr, h1, h2⟩ := (hans u.1 u.2 ((hus u).1 hu)).rule
    have : r.cons ∈ lookup R b u.1 := mem_lookup.2 ⟨r, hr, h1, h2, rfl⟩
    rw [e] at this
    cases this
  have hlit : isBotOrTop (litOf b q) = false := by unfold litOf; cases b <;> simp [isBotOrTop]
  have hq0 : UT.occL q.args = [] := hg
  have hmatch : (∃ r ∈ R, ∃ σ, Matches b q r σ) ↔ out ≠ [] := by
    constructor
    · rintro ⟨r, hr, σ, h1, h2⟩ e
      obtain ⟨s, hs⟩ := (hex r.atom).2 ⟨batches_mem.2 ⟨r, hr, h1, rfl⟩, σ, h2⟩
      rw [e] at hs
      cases hs
    · intro hne
      obtain ⟨⟨f, s⟩, l, rfl⟩ := List.exists_cons_of_ne_nil hne
      have ha := hans f s (by simp)
      obtain ⟨r, hr, h1, h2⟩ := ha.rule
      exact ⟨r, hr, s.fn, h1, by rw [h2]; exact ha.eq⟩
  have hempty : (sortUnifs R b out).isEmpty = true ↔ out = [] := by
    rw [List.isEmpty_iff, List.eq_nil_iff_forall_not_mem, List.eq_nil_iff_forall_not_mem]
    exact forall_congr' fun u => not_congr (hus u)
  obtain ⟨es, h1, h2, h3⟩ := rewriteLoop_ground (n + 1) R b (sortUnifs R b out)
    (if (sortUnifs R b out).isEmpty then [(none, litOf b q)] else []) hlook (by
      split
      · intro e he hb
        simp only [List.mem_singleton] at he
        subst he
        rw [hlit] at hb
        cases hb
      · intro e he; cases he)
  refine ⟨es, by simp only [rewrite, hq0]; exact h1, fun hno => ?_, fun hyes => ⟨fun e he => ?_, fun r hr σ hm => ?_⟩, fun e he hb => ?_⟩
  · have ho : out = [] := Classical.byContradiction fun hne => hno (hmatch.2 hne)
    subst ho
    have : sortUnifs R b [] = [] := rfl
    simp only [this, rewriteLoop, List.isEmpty_nil, if_true, Res.ok.injEq] at h1
    exact h1.symm
  · have hne : ¬ (sortUnifs R b out).isEmpty = true := fun e => hmatch.1 hyes (hempty.1 e)
    rw [h3, if_neg hne] at he
    rcases he with he | ⟨u, hu, f, hf, rfl⟩
    · cases he
    · obtain ⟨r, hr, k1, k2, rfl⟩ := mem_lookup.1 hf
      have ha := hans u.1 u.2 ((hus u).1 hu)
      refine ⟨rfl, r, hr, u.2.fn, ⟨k1, by rw [k2]; exact ha.eq⟩, means_result ha.solved (by rw [k2]; exact ha.keys) (hl r hr) rfl⟩
  · obtain ⟨k1, k2⟩ := hm
    obtain ⟨s, hs⟩ := (hex r.atom).2 ⟨batches_mem.2 ⟨r, hr, k1, rfl⟩, σ, k2⟩
    have ha := hans _ _ hs
    refine ⟨(some [], applyForm s r.cons), ?_, rfl, means_result ha.solved ha.keys (hl r hr) (by rw [ha.eq, k2])⟩
    rw [h3]
    exact .inr ⟨(r.atom, s), (hus _).2 hs, r.cons, mem_lookup.2 ⟨r, hr, k1, rfl, rfl⟩, rfl⟩
  · obtain ⟨e', h4, h5⟩ := h2 e he (by simpa [isBotOrTop, or_comm] using hb)
    exact ⟨e', h4, by simpa [isBotOrTop, or_comm] using h5⟩

/-- **C68, soundness for literals without metavariables (partial).** In an interpretation in which the rules are valid, the literal implies
every formula it is rewritten into, for all values of the metavariables left in it. -/
theorem C68_ground_sound_partial {ar : Nat → Nat} (R : List Stored) (b : Bool) (q : Atom) (t : Node Instr Atom) (n : Nat)
    (out : List (Atom × Subst)) (ht : tree R b = some t)
    (h : Unif.Search (addUnif false (n + 2)) (n + 2) t { terms := [q.term] } out)
    (har : ∀ r ∈ R, r.atom.term.Ar ar) (haq : q.term.Ar ar) (hg : q.term.occ = []) (hl : ∀ r ∈ R, r.Linear)
    (es : List Entry) (he : rewrite (n + 2) R out b q = .ok es) (D : Type) (I : Interp D) (ρ : Nat → D)
    (hI : ∀ r ∈ R, r.Valid I ρ) (μ : Nat → D) (hlit : Form.holds I μ ρ (litOf b q)) (e : Entry) (hes : e ∈ es) :
    Form.holds I μ ρ e.2 := by
  obtain ⟨es', h1, h2, h3, _⟩ := C68_ground_partial R b q t n out ht h har haq hg hl
  rw [he] at h1
  cases h1
  by_cases hm : ∃ r ∈ R, ∃ σ, Matches b q r σ
  · obtain ⟨_, r, hr, σ, ⟨k1, k2⟩, k3⟩ := (h3 hm).1 e hes
    rw [k3]
    refine hI r hr _ ?_
    rw [Stored.lit, k1, holds_litOf k2]
    · exact hlit
    · intro i hi
      simp [matchμ, hi]
  · rw [h2 hm, List.mem_singleton] at hes
    subst hes
    exact hlit

/-- **C68, from the axiom to the branch (partial).** Let `F` be a well-formed axiom whose rules are stored without loss (their atoms are
predicates without type arguments). Every model of `F` can be extended on new Skolem symbols (not at all without
preskolemisation) to an interpretation in which every literal without metavariables implies every formula into which it is rewritten. -/
theorem C68_axiom_ground_sound_partial {ar : Nat → Nat} {o : Opts} {m sk sk' w : Nat} {F : Form} {k : Bool} {rules : List Rule}
    {R : List Stored} (wf : WF F w) (hw : w ≤ sk) (hm : ∀ i ∈ F.metas, i < m) (hreg : register o m sk F = some (k, rules, sk'))
    (hR : rules.mapM Rule.stored = some R) (hplain : ∀ r ∈ rules, ∀ s, r.stored = some s → s.lit = r.lit)
    (har : ∀ r ∈ R, r.atom.term.Ar ar) (hl : ∀ r ∈ R, r.Linear) (D : Type) (I : Interp D) (ρ : Nat → D) (hI : ∀ μ, Form.holds I μ ρ F) :
    ∃ J : Interp D, J.pr = I.pr ∧ (∀ p, p < sk → J.fn p = I.fn p) ∧ (o.presko = false → J = I) ∧
      ∀ (b : Bool) (q : Atom) (t : Node Instr Atom) (n : Nat) (out : List (Atom × Subst)), tree R b = some t →
        Unif.Search (addUnif false (n + 2)) (n + 2) t { terms := [q.term] } out → q.term.Ar ar → q.term.occ = [] →
        ∃ es, rewrite (n + 2) R out b q = .ok es ∧ ∀ μ, Form.holds J μ ρ (litOf b q) → ∀ e ∈ es, Form.holds J μ ρ e.2 := by
  obtain ⟨J, j1, j2, j3, j4⟩ := C42_rules_follow wf hw hm hreg D I ρ hI
  refine ⟨J, j1, j2, j3, fun b q t n out ht h haq hg => ?_⟩
  obtain ⟨es, h1, _⟩ := C68_ground_partial R b q t n out ht h har haq hg hl
  refine ⟨es, h1, fun μ hlit e he => C68_ground_sound_partial R b q t n out ht h har haq hg hl es h1 D J ρ (fun s hs μ' => ?_) μ hlit e he⟩
  have : ∀ (rs : List Rule) (R : List Stored), rs.mapM Rule.stored = some R → s ∈ R → ∃ r ∈ rs, r.stored = some s := by
    intro rs
    induction rs with
    | nil => intro R hR hs; simp at hR; subst hR; cases hs
    | cons r rs ih =>
      intro R hR hs
      simp only [List.mapM_cons, Option.bind_eq_bind, Option.bind_eq_some_iff, Option.pure_def, Option.some.injEq] at hR
      obtain ⟨x, hx, xs, hxs, rfl⟩ := hR
      rcases List.mem_cons.1 hs with rfl | hs
      · exact ⟨r, by simp, hx⟩
      · obtain ⟨r', h1, h2⟩ := ih xs hxs hs
        exact ⟨r', by simp [h1], h2⟩
  obtain ⟨r, hr, hrs⟩ := this rules R hR hs
  rw [hplain r hr s hrs]
  intro hh
  have hj := j4 r hr μ' hh
  obtain ⟨rb, ra, rc⟩ := r
  unfold Rule.stored at hrs
  split at hrs
  · rename_i e
    simp only [Rule.mk.injEq] at e
    simp only [Option.some.injEq] at hrs
    subst hrs
    obtain ⟨_, _, rfl⟩ := e
    exact hj
  · cases hrs

/-! ### The full claim, and where it fails -/

/-- The claim for one entry, of a literal that has no metavariable in common with the rules: if the substitution of the entry is respected, the
literal implies the formula in every model of the rules; and neither the substitution nor the formula contains a metavariable that
is not one of the literal. -/
def EntryOk (R : List Stored) (b : Bool) (q : Atom) (u : Subst) (G : Form) : Prop :=
  (∀ (D : Type) (I : Interp D) (ρ μ : Nat → D), (∀ r ∈ R, r.Valid I ρ) → (∀ p ∈ u, μ p.1 = Term.eval I ρ μ (ofUT p.2)) →
    Form.holds I μ ρ (litOf b q) → Form.holds I μ ρ G) ∧
  (∀ m ∈ G.metas, m ∈ UT.occL q.args) ∧ ∀ p ∈ u, ∀ m ∈ p.2.occ, m ∈ UT.occL q.args

/-- The full claim. Each symbol is used with one arity, no metavariable occurs twice in an argument of a result, the metavariables of a
result are those of its atom, and the metavariables of the literal are not those of the rules. Then `Rewrite` does not end the
program, and every entry with a substitution is as it should be. -/
def C68_statement : Prop :=
  ∀ (ar : Nat → Nat) (R : List Stored) (b : Bool) (q : Atom) (t : Node Instr Atom) (n : Nat) (out : List (Atom × Subst)),
    tree R b = some t → Unif.Search (addUnif false n) n t { terms := [q.term] } out →
    (∀ r ∈ R, r.atom.term.Ar ar) → q.term.Ar ar → (∀ r ∈ R, r.Linear) →
    (∀ r ∈ R, ∀ m ∈ r.cons.metas, m ∈ UT.occL r.atom.args) → (∀ r ∈ R, ∀ m ∈ UT.occL r.atom.args, m ∉ UT.occL q.args) →
    rewrite n R out b q ≠ .panic ∧ ∀ es, rewrite n R out b q = .ok es → ∀ u G, (some u, G) ∈ es → EntryOk R b q u G

namespace Case

/-- A variable. -/
def v (i : Nat) : TVar := ⟨"X", i, .constr "$i" []⟩
def f (t : UT) : UT := .fn 30 [t]
def a : UT := .fn 40 []
def c : UT := .fn 41 []

/-- The rules made from an axiom, as they are stored. -/
def rulesOf (F : Form) : List Stored := match register ⟨false, false, 0⟩ 0 100 F with
  | some (true, rs, _) => rs.filterMap Rule.stored
  | _ => []

/-- The answers of the code tree, the children answering in their order. -/
def answers (R : List Stored) (b : Bool) (q : Atom) : Option (List (Atom × Subst)) :=
  (tree R b).bind fun t => Sample.seq (addUnif false 20) 20 20 t { terms := [q.term] }

/-- The whole rewriting of a literal. -/
def run (R : List Stored) (b : Bool) (q : Atom) : Option (Res (List Entry)) :=
  (answers R b q).map fun out => rewrite 20 R out b q

theorem run_search {R : List Stored} {b : Bool} {q : Atom} {x : Res (List Entry)} (h : run R b q = some x) :
    ∃ t out, tree R b = some t ∧ Unif.Search (addUnif false 20) 20 t { terms := [q.term] } out ∧ rewrite 20 R out b q = x := by
  simp only [run, answers, Option.map_eq_some_iff, Option.bind_eq_some_iff] at h
  obtain ⟨out, ⟨t, h1, h2⟩, h3⟩ := h
  exact ⟨t, out, h1, Sample.seq_search h2, h3⟩

/-- ∀V ∀X (p(f(V), f(X), X, V) ⇔ (q ∧ ¬q)): the atom is never true. -/
def axUnsound : Form := .all [v 5] (.all [v 6] (.equ
  (.pred 1 [] [.fn 30 [] [.var 5], .fn 30 [] [.var 6], .var 6, .var 5]) (.and [.pred 2 [] [], .neg (.pred 2 [] [])])))

/-- p(Y, Y, a, c) -/
def litUnsound : Atom := ⟨1, [.mv 50, .mv 50, a, c]⟩

/-- ∀V ∀X (p(f(V), f(X)) ⇔ (q(V) ∧ q(X))) -/
def axForeign : Form := .all [v 5] (.all [v 6] (.equ
  (.pred 1 [] [.fn 30 [] [.var 5], .fn 30 [] [.var 6]]) (.and [.pred 2 [] [.var 5], .pred 2 [] [.var 6]])))

/-- p(Y, Y) -/
def litForeign : Atom := ⟨1, [.mv 50, .mv 50]⟩

/-- ∀X ∀V (p(X, f(V), X) ⇔ (q(X) ∧ q(V))) -/
def axCrash : Form := .all [v 5] (.all [v 6] (.equ
  (.pred 1 [] [.var 5, .fn 30 [] [.var 6], .var 5]) (.and [.pred 2 [] [.var 5], .pred 2 [] [.var 6]])))

/-- p(f(Y), Z, Z) -/
def litCrash : Atom := ⟨1, [f (.mv 50), .mv 51, .mv 51]⟩

/-- ∀X ∀Y (p(X) ⇔ (q(X, Y) ∧ q(Y, X))) -/
def axOpen : Form := .all [v 5] (.all [v 6] (.equ
  (.pred 1 [] [.var 5]) (.and [.pred 2 [] [.var 5, .var 6], .pred 2 [] [.var 6, .var 5]])))

instance : DecidableEq (Res (List Entry)) := instDecidableEqRes

instance : DecidableEq Stored := fun x y =>
  decidable_of_iff (x.pos = y.pos ∧ x.atom = y.atom ∧ x.cons = y.cons) (by cases x; cases y; simp)

/-- The arities: `f` and `q` have one argument (in the second and third case), the other predicates as many as in the case. -/
def arOf (k l : Nat) (p : Nat) : Nat := if p = 1 then k else if p = 2 then l else if p = 30 then 1 else 0

theorem rules_unsound : rulesOf axUnsound =
    [⟨true, ⟨1, [f (.mv 0), f (.mv 1), .mv 1, .mv 0]⟩, .and [.pred 2 [] [], .neg (.pred 2 [] [])]⟩,
     ⟨false, ⟨1, [f (.mv 0), f (.mv 1), .mv 1, .mv 0]⟩, .neg (.and [.pred 2 [] [], .neg (.pred 2 [] [])])⟩] := by decide +kernel

theorem rules_foreign : rulesOf axForeign =
    [⟨true, ⟨1, [f (.mv 0), f (.mv 1)]⟩, .and [.pred 2 [] [.mv 0], .pred 2 [] [.mv 1]]⟩,
     ⟨false, ⟨1, [f (.mv 0), f (.mv 1)]⟩, .neg (.and [.pred 2 [] [.mv 0], .pred 2 [] [.mv 1]])⟩] := by decide +kernel

theorem rules_crash : rulesOf axCrash =
    [⟨true, ⟨1, [.mv 0, f (.mv 1), .mv 0]⟩, .and [.pred 2 [] [.mv 0], .pred 2 [] [.mv 1]]⟩,
     ⟨false, ⟨1, [.mv 0, f (.mv 1), .mv 0]⟩, .neg (.and [.pred 2 [] [.mv 0], .pred 2 [] [.mv 1]])⟩] := by decide +kernel

/-- The hypotheses of the claim. -/
def Fine (ar : Nat → Nat) (R : List Stored) (q : Atom) : Prop :=
  (∀ r ∈ R, r.atom.term.Ar ar) ∧ q.term.Ar ar ∧ (∀ r ∈ R, r.Linear) ∧
  (∀ r ∈ R, ∀ m ∈ r.cons.metas, m ∈ UT.occL r.atom.args) ∧ ∀ r ∈ R, ∀ m ∈ UT.occL r.atom.args, m ∉ UT.occL q.args

theorem fine_unsound : Fine (arOf 4 0) (rulesOf axUnsound) litUnsound := by
  rw [rules_unsound]
  refine ⟨?_, ?_, ?_, ?_, ?_⟩
  · simp [Atom.term, UT.Ar, UT.ArL, arOf, f]
  · simp [Atom.term, UT.Ar, UT.ArL, arOf, litUnsound, a, c]
  · intro r hr m
    simp only [List.mem_cons, List.not_mem_nil, or_false] at hr
    rcases hr with rfl | rfl <;> simp [Form.linearIn, Form.linearInL]
  · decide +kernel
  · decide +kernel

theorem fine_foreign : Fine (arOf 2 1) (rulesOf axForeign) litForeign := by
  rw [rules_foreign]
  refine ⟨?_, ?_, ?_, ?_, ?_⟩
  · simp [Atom.term, UT.Ar, UT.ArL, arOf, f]
  · simp [Atom.term, UT.Ar, UT.ArL, arOf, litForeign]
  · intro r hr m
    simp only [List.mem_cons, List.not_mem_nil, or_false] at hr
    rcases hr with rfl | rfl <;> simp [Form.linearIn, Form.linearInL, Term.occ, Term.metas, List.count_singleton] <;>
      constructor <;> split <;> simp
  · decide +kernel
  · decide +kernel

theorem fine_crash : Fine (arOf 3 1) (rulesOf axCrash) litCrash := by
  rw [rules_crash]
  refine ⟨?_, ?_, ?_, ?_, ?_⟩
  · simp [Atom.term, UT.Ar, UT.ArL, arOf, f]
  · simp [Atom.term, UT.Ar, UT.ArL, arOf, litCrash, f]
  · intro r hr m
    simp only [List.mem_cons, List.not_mem_nil, or_false] at hr
    rcases hr with rfl | rfl <;> simp [Form.linearIn, Form.linearInL, Term.occ, Term.metas, List.count_singleton] <;>
      constructor <;> split <;> simp
  · decide +kernel
  · decide +kernel

/-- The interpretation over the terms in which `p(f(a), f(a), a, c)` is true and nothing else. -/
def IU : Interp UT := ⟨fun p _ l => .fn p l, fun p _ l => p = 1 ∧ l = [f a, f a, a, c]⟩

/-- **C68 is false of the code**: with the axiom ∀V ∀X (p(f(V), f(X), X, V) ⇔ (q ∧ ¬q)) the literal `p(Y, Y, a, c)` is rewritten, with
`Y ↦ f(a)`, into `q ∧ ¬q`, although `p(f(a), f(a), a, c)` is no instance of the atom of the rule, and the axiom and the literal have a
model. -/
theorem C68_violated_unsound :
    Fine (arOf 4 0) (rulesOf axUnsound) litUnsound ∧
    run (rulesOf axUnsound) true litUnsound = some (.ok [(some [(50, f a)], .and [.pred 2 [] [], .neg (.pred 2 [] [])])]) ∧
    ∃ (I : Interp UT) (ρ μ : Nat → UT), (∀ r ∈ rulesOf axUnsound, r.Valid I ρ) ∧ (∀ μ, Form.holds I μ ρ axUnsound) ∧
      μ 50 = Term.eval I ρ μ (ofUT (f a)) ∧ Form.holds I μ ρ (litOf true litUnsound) ∧
      ¬ Form.holds I μ ρ (.and [.pred 2 [] [], .neg (.pred 2 [] [])]) := by
  refine ⟨fine_unsound, by decide +kernel, IU, fun _ => a, fun _ => f a, ?_, ?_, ?_, ?_, ?_⟩
  · rw [rules_unsound]
    intro r hr μ h
    simp only [List.mem_cons, List.not_mem_nil, or_false] at hr
    rcases hr with rfl | rfl
    · exfalso
      simp [Stored.lit, litOf, IU, Form.holds_pred, ofUTL, ofUT, Term.eval, Term.evalL, f, a, c] at h
      have := h.1.symm.trans h.2.2
      simp at this
    · simp [IU]
  · intro μ
    simp [axUnsound, Form.holds_all, forallVars, IU, Term.eval, Term.evalL, f, a, c, v]
    intro d e h _ h'
    have := h.symm.trans h'
    simp at this
  · simp [IU, ofUT, ofUTL, Term.eval, Term.evalL, f, a]
  · simp [litOf, litUnsound, IU, ofUTL, ofUT, Term.eval, Term.evalL, f, a, c]
  · simp [IU]

/-- **C68 is false of the code**: with the axiom ∀V ∀X (p(f(V), f(X)) ⇔ (q(V) ∧ q(X))) the literal `p(Y, Y)` is rewritten, with `Y ↦ f(V)`, into
`q(V) ∧ q(V)`, where `V` is the metavariable of the rule itself: it comes into the branch and is not renamed from one use of the rule to the
next. (The test that should prevent this accepts `V` because it is the value of `X`.) -/
theorem C68_violated_foreign :
    Fine (arOf 2 1) (rulesOf axForeign) litForeign ∧
    run (rulesOf axForeign) true litForeign =
      some (.ok [(some [(50, f (.mv 0))], .and [.pred 2 [] [.mv 0], .pred 2 [] [.mv 0]])]) :=
  ⟨fine_foreign, by decide +kernel⟩

/-- **C68 is false of the code**: with the axiom ∀X ∀V (p(X, f(V), X) ⇔ (q(X) ∧ q(V))) the literal `p(f(Y), Z, Z)` ends the program. -/
theorem C68_violated_crash :
    Fine (arOf 3 1) (rulesOf axCrash) litCrash ∧ run (rulesOf axCrash) true litCrash = some .panic :=
  ⟨fine_crash, by decide +kernel⟩

/-- With the axiom ∀X ∀Y (p(X) ⇔ (q(X, Y) ∧ q(Y, X))), whose result has one more variable than its atom, the ground literals `p(a)`
and `p(c)` are rewritten into formulas with the same metavariable, that of the rule. So only one instance can be used in a proof. -/
theorem C68_violated_open :
    run (rulesOf axOpen) true ⟨1, [a]⟩ = some (.ok [(some [], .and [.pred 2 [] [ofUT a, .mv 1], .pred 2 [] [.mv 1, ofUT a]])]) ∧
    run (rulesOf axOpen) true ⟨1, [c]⟩ = some (.ok [(some [], .and [.pred 2 [] [ofUT c, .mv 1], .pred 2 [] [.mv 1, ofUT c]])]) :=
  ⟨by decide +kernel, by decide +kernel⟩

theorem _root_.Verif.Mods.Dmt.C68_statement_false : ¬ C68_statement := by
  intro h
  obtain ⟨hf, hr⟩ := C68_violated_crash
  obtain ⟨t, out, h1, h2, h3⟩ := run_search hr
  exact (h _ _ _ _ t 20 out h1 h2 hf.1 hf.2.1 hf.2.2.1 hf.2.2.2.1 hf.2.2.2.2).1 h3

/-- The claim about the entries is false as well, for the meaning and for the metavariables. -/
theorem entries_wrong : ¬ EntryOk (rulesOf axUnsound) true litUnsound [(50, f a)] (.and [.pred 2 [] [], .neg (.pred 2 [] [])]) ∧
    ¬ EntryOk (rulesOf axForeign) true litForeign [(50, f (.mv 0))] (.and [.pred 2 [] [.mv 0], .pred 2 [] [.mv 0]]) := by
  constructor
  · intro h
    obtain ⟨-, -, I, ρ, μ, h1, -, h2, h3, h4⟩ := C68_violated_unsound
    exact h4 (h.1 UT I ρ μ h1 (by intro p hp; simp only [List.mem_singleton] at hp; subst hp; exact h2) h3)
  · intro h
    have := h.2.2 _ (List.mem_singleton.2 rfl) 0 (by decide +kernel)
    revert this
    decide +kernel

/-- The hypotheses of `C68_axiom_ground_sound_partial` for the axiom ∀V ∀X (p(f(V), f(X)) ⇔ (q(V) ∧ q(X))). -/
example : WF axForeign 100 ∧ ∃ rules sk', register ⟨false, false, 0⟩ 0 100 axForeign = some (true, rules, sk') ∧
    rules.mapM Rule.stored = some (rulesOf axForeign) ∧ ∀ r ∈ rules, ∀ s, r.stored = some s → s.lit = r.lit := by
  refine ⟨⟨?_, by decide, by decide, by decide, ?_⟩, _, _, rfl, ?_, ?_⟩
  · simp [axForeign, FO, FOL, isTType, v]
  · intro i
    simp [axForeign, Form.fvs, Form.fvsL, Term.varsL, Term.vars, v]
  · rw [rules_foreign]; rfl
  · intro r hr s hs
    simp only [List.mem_cons, List.not_mem_nil, or_false] at hr
    rcases hr with rfl | rfl <;> (cases hs; rfl)

/-- A rule that is fine: `p(f(a), c)` with the rules of ∀V ∀X (p(f(V), f(X)) ⇔ (q(V) ∧ q(X))) matches nothing, `p(f(a), f(c))` is rewritten into
`q(a) ∧ q(c)`, and its negation into `¬(q(a) ∧ q(c))`. -/
example : run (rulesOf axForeign) true ⟨1, [f a, c]⟩ = some (.ok [(none, litOf true ⟨1, [f a, c]⟩)]) := by decide +kernel
example : run (rulesOf axForeign) true ⟨1, [f a, f c]⟩ = some (.ok [(some [], .and [.pred 2 [] [ofUT a], .pred 2 [] [ofUT c]])]) := by
  decide +kernel
example : run (rulesOf axForeign) false ⟨1, [f a, f c]⟩ =
    some (.ok [(some [], .neg (.and [.pred 2 [] [ofUT a], .pred 2 [] [ofUT c]]))]) := by decide +kernel

end Case

end Verif.Mods.Dmt
