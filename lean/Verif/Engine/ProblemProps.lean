import Verif.Engine.Problem
/-!
# Problems that are rejected, empty problems, typed problems (C43, C44)
-/

namespace Verif.Engine
open Verif.AST

/-! ### Two conjectures -/

/-- Conjectures written directly in a file. -/
def direct : List PStmt → Nat
  | [] => 0
  | .form _ .conj _ :: l => direct l + 1
  | .form _ .negConj _ :: l => direct l + 1
  | _ :: l => direct l

/-- Files included directly. -/
def incls : List PStmt → List (List PStmt)
  | [] => []
  | .incl _ file :: l => file :: incls l
  | _ :: l => incls l

def directC : List CStmt → Nat
  | [] => 0
  | .form .conj _ :: l => directC l + 1
  | .form .negConj _ :: l => directC l + 1
  | _ :: l => directC l

def inclsC : List CStmt → List (List PStmt)
  | [] => []
  | .incl file :: l => file :: inclsC l
  | _ :: l => inclsC l

/-- No file of the tree contains two conjectures. -/
inductive FileOk : List PStmt → Prop
  | mk {file} : direct file ≤ 1 → (∀ f ∈ incls file, FileOk f) → FileOk file

theorem toInternal_shape (fl : Bool) : ∀ (l : List PStmt) (con : Ctx) (m : Maker) (t : List CStmt × Bool × Maker),
    toInternal fl con m l = some t → directC t.1 = direct l ∧ inclsC t.1 = incls l
  | [], con, m, t, h => by simp only [toInternal] at h; cases h; exact ⟨rfl, rfl⟩
  | .incl sel file :: l, con, m, t, h => by
    simp only [toInternal, Option.map_eq_some_iff] at h
    obtain ⟨y, hy, rfl⟩ := h
    have := toInternal_shape fl l con m y hy
    exact ⟨this.1, by simp [inclsC, incls, this.2]⟩
  | .missing :: l, con, m, t, h => by
    simp only [toInternal, Option.map_eq_some_iff] at h
    obtain ⟨y, hy, rfl⟩ := h
    exact toInternal_shape fl l con m y hy
  | .form n role w :: l, con, m, t, h => by
    simp only [toInternal, Option.bind_eq_some_iff, Option.map_eq_some_iff] at h
    obtain ⟨x, _, y, hy, rfl⟩ := h
    have := toInternal_shape fl l x.con x.m y hy
    cases role <;> simp [directC, direct, inclsC, incls, this]
  | .typ n role sym ty :: l, con, m, t, h => by
    simp only [toInternal, Option.bind_eq_some_iff, Option.map_eq_some_iff] at h
    obtain ⟨x, _, y, hy, rfl⟩ := h
    exact toInternal_shape fl l _ _ y hy

theorem loop_accepts {consume : Form → Bool} {g : Maker → List PStmt → Option FileOut} :
    ∀ (cs : List CStmt) (st st' : LState), loop consume g cs st = some st' →
    directC cs + (if st.conj.isSome then 1 else 0) ≤ 1 ∧
    ∀ file ∈ inclsC cs, ∃ m r, g m file = some r
  | [], st, st', h => by
    refine ⟨?_, by simp [inclsC]⟩
    simp only [directC]
    split <;> omega
  | .incl file :: cs, st, st', h => by
    simp only [loop, Option.bind_eq_some_iff] at h
    obtain ⟨r, hr, h⟩ := h
    have := loop_accepts cs _ st' h
    refine ⟨this.1, ?_⟩
    intro f hf
    rcases List.mem_cons.1 hf with rfl | hf
    · exact ⟨_, r, hr⟩
    · exact this.2 f hf
  | .missing :: cs, st, st', h => by simp [loop] at h
  | .form .ax f :: cs, st, st', h => by
    simp only [loop] at h
    have := loop_accepts cs _ st' h
    exact this
  | .form .conj f :: cs, st, st', h => by
    simp only [loop] at h
    split at h
    · cases h
    · next hn =>
      have := loop_accepts cs _ st' h
      simp only [Option.isSome_some, if_true] at this
      simp only [directC, hn, Bool.false_eq_true, if_false]
      exact ⟨by omega, this.2⟩
  | .form .negConj f :: cs, st, st', h => by
    simp only [loop] at h
    split at h
    · cases h
    · next hn =>
      have := loop_accepts cs _ st' h
      simp only [Option.isSome_some, if_true] at this
      simp only [directC, hn, Bool.false_eq_true, if_false]
      exact ⟨by omega, this.2⟩
  | .form .type f :: cs, st, st', h => by simp [loop] at h
  | .form .unknown f :: cs, st, st', h => by simp [loop] at h
  | .typ .type _ _ :: cs, st, st', h => by
    simp only [loop] at h
    exact loop_accepts cs _ st' h
  | .typ .ax _ _ :: cs, st, st', h => by simp [loop] at h
  | .typ .conj _ _ :: cs, st, st', h => by simp [loop] at h
  | .typ .negConj _ _ :: cs, st, st', h => by simp [loop] at h
  | .typ .unknown _ _ :: cs, st, st', h => by simp [loop] at h

theorem readFile_accepts {fl : Bool} {consume : Form → Bool} : ∀ (n : Nat) (m : Maker) (file : List PStmt)
    (r : FileOut), readFile fl consume n m file = some r → FileOk file := by
  intro n
  induction n with
  | zero => intro m file r h; simp [readFile] at h
  | succ n ih =>
    intro m file r h
    simp only [readFile, Option.bind_eq_some_iff, Option.map_eq_some_iff] at h
    obtain ⟨t, ht, st, hst, rfl⟩ := h
    have h1 := toInternal_shape fl file _ _ t ht
    have h2 := loop_accepts t.1 _ st hst
    rw [h1.1, h1.2] at h2
    refine .mk (by simpa using h2.1) ?_
    intro f hf
    obtain ⟨m', r', h3⟩ := h2.2 f hf
    exact ih m' f r' h3

/-- **C43, two conjectures in one file.** A problem in which some file, the main one or one included at
any depth, contains two conjectures (or negated conjectures) is rejected, whatever else it contains. -/
theorem C43_two_conjectures_partial (fl : Bool) (consume typeOk : Form → Bool) (m : Maker)
    (file : List PStmt) (h : ¬ FileOk file) : presearch fl consume typeOk m file = .fatal := by
  unfold presearch
  cases hr : readFile fl consume (PStmt.depthL file + 1) m file with
  | none => rfl
  | some r => exact absurd (readFile_accepts _ _ _ _ hr) h

/-- The hypothesis is met by a file with two conjectures, also included by another. -/
example : ¬ FileOk [.incl none [.form "c" .conj (.atom "p" []), .form "d" .conj (.atom "q" [])]] := by
  rintro ⟨_, h⟩
  obtain ⟨h, _⟩ := h [.form "c" .conj (.atom "p" []), .form "d" .conj (.atom "q" [])] (by simp [incls])
  revert h; decide

/-! ### Untyped problems are read -/

theorem depthL_le_of_mem {s : PStmt} : ∀ {l : List PStmt}, s ∈ l → s.depth ≤ PStmt.depthL l
  | a :: l, h => by
    simp only [PStmt.depthL]
    rcases List.mem_cons.1 h with rfl | h
    · omega
    · have := depthL_le_of_mem h; omega

section
variable {V F : String → Prop}

theorem loop_total {g : Maker → List PStmt → Option FileOut}
    (hg : ∀ m file r, (∀ s ∈ file, PStmt.Fof V F s) → Inv m → g m file = some r → FileSpec.{0} m file r) :
    ∀ (cs : List CStmt) (l : List PStmt) (st : LState), (∀ s ∈ l, PStmt.Fof V F s) →
    MatchL.{0} st.m l cs → Inv st.m →
    (∀ m, Inv m → ∀ f ∈ incls l, (∀ s ∈ f, PStmt.Fof V F s) → ∃ r, g m f = some r) →
    direct l + (if st.conj.isSome then 1 else 0) ≤ 1 →
    ∃ st', loop (fun _ => false) g cs st = some st'
  | [], l, st, _, _, _, _, _ => ⟨st, by simp only [loop]⟩
  | c :: cs, [], st, _, hm, _, _, _ => hm.elim
  | c :: cs, s :: l, st, hl, hm, hi, ht, hd => by
    have hl' : ∀ s ∈ l, PStmt.Fof V F s := fun s hs => hl s (List.mem_cons_of_mem _ hs)
    cases hl s (by simp) with
    | @incl file hfile =>
      cases c with
      | missing => exact hm.elim
      | form _ _ => exact hm.elim
      | typ _ _ _ => exact hm.elim
      | incl file' =>
      obtain ⟨rfl, hm⟩ := hm
      obtain ⟨r, hr⟩ := ht st.m hi file' (by simp [incls]) hfile
      have sp := hg st.m file' r hfile hi hr
      obtain ⟨st', h⟩ := loop_total hg cs l
        ⟨(match r.form with | some f => st.ands ++ [f] | none => st.ands), st.conj, st.typed || r.inc, r.m⟩
        hl' (hm.le sp.le) sp.inv (fun m hm f hf => ht m hm f (by simp [incls, hf])) hd
      exact ⟨st', by simp only [loop, hr, Option.bind_some]; exact h⟩
    | @form n role w hrole hw hI hcl =>
      cases c with
      | missing => exact hm.elim
      | incl _ => exact hm.elim
      | typ _ _ _ => exact hm.elim
      | form role' f =>
      obtain ⟨rfl, hrd, htl, hm⟩ := hm
      obtain ⟨b1, b2, b3⟩ := rename_ready hi hrd htl
      rcases hrole with rfl | rfl | rfl
      · obtain ⟨st', h⟩ := loop_total hg cs l
          ⟨st.ands ++ [(f.rename st.m).1], st.conj, st.typed, (f.rename st.m).2⟩ hl' (hm.le b2) b3 ht hd
        exact ⟨st', by simpa [loop] using h⟩
      · have hn : st.conj.isSome = false := by
          cases hc : st.conj.isSome with
          | false => rfl
          | true => simp only [direct, hc, if_true] at hd; omega
        obtain ⟨st', h⟩ := loop_total hg cs l
          ⟨st.ands, some (.neg (f.rename st.m).1), st.typed, (f.rename st.m).2⟩ hl' (hm.le b2) b3 ht
          (by simp only [direct, hn] at hd; simpa using hd)
        exact ⟨st', by simpa [loop, hn] using h⟩
      · have hn : st.conj.isSome = false := by
          cases hc : st.conj.isSome with
          | false => rfl
          | true => simp only [direct, hc, if_true] at hd; omega
        obtain ⟨st', h⟩ := loop_total hg cs l
          ⟨st.ands, some (f.rename st.m).1, st.typed, (f.rename st.m).2⟩ hl' (hm.le b2) b3 ht
          (by simp only [direct, hn] at hd; simpa using hd)
        exact ⟨st', by simpa [loop, hn] using h⟩

theorem incls_mem {f : List PStmt} : ∀ {l : List PStmt}, f ∈ incls l → ∃ sel, PStmt.incl sel f ∈ l
  | s :: l, h => by
    cases s with
    | incl sel file =>
      simp only [incls, List.mem_cons] at h
      rcases h with rfl | h
      · exact ⟨sel, by simp⟩
      · obtain ⟨sel, h⟩ := incls_mem h; exact ⟨sel, by simp [h]⟩
    | missing => obtain ⟨sel, h⟩ := incls_mem (l := l) h; exact ⟨sel, by simp [h]⟩
    | form _ _ _ => obtain ⟨sel, h⟩ := incls_mem (l := l) h; exact ⟨sel, by simp [h]⟩
    | typ _ _ _ _ => obtain ⟨sel, h⟩ := incls_mem (l := l) h; exact ⟨sel, by simp [h]⟩

theorem readFile_total (fl : Bool) (L : Lex V F) (hV : ∀ s, V s → UserName s) (hF : ∀ s, F s → UserName s) :
    ∀ (n : Nat) (m : Maker) (file : List PStmt), (∀ s ∈ file, PStmt.Fof V F s) → Inv m → FileOk file →
    PStmt.depthL file < n → ∃ r, readFile fl (fun _ => false) n m file = some r := by
  intro n
  induction n with
  | zero => intro m file _ _ _ h; omega
  | succ n ih =>
    intro m file hf hi hok hd
    have hci : ConI V initialContext := by
      intro e he hv
      have : e.1 ∈ initialContext.map (·.1) := List.mem_map_of_mem he
      exact absurd this (hV _ hv)
    obtain ⟨cs, m', h1, h2, h3, h4⟩ := toInternal_fof.{0} fl L file initialContext m hf
      (initialContext_fof hV hF) hci hi
    obtain ⟨hd1, hd2⟩ := hok
    obtain ⟨st, hst⟩ := loop_total (readFile_spec.{0} fl L hV hF n) cs file ⟨[], none, false, m'⟩ hf h4 h3
      (by
        intro m1 hi1 f hff hfo
        obtain ⟨sel, hs⟩ := incls_mem hff
        have := depthL_le_of_mem hs
        simp only [PStmt.depth] at this
        exact ih m1 f hfo hi1 (hd2 f hff) (by omega))
      (by simpa using hd1)
    exact ⟨⟨finish st.ands st.conj, false, st.typed, st.m⟩, by simp [readFile, h1, hst]⟩

/-- **C43, untyped problems are accepted.** A problem of closed FOF formulas in which no file contains two
conjectures is sent to the search if it contains a formula, and reported as empty otherwise. With
`C43_meaning_partial` and `C43_two_conjectures_partial` this describes all outcomes on such problems. -/
theorem C43_outcome_partial (fl : Bool) (typeOk : Form → Bool) (L : Lex V F)
    (hV : ∀ s, V s → UserName s) (hF : ∀ s, F s → UserName s) (m : Maker) (hi : Inv m)
    (file : List PStmt) (hf : ∀ s ∈ file, PStmt.Fof V F s) (hok : FileOk file) :
    (PStmt.formsL file = 0 → presearch fl (fun _ => false) typeOk m file = .notFound) ∧
    (PStmt.formsL file ≠ 0 → ∃ f m', presearch fl (fun _ => false) typeOk m file = .search f false m') := by
  obtain ⟨r, hr⟩ := readFile_total fl L hV hF _ m file hf hi hok (Nat.lt_succ_self _)
  have sp := readFile_spec.{0} fl L hV hF _ m file r hf hi hr
  simp only [presearch, hr]
  constructor
  · intro h
    rw [sp.none.2 h]
  · intro h
    cases hrf : r.form with
    | none => exact absurd (sp.none.1 hrf) h
    | some f =>
      simp only [sp.own, sp.inc, Bool.or_self, Bool.false_eq_true, if_false]
      exact ⟨f, r.m, rfl⟩

end

/-- A problem meeting the hypotheses: an axiom `![X] : (p(X) => p(f(X)))` in an included file, an axiom
and a conjecture in the main one. -/
def sampleFile : List PStmt :=
  [.incl none [.form "step" .ax (.all [("X", .fn "$i" [])] (.imp (.atom "p" [.var "X"])
      (.atom "p" [.fn "f" [.var "X"] none])))],
   .form "base" .ax (.atom "p" [.fn "a" [] none]),
   .form "goal" .conj (.ex [("Y", .fn "$i" [])] (.atom "p" [.fn "f" [.var "Y"] none]))]

def sampleV (s : String) : Prop := s = "X" ∨ s = "Y"
def sampleF (s : String) : Prop := s = "f" ∨ s = "a"

theorem sampleLex : Lex sampleV sampleF := by
  refine ⟨?_, ?_, ?_⟩
  · rintro s (rfl | rfl) <;> decide
  · rintro s (rfl | rfl) <;> rintro (h | h) <;> revert h <;> decide
  · rintro s (rfl | rfl) c h
    · have : c = 'X' := by simpa using h.symm
      subst this; decide
    · have : c = 'Y' := by simpa using h.symm
      subst this; decide

theorem sampleFof : ∀ s ∈ sampleFile, PStmt.Fof sampleV sampleF s := by
  have hX : PTm.Fof sampleV sampleF (.var "X") := .var (Or.inl rfl)
  have hY : PTm.Fof sampleV sampleF (.var "Y") := .var (Or.inr rfl)
  have one : ∀ t, PTm.Fof sampleV sampleF t → ∀ a ∈ [t], PTm.Fof sampleV sampleF a := by
    intro t h a ha; simp only [List.mem_singleton] at ha; subst ha; exact h
  have hf : ∀ t, PTm.Fof sampleV sampleF t → PTm.Fof sampleV sampleF (.fn "f" [t] none) :=
    fun t h => .fn (Or.inl rfl) (one t h)
  have ha : PTm.Fof sampleV sampleF (.fn "a" [] none) := .fn (Or.inr rfl) (by simp)
  intro s hs
  simp only [sampleFile, List.mem_cons, List.not_mem_nil, or_false] at hs
  rcases hs with rfl | rfl | rfl
  · refine .incl ?_
    intro s hs
    simp only [List.mem_singleton] at hs
    subst hs
    refine .form (Or.inl rfl) (.all ?_ (.imp (.atom (by decide) (one _ hX)) (.atom (by decide) (one _ (hf _ hX)))))
      ?_ ?_
    · intro e he; simp only [List.mem_singleton] at he; subst he; exact ⟨Or.inl rfl, "$i", by decide, rfl⟩
    · simp [WForm.AllI]
    · simp [WForm.fv, PTm.fvL, PTm.fv]
  · refine .form (Or.inl rfl) (.atom (by decide) (one _ ha)) trivial ?_
    simp [WForm.fv, PTm.fvL, PTm.fv]
  · refine .form (Or.inr (Or.inl rfl)) (.ex ?_ (.atom (by decide) (one _ (hf _ hY)))) ?_ ?_
    · intro e he; simp only [List.mem_singleton] at he; subst he; exact ⟨Or.inr rfl, "$i", by decide, rfl⟩
    · simp [WForm.AllI]
    · simp [WForm.fv, PTm.fvL, PTm.fv]

theorem sampleUser : (∀ s, sampleV s → UserName s) ∧ ∀ s, sampleF s → UserName s := by
  constructor <;> rintro s (rfl | rfl) <;> unfold UserName <;> decide +kernel

/-- The formula sent to the search for the sample; by `C43_meaning_partial` it is unsatisfiable, since
the conjecture follows. -/
example : ∃ f m', presearch true (fun _ => false) (fun _ => true) initMaker sampleFile = .search f false m' ∧
    ∀ (D : Type) (I : Interp D) (μ ρ : Nat → D), ¬ Form.holds I μ ρ f := by
  have hok : FileOk sampleFile := by
    refine .mk (by decide) ?_
    intro f hf
    simp only [sampleFile, incls, List.mem_cons, List.not_mem_nil, or_false] at hf
    subst hf
    exact .mk (by decide) (by simp [incls])
  obtain ⟨f, m', h⟩ := (C43_outcome_partial true (fun _ => true) sampleLex sampleUser.1 sampleUser.2
    initMaker Inv_init sampleFile sampleFof hok).2 (by decide)
  refine ⟨f, m', h, ?_⟩
  intro D I μ ρ hh
  obtain ⟨S, _, hS⟩ := ((C43_meaning_partial.{0} true (fun _ => true) sampleLex sampleUser.1 sampleUser.2
    initMaker Inv_init sampleFile sampleFof f false m' h).2 D).1 ⟨I, μ, ρ, hh⟩
  simp only [ProblemMeans, PStmt.meansL, PStmt.means, sampleFile, PRole.means, WForm.sat, PTm.valL, PTm.val,
    List.map_cons, List.map_nil, allNames, exNames, and_true, Bool.and_true, forall_const, updN, if_true] at hS
  obtain ⟨h1, h2, h3⟩ := hS
  exact h3 ⟨S.fn "a" [], h1 _ h2⟩

/-! ### Roles as they are written -/

theorem toInternal_form {fl : Bool} {n : String} {role : PRole} {w : WForm} : ∀ {file : List PStmt} {con : Ctx} {m : Maker}
    {t : List CStmt × Bool × Maker}, PStmt.form n role w ∈ file → toInternal fl con m file = some t → ∃ f, CStmt.form role f ∈ t.1
  | .incl _ _ :: l, con, m, t, h, ht => by
    simp only [toInternal, Option.map_eq_some_iff] at ht
    obtain ⟨y, hy, rfl⟩ := ht
    obtain ⟨f, hf⟩ := toInternal_form (by simpa using h) hy
    exact ⟨f, by simp [hf]⟩
  | .missing :: l, con, m, t, h, ht => by
    simp only [toInternal, Option.map_eq_some_iff] at ht
    obtain ⟨y, hy, rfl⟩ := ht
    obtain ⟨f, hf⟩ := toInternal_form (by simpa using h) hy
    exact ⟨f, by simp [hf]⟩
  | .form _ _ _ :: l, con, m, t, h, ht => by
    simp only [toInternal, Option.bind_eq_some_iff, Option.map_eq_some_iff] at ht
    obtain ⟨x, hx, y, hy, rfl⟩ := ht
    rcases List.mem_cons.1 h with h | h
    · cases h; exact ⟨x.val, by simp⟩
    · obtain ⟨f, hf⟩ := toInternal_form h hy
      exact ⟨f, by simp [hf]⟩
  | .typ _ _ _ _ :: l, con, m, t, h, ht => by
    simp only [toInternal, Option.bind_eq_some_iff, Option.map_eq_some_iff] at ht
    obtain ⟨x, hx, y, hy, rfl⟩ := ht
    obtain ⟨f, hf⟩ := toInternal_form (by simpa using h) hy
    exact ⟨f, by simp [hf]⟩

theorem loop_unknown {consume : Form → Bool} {g : Maker → List PStmt → Option FileOut} {f : Form} : ∀ {cs : List CStmt} {st : LState},
    CStmt.form .unknown f ∈ cs → loop consume g cs st = none
  | .incl file :: cs, st, h => by
    have h : CStmt.form .unknown f ∈ cs := by simpa using h
    simp only [loop]
    cases g st.m file with
    | none => rfl
    | some r => exact loop_unknown h
  | .missing :: cs, st, h => rfl
  | .form role f' :: cs, st, h => by
    rcases List.mem_cons.1 h with h | h'
    · cases h; rfl
    · cases role <;> simp only [loop]
      · exact loop_unknown h'
      · split
        · rfl
        · exact loop_unknown h'
      · split
        · rfl
        · exact loop_unknown h'
  | .typ role _ _ :: cs, st, h => by
    have h' : CStmt.form .unknown f ∈ cs := by simpa using h
    cases role <;> simp only [loop]
    exact loop_unknown h'

/-- **C43, roles.** A formula written with one of the six axiom-like roles of TPTP, or as negated conjecture, is asserted; one written as
conjecture is denied. Exactly conjectures and negated conjectures count as conjectures. A formula with any other
role, `type` aside, stops the program. -/
theorem C43_roles (s : String) :
    (s ∈ ["axiom", "hypothesis", "definition", "assumption", "lemma", "theorem", "negated_conjecture"] →
      ∀ (D : Type u) (S : Str D) (w : WForm), (roleOf s).means S w ↔ ∀ v, w.sat S v) ∧
    (s = "conjecture" → ∀ (D : Type u) (S : Str D) (w : WForm), (roleOf s).means S w ↔ ¬ ∀ v, w.sat S v) ∧
    (∀ (n : String) (w : WForm), PStmt.conjsL [.form n (roleOf s) w] = if s = "conjecture" ∨ s = "negated_conjecture" then 1 else 0) ∧
    (s ∉ ["axiom", "hypothesis", "definition", "assumption", "lemma", "theorem", "negated_conjecture", "conjecture", "type"] →
      ∀ (fl : Bool) (consume typeOk : Form → Bool) (m : Maker) (file : List PStmt) (n : String) (w : WForm),
        .form n (roleOf s) w ∈ file → presearch fl consume typeOk m file = .fatal) := by
  refine ⟨?_, ?_, ?_, ?_⟩
  · intro h D S w
    simp only [List.mem_cons, List.not_mem_nil, or_false] at h
    rcases h with rfl | rfl | rfl | rfl | rfl | rfl | rfl <;> exact Iff.rfl
  · rintro rfl D S w; exact Iff.rfl
  · intro n w
    unfold roleOf
    by_cases h1 : s ∈ ["axiom", "hypothesis", "definition", "assumption", "lemma", "theorem"]
    · rw [if_pos h1]
      simp only [List.mem_cons, List.not_mem_nil, or_false] at h1
      rcases h1 with rfl | rfl | rfl | rfl | rfl | rfl <;> rfl
    · rw [if_neg h1]
      by_cases h2 : s = "conjecture"
      · subst h2; rfl
      · by_cases h3 : s = "negated_conjecture"
        · subst h3; rfl
        · simp only [h2, h3, if_false, or_self]
          split <;> rfl
  · intro h fl consume typeOk m file n w hm
    have hr : roleOf s = .unknown := by
      simp only [List.mem_cons, List.not_mem_nil, or_false, not_or] at h
      simp [roleOf, h]
    rw [hr] at hm
    unfold presearch readFile
    cases ht : toInternal fl initialContext m file with
    | none => rfl
    | some t =>
      obtain ⟨f, hf⟩ := toInternal_form hm ht
      simp only [Option.bind_some, loop_unknown hf, Option.map_none]

/-- A formula of role `plain` is not accepted. -/
example : presearch false (fun _ => false) (fun _ => true) initMaker [.form "a" (roleOf "plain") (.atom "p" [])] = .fatal :=
  (C43_roles.{0} "plain").2.2.2 (by decide) _ _ _ _ _ "a" (.atom "p" []) (by simp)

/-! ### Violations of C43 -/

/-- The formula and the flag of an outcome. -/
def Outcome.sent : Outcome → Option (Form × Bool)
  | .search f c _ => some (f, c)
  | _ => none

theorem Outcome.sent_some {o : Outcome} {f : Form} {c : Bool} (h : o.sent = some (f, c)) :
    ∃ m, o = .search f c m := by
  cases o with
  | fatal => cases h
  | notFound => cases h
  | search f' c' m => simp only [Outcome.sent, Option.some.injEq, Prod.mk.injEq] at h; exact ⟨m, by rw [h.1, h.2]⟩

/-- Two conjectures, one of them in an included file. -/
def twoFile : List PStmt :=
  [.incl none [.form "c" .conj (.atom "p" [])], .form "d" .conj (.atom "q" [])]

/-- **C43 violated by includes.** The two conjectures are accepted; what is searched is the negation of
their disjunction. -/
theorem C43_violated_two_conjectures : 2 ≤ PStmt.conjsL twoFile ∧
    ∃ m, presearch false (fun _ => false) (fun _ => true) initMaker twoFile =
      .search (.and [.neg (.pred 2 [] []), .neg (.pred 1 [] [])]) false m :=
  ⟨by decide, Outcome.sent_some (by decide +kernel)⟩

/-- Only the formula named `a` of the file is to be included. -/
def selFile : List PStmt :=
  [.incl (some ["a"]) [.form "a" .ax (.atom "p" []), .form "b" .ax .bot]]

/-- **C43 violated by selections.** The problem has a model, the formula searched has none. -/
theorem C43_violated_selection :
    (∃ S : Str Bool, ProblemMeans S selFile) ∧
    ∃ f c m, presearch false (fun _ => false) (fun _ => true) initMaker selFile = .search f c m ∧
      ∀ (D : Type) (I : Interp D) (μ ρ : Nat → D), ¬ Form.holds I μ ρ f := by
  constructor
  · refine ⟨⟨fun _ _ => true, fun _ _ => True⟩, ?_⟩
    simp [ProblemMeans, PStmt.meansL, PStmt.means, selFile, PRole.means, WForm.sat]
  · obtain ⟨m, hm⟩ := Outcome.sent_some (f := .and [.and [.pred 1 [] [], .bot]]) (c := false)
      (o := presearch false (fun _ => false) (fun _ => true) initMaker selFile) (by decide +kernel)
    refine ⟨_, _, m, hm, ?_⟩
    intro D I μ ρ h
    simp [Form.holds_and] at h

/-- **C43 violated by rewriting.** When the only axiom is turned into rewrite rules the problem is
reported as missing. -/
theorem C43_violated_not_found :
    presearch false (fun _ => true) (fun _ => true) initMaker [.form "a" .ax (.atom "p" [])] = .notFound ∧
      PStmt.formsL [.form "a" .ax (.atom "p" [])] = 1 := by
  constructor <;> rfl

/-- Axiom `![X] : q(X, X)`, conjecture `![X6] : ![X] : q(X, X6)`. -/
def captureFile : List PStmt :=
  [.form "refl" .ax (.all [("X", .fn "$i" [])] (.atom "q" [.var "X", .var "X"])),
   .form "goal" .conj (.all [("X6", .fn "$i" [])] (.all [("X", .fn "$i" [])]
     (.atom "q" [.var "X", .var "X6"])))]

/-- **C43 violated by renaming.** The conjecture does not follow from the axiom, but the formula searched
is unsatisfiable: the new name for the last `X` is `X6`, so that the conjecture becomes
`∀ y, q(y, y)`. A false conjecture is reported as a theorem. -/
theorem C43_violated_capture :
    (∃ S : Str Bool, ProblemMeans S captureFile) ∧
    ∃ f c m, presearch false (fun _ => false) (fun _ => true) initMaker captureFile = .search f c m ∧
      ∀ (D : Type) (I : Interp D) (μ ρ : Nat → D), ¬ Form.holds I μ ρ f := by
  constructor
  · refine ⟨⟨fun _ _ => true, fun _ ds => ds[0]? = ds[1]?⟩, ?_⟩
    simp only [ProblemMeans, PStmt.meansL, PStmt.means, captureFile, PRole.means, WForm.sat, PTm.valL,
      PTm.val, List.map_cons, List.map_nil, allNames, updN]
    refine ⟨fun _ v d => by simp, fun _ h => ?_, trivial⟩
    have := h (fun _ => true) false true
    simp at this
  · obtain ⟨m, hm⟩ := Outcome.sent_some (c := false)
      (f := .and [.all [⟨"X4", 5, .constr "$i" []⟩] (.pred 2 [] [.var 5, .var 5]),
        .neg (.all [⟨"X67", 8, .constr "$i" []⟩] (.all [⟨"X6", 3, .constr "$i" []⟩]
          (.pred 2 [] [.var 8, .var 8])))])
      (o := presearch false (fun _ => false) (fun _ => true) initMaker captureFile) (by decide +kernel)
    refine ⟨_, _, m, hm, ?_⟩
    intro D I μ ρ h
    simp only [Form.holds_and, List.mem_cons, List.not_mem_nil, or_false, forall_eq_or_imp, forall_eq,
      Form.holds_all, Form.holds_neg, forallVars, Form.holds_pred, List.map_cons, List.map_nil, Term.eval,
      upd] at h
    refine h.2 ?_
    intro d e
    exact h.1 d

theorem C43_statement_false : ¬ C43_statement := by
  intro h
  have := (h false (fun _ => true) (fun _ => true) [.form "a" .ax (.atom "p" [])]).2.2 C43_violated_not_found.1
  rw [C43_violated_not_found.2] at this
  cases this

/-! ### C44 -/

/-- A type other than `$i` is mentioned. -/
def WForm.typed : WForm → Bool
  | .not f => f.typed
  | .and l r => l.typed || r.typed
  | .or l r => l.typed || r.typed
  | .imp l r => l.typed || r.typed
  | .rimp l r => l.typed || r.typed
  | .iff l r => l.typed || r.typed
  | .xor l r => l.typed || r.typed
  | .nor l r => l.typed || r.typed
  | .nand l r => l.typed || r.typed
  | .all vs f => vs.any (fun v => match v.2 with | .fn "$i" [] => false | _ => true) || f.typed
  | .ex vs f => vs.any (fun v => match v.2 with | .fn "$i" [] => false | _ => true) || f.typed
  | _ => false

mutual
/-- A declaration of a type, or a formula that mentions one. -/
def PStmt.typed : PStmt → Bool
  | .incl _ file => PStmt.typedL file
  | .missing => false
  | .form _ _ w => w.typed
  | .typ _ _ _ _ => true
def PStmt.typedL : List PStmt → Bool
  | [] => false
  | s :: l => PStmt.typed s || PStmt.typedL l
end

/-- The statement of C44. -/
def C44_statement : Prop :=
  ∀ (fl : Bool) (consume typeOk : Form → Bool) (file : List PStmt) (f : Form) (c : Bool) (m : Maker),
    PStmt.typedL file = true → presearch fl consume typeOk initMaker file = .search f c m →
    c = true ∧ typeOk f = true

theorem toInternal_typ (fl : Bool) : ∀ (l : List PStmt) (con : Ctx) (m : Maker) (t : List CStmt × Bool × Maker),
    (∃ n role sym ty, PStmt.typ n role sym ty ∈ l) → toInternal fl con m l = some t → t.2.1 = true
  | [], con, m, t, ⟨_, _, _, _, h⟩, _ => by simp at h
  | s :: l, con, m, t, ⟨n, role, sym, ty, h⟩, ht => by
    cases s with
    | incl sel file =>
      simp only [toInternal, Option.map_eq_some_iff] at ht
      obtain ⟨y, hy, rfl⟩ := ht
      simp only [List.mem_cons, reduceCtorEq, false_or] at h
      exact toInternal_typ fl l con m y ⟨n, role, sym, ty, h⟩ hy
    | missing =>
      simp only [toInternal, Option.map_eq_some_iff] at ht
      obtain ⟨y, hy, rfl⟩ := ht
      simp only [List.mem_cons, reduceCtorEq, false_or] at h
      exact toInternal_typ fl l con m y ⟨n, role, sym, ty, h⟩ hy
    | form n' role' w =>
      simp only [toInternal, Option.bind_eq_some_iff, Option.map_eq_some_iff] at ht
      obtain ⟨x, _, y, hy, rfl⟩ := ht
      simp only [List.mem_cons, reduceCtorEq, false_or] at h
      simp [toInternal_typ fl l x.con x.m y ⟨n, role, sym, ty, h⟩ hy]
    | typ n' role' sym' ty' =>
      simp only [toInternal, Option.bind_eq_some_iff, Option.map_eq_some_iff] at ht
      obtain ⟨x, _, y, _, rfl⟩ := ht
      rfl

/-- **C44, declarations in the main file.** If the main file declares a type, the formula sent to the
search has passed the type checker, whatever the options. Missing: declarations in included files and
formulas without declarations, for which the claim is false. -/
theorem C44_declared_partial (fl : Bool) (consume typeOk : Form → Bool) (m0 : Maker) (file : List PStmt)
    (f : Form) (c : Bool) (m : Maker) (ht : ∃ n role sym ty, PStmt.typ n role sym ty ∈ file)
    (h : presearch fl consume typeOk m0 file = .search f c m) : c = true ∧ typeOk f = true := by
  unfold presearch at h
  cases hr : readFile fl consume (PStmt.depthL file + 1) m0 file with
  | none => rw [hr] at h; cases h
  | some r =>
    have hown : r.own = true := by
      simp only [readFile, Option.bind_eq_some_iff, Option.map_eq_some_iff] at hr
      obtain ⟨t, ht', st, _, rfl⟩ := hr
      exact toInternal_typ fl file _ _ t ht ht'
    rw [hr] at h
    simp only at h
    cases hrf : r.form with
    | none => rw [hrf] at h; cases h
    | some f' =>
      rw [hrf] at h
      simp only [hown, Bool.true_or, if_true] at h
      split at h
      · next hok => cases h; exact ⟨rfl, hok⟩
      · cases h

/-- A problem meeting the hypotheses: `p : $int > $o`, `![X : $int] : p(X)`. -/
example : ∃ f m, presearch false (fun _ => false) (fun _ => true) initMaker
    [.typ "t" .type "p" (.map (.fn "$int" []) (.fn "$o" [])),
     .form "a" .ax (.all [("X", .fn "$int" [])] (.atom "p" [.var "X"]))] = .search f true m := ⟨_, _, rfl⟩

/-- The flag of the included files is always false: it starts false and only receives flags of
included files, the flag of their own statements being overwritten (src/main.go:261-270). -/
theorem loop_typed {consume : Form → Bool} {g : Maker → List PStmt → Option FileOut}
    (hg : ∀ m file r, g m file = some r → r.inc = false) : ∀ (cs : List CStmt) (st st' : LState),
    st.typed = false → loop consume g cs st = some st' → st'.typed = false
  | [], st, st', ht, h => by simp only [loop, Option.some.injEq] at h; subst h; exact ht
  | .incl file :: cs, st, st', ht, h => by
    simp only [loop, Option.bind_eq_some_iff] at h
    obtain ⟨r, hr, h⟩ := h
    exact loop_typed hg cs _ st' (by simp [ht, hg _ _ _ hr]) h
  | .missing :: cs, st, st', ht, h => by simp [loop] at h
  | .form .ax f :: cs, st, st', ht, h => by
    simp only [loop] at h; exact loop_typed hg cs _ st' (by simpa using ht) h
  | .form .conj f :: cs, st, st', ht, h => by
    simp only [loop] at h
    split at h
    · cases h
    · exact loop_typed hg cs _ st' (by simpa using ht) h
  | .form .negConj f :: cs, st, st', ht, h => by
    simp only [loop] at h
    split at h
    · cases h
    · exact loop_typed hg cs _ st' (by simpa using ht) h
  | .form .type f :: cs, st, st', ht, h => by simp [loop] at h
  | .form .unknown f :: cs, st, st', ht, h => by simp [loop] at h
  | .typ .type _ _ :: cs, st, st', ht, h => by simp only [loop] at h; exact loop_typed hg cs st st' ht h
  | .typ .ax _ _ :: cs, st, st', ht, h => by simp [loop] at h
  | .typ .conj _ _ :: cs, st, st', ht, h => by simp [loop] at h
  | .typ .negConj _ _ :: cs, st, st', ht, h => by simp [loop] at h
  | .typ .unknown _ _ :: cs, st, st', ht, h => by simp [loop] at h

theorem readFile_inc (fl : Bool) (consume : Form → Bool) : ∀ (n : Nat) (m : Maker) (file : List PStmt)
    (r : FileOut), readFile fl consume n m file = some r → r.inc = false := by
  intro n
  induction n with
  | zero => intro m file r h; simp [readFile] at h
  | succ n ih =>
    intro m file r h
    simp only [readFile, Option.bind_eq_some_iff, Option.map_eq_some_iff] at h
    obtain ⟨t, _, st, hst, rfl⟩ := h
    exact loop_typed ih t.1 _ st rfl hst

theorem toInternal_untyped (fl : Bool) : ∀ (l : List PStmt) (con : Ctx) (m : Maker)
    (t : List CStmt × Bool × Maker), (∀ s ∈ l, ∃ sel file, s = PStmt.incl sel file) →
    toInternal fl con m l = some t → t.2.1 = false
  | [], con, m, t, _, ht => by simp only [toInternal, Option.some.injEq] at ht; subst ht; rfl
  | s :: l, con, m, t, h, ht => by
    obtain ⟨sel, file, rfl⟩ := h s (by simp)
    simp only [toInternal, Option.map_eq_some_iff] at ht
    obtain ⟨y, hy, rfl⟩ := ht
    exact toInternal_untyped fl l con m y (fun s hs => h s (List.mem_cons_of_mem _ hs)) hy

/-- **C44 violated by all included files.** A problem whose main file only includes other files is never
type checked, whatever these files contain. -/
theorem C44_violated_included (fl : Bool) (consume typeOk : Form → Bool) (m0 : Maker) (file : List PStmt)
    (f : Form) (c : Bool) (m : Maker) (hi : ∀ s ∈ file, ∃ sel l, s = PStmt.incl sel l)
    (h : presearch fl consume typeOk m0 file = .search f c m) : c = false := by
  unfold presearch at h
  cases hr : readFile fl consume (PStmt.depthL file + 1) m0 file with
  | none => rw [hr] at h; cases h
  | some r =>
    have h1 := readFile_inc fl consume _ _ _ _ hr
    have h2 : r.own = false := by
      simp only [readFile, Option.bind_eq_some_iff, Option.map_eq_some_iff] at hr
      obtain ⟨t, ht', st, _, rfl⟩ := hr
      exact toInternal_untyped fl file _ _ t hi ht'
    rw [hr] at h
    simp only at h
    cases hrf : r.form with
    | none => rw [hrf] at h; cases h
    | some f' => rw [hrf] at h; simp only [h1, h2, Bool.or_self, Bool.false_eq_true, if_false] at h; cases h; rfl

/-- `p : $int > $o` and `![X : $i] : p(X)` in an included file: ill typed, and sent to the search. -/
def typedIncl : List PStmt :=
  [.incl none [.typ "t" .type "p" (.map (.fn "$int" []) (.fn "$o" [])),
    .form "a" .ax (.all [("X", .fn "$i" [])] (.atom "p" [.var "X"]))]]

theorem C44_statement_false : ¬ C44_statement := by
  intro h
  have : ∃ f m, presearch false (fun _ => false) (fun _ => false) initMaker typedIncl = .search f false m :=
    ⟨_, _, rfl⟩
  obtain ⟨f, m, hf⟩ := this
  have := h false (fun _ => false) (fun _ => false) typedIncl f false m (by decide) hf
  exact absurd this.1 (by decide)

/-- **C44 violated by formulas without declarations.** `![X : $int] : p(X)` alone is not type checked. -/
theorem C44_violated_undeclared :
    PStmt.typedL [.form "a" .ax (.all [("X", .fn "$int" [])] (.atom "p" [.var "X"]))] = true ∧
    ∃ f m, presearch false (fun _ => false) (fun _ => false) initMaker
      [.form "a" .ax (.all [("X", .fn "$int" [])] (.atom "p" [.var "X"]))] = .search f false m :=
  ⟨by decide, _, _, rfl⟩

end Verif.Engine
