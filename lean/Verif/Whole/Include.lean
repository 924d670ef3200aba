import Verif.Whole.Program
/-!
# C96: the file an include statement reads (`src/main.go`)

`getFile` looks for the name in three places, and `StatementListToFormula` remembers a directory for the includes of the included file. Paths
are lists of names as they are written between slashes; `path.Join`, `path.Dir` and `path.Clean` are taken from the documentation of Go.
The file system is given by the files there are; links are left out, and so are names of directories used as names of files.
-/

namespace Verif.Whole.Include
open Verif.Whole

/-- A path as it is written: whether it begins with a slash, and the parts between slashes that are not empty. -/
structure Path where
  rooted : Bool
  segs : List String
deriving DecidableEq

/-! ### The package `path` of Go -/

/-- `path.Clean` for the parts of a path, from the left; the parts kept so far in opposite order. -/
def cleanFrom (rooted : Bool) : List String → List String → List String
  | stack, [] => stack.reverse
  | stack, x :: xs =>
    if x = "." then cleanFrom rooted stack xs
    else if x = ".." then match stack with
      | [] => cleanFrom rooted (if rooted then [] else [".."]) xs
      | y :: ys => if y = ".." then cleanFrom rooted (".." :: y :: ys) xs else cleanFrom rooted ys xs
    else cleanFrom rooted (x :: stack) xs

/-- `path.Clean`: what is left of a path without slash at the beginning may be the directory `.`. -/
def clean (p : Path) : Path := ⟨p.rooted, if p.rooted = false ∧ cleanFrom p.rooted [] p.segs = [] then ["."] else cleanFrom p.rooted [] p.segs⟩

/-- `path.Join` of two paths: the second is put behind the first also if it begins with a slash; an empty one is left out. -/
def join (p q : Path) : Path := if p.rooted = false ∧ p.segs = [] then clean q else clean ⟨p.rooted, p.segs ++ q.segs⟩

/-- `path.Dir` of a path that does not end with a slash. -/
def dirOf (p : Path) : Path := clean ⟨p.rooted, p.segs.dropLast⟩

/-! ### Files -/

/-- Going into a directory, from an absolute place. -/
def enter (d : List String) (x : String) : List String := if x = "." then d else if x = ".." then d.dropLast else d ++ [x]

/-- Following a path that does not begin with a slash from a place. -/
def walk (d : List String) (l : List String) : List String := l.foldl enter d

/-- A machine: the files there are, by absolute names, the directory the program is called in, and the variable `TPTP`. -/
structure Sys where
  file : List String → Bool
  cwd : List String
  tptp : Path

/-- The place a path means for the operating system. -/
def Sys.place (s : Sys) (p : Path) : List String := walk (if p.rooted then [] else s.cwd) p.segs

/-- `getFile` (src/main.go:377-403). -/
def Sys.getFile (s : Sys) (name dir : Path) : Option Path :=
  if s.file (s.place name) then some name
  else if s.file (s.place (join dir name)) then some (join dir name)
  else if s.file (s.place (join s.tptp name)) then some (join s.tptp name)
  else none

/-- The file read by a chain of includes: each name is included by the file before it; at the start `dir` is `path.Dir` of the problem
(src/main.go:160-164), then the directory handed on with an included file (src/main.go:246-273). -/
def Sys.chain (s : Sys) : Path → List Path → Option (List (List String))
  | _, [] => some []
  | dir, n :: ns => match s.getFile n dir with
    | none => none
    | some p => (s.chain (join dir (dirOf n)) ns).map (s.place p :: ·)

/-- The includes of a problem. -/
def Sys.reads (s : Sys) (problem : Path) (names : List Path) : Option (List (List String)) := s.chain (dirOf problem) names

/-! ### The claim -/

/-- What TPTP says: an absolute name is that file; another name is the file with this name seen from the directory of the file with the
include statement, and if there is none, the one seen from the directory `TPTP`. -/
def Sys.meant (s : Sys) (includer : List String) (name : Path) : Option (List String) :=
  if name.rooted then (if s.file (walk [] name.segs) then some (walk [] name.segs) else none)
  else if s.file (walk includer.dropLast name.segs) then some (walk includer.dropLast name.segs)
  else if s.file (walk (s.place s.tptp) name.segs) then some (walk (s.place s.tptp) name.segs)
  else none

/-- The files of a chain of includes. -/
def Sys.meantChain (s : Sys) : List String → List Path → Option (List (List String))
  | _, [] => some []
  | includer, n :: ns => match s.meant includer n with
    | none => none
    | some f => (s.meantChain f ns).map (f :: ·)

/-- The parts of a path as it is written. -/
def pathOf (w : String) : Path := ⟨w.startsWith "/", (w.splitOn "/").filter (· ≠ "")⟩

/-- The files of C88, with these directories. -/
def Sys.files (s : Sys) (text : List String → List Char) : Files where
  Dir := Path
  get d n := (s.getFile (pathOf n) d).map fun p => (join d (dirOf (pathOf n)), text (s.place p))

/-- A name as it is used for a file: it ends with a name, neither `.` nor `..`. -/
def Path.Named (p : Path) : Prop := ∃ l x, p.segs = l ++ [x] ∧ x ≠ "." ∧ x ≠ ".."

/-- **C96, the full claim**: the includes of a problem read the files that are meant. -/
def C96_statement : Prop := ∀ (s : Sys) (problem : Path) (names : List Path), problem.Named → (∀ n ∈ names, n.Named) →
  s.reads problem names = s.meantChain (s.place problem) names

/-! ### Cleaning keeps the place -/

theorem walk_append (d l l' : List String) : walk d (l ++ l') = walk (walk d l) l' := List.foldl_append ..

theorem cleanFrom_rel : ∀ (l : List String) (stack : List String) (d : List String), (∀ x ∈ stack, x ≠ ".") →
    walk d (cleanFrom false stack l) = walk (walk d stack.reverse) l
  | [], stack, d, _ => rfl
  | x :: xs, stack, d, hs => by
    rw [cleanFrom.eq_def]
    dsimp only
    split
    · rename_i h
      rw [cleanFrom_rel xs stack d hs]
      simp [walk, enter, h]
    · rename_i h
      split
      · rename_i h2
        subst h2
        cases stack with
        | nil =>
          rw [if_neg (by simp), cleanFrom_rel xs _ d (by simp)]
          simp [walk]
        | cons y ys =>
          dsimp only
          split
          · rename_i hy
            rw [cleanFrom_rel xs _ d (by simp [hy] at hs ⊢; exact hs)]
            simp [walk]
          · rename_i hy
            have h1 : y ≠ "." := hs y (by simp)
            rw [cleanFrom_rel xs ys d (fun z hz => hs z (by simp [hz]))]
            simp [walk, enter, h1, hy]
      · rename_i h2
        rw [cleanFrom_rel xs (x :: stack) d (by simp [h]; exact hs)]
        simp [walk]

theorem cleanFrom_abs : ∀ (l : List String) (stack : List String), (∀ x ∈ stack, x ≠ "." ∧ x ≠ "..") →
    cleanFrom true stack l = walk stack.reverse l ∧ ∀ x ∈ cleanFrom true stack l, x ≠ "." ∧ x ≠ ".."
  | [], stack, hs => ⟨rfl, by simpa [cleanFrom] using hs⟩
  | x :: xs, stack, hs => by
    rw [cleanFrom.eq_def]
    dsimp only
    split
    · rename_i h
      refine ⟨?_, (cleanFrom_abs xs stack hs).2⟩
      rw [(cleanFrom_abs xs stack hs).1]
      simp [walk, enter, h]
    · rename_i h
      split
      · rename_i h2
        subst h2
        cases stack with
        | nil =>
          refine ⟨?_, (cleanFrom_abs xs [] (by simp)).2⟩
          rw [if_pos rfl, (cleanFrom_abs xs [] (by simp)).1]
          simp [walk, enter]
        | cons y ys =>
          have h1 := hs y (by simp)
          have h3 := cleanFrom_abs xs ys (fun z hz => hs z (by simp [hz]))
          dsimp only
          rw [if_neg h1.2]
          refine ⟨?_, h3.2⟩
          rw [h3.1]
          simp [walk, enter]
      · rename_i h2
        have h3 := cleanFrom_abs xs (x :: stack) (by simp [h, h2]; exact fun a ha => hs a ha)
        refine ⟨?_, h3.2⟩
        rw [h3.1]
        simp [walk, enter, h, h2]

theorem walk_plain : ∀ (l : List String) (d : List String), (∀ x ∈ l, x ≠ "." ∧ x ≠ "..") → walk d l = d ++ l
  | [], d, _ => by simp [walk]
  | x :: l, d, h => by
    have h1 := h x (by simp)
    have := walk_plain l (d ++ [x]) fun y hy => h y (by simp [hy])
    simp only [walk, List.foldl_cons, enter, h1.1, h1.2, if_false] at this ⊢
    rw [this]; simp

/-- `path.Clean` does not change the place. -/
theorem place_clean (s : Sys) (p : Path) : s.place (clean p) = s.place p := by
  obtain ⟨r, l⟩ := p
  cases r
  · have h := cleanFrom_rel l [] s.cwd (by simp)
    show walk s.cwd (if false = false ∧ cleanFrom false [] l = [] then ["."] else cleanFrom false [] l) = walk s.cwd l
    have h : walk s.cwd (cleanFrom false [] l) = walk s.cwd l := h
    split
    · rename_i e
      rw [← h, e.2]; rfl
    · exact h
  · have h := cleanFrom_abs l [] (by simp)
    show walk [] (if true = false ∧ cleanFrom true [] l = [] then ["."] else cleanFrom true [] l) = walk [] l
    rw [if_neg (by simp)]
    rw [walk_plain _ _ h.2, h.1]; simp

/-- `path.Join` goes on from the place of the first path. -/
theorem place_join (s : Sys) (p q : Path) (h : q.rooted = false) : s.place (join p q) = walk (s.place p) q.segs := by
  unfold join
  split
  · rename_i hp
    rw [place_clean]
    simp [Sys.place, hp.1, hp.2, h, walk]
  · rw [place_clean]
    simp [Sys.place, walk_append]

theorem place_dirOf (s : Sys) (p : Path) (h : p.Named) : s.place (dirOf p) = (s.place p).dropLast := by
  obtain ⟨l, x, e, h1, h2⟩ := h
  unfold dirOf
  rw [place_clean]
  simp [Sys.place, e, walk_append]
  simp [walk, enter, h1, h2]

theorem clean_rooted (p : Path) : (clean p).rooted = p.rooted := rfl

/-- The directory of a name, seen from a directory. -/
theorem walk_dirOf (d : List String) {n : Path} (hr : n.rooted = false) (h : n.Named) : walk d (dirOf n).segs = (walk d n.segs).dropLast := by
  have := place_dirOf ⟨fun _ => false, d, ⟨false, []⟩⟩ n h
  unfold Sys.place at this
  have e : (dirOf n).rooted = false := hr
  rw [e, hr] at this
  exact this

/-! ### What is right -/

/-- **C96, one include**: if the directory remembered is that of the including file, a relative name reads the file that is meant, unless there
is another file of that name seen from the directory the program was called in. -/
theorem C96_step_iff (s : Sys) (dir n : Path) (includer : List String) (hd : s.place dir = includer.dropLast) (hr : n.rooted = false) :
    (s.getFile n dir).map s.place = s.meant includer n ↔
      (s.file (s.place n) = true → s.meant includer n = some (s.place n)) := by
  have e1 := place_join s dir n hr
  have e2 := place_join s s.tptp n hr
  rw [hd] at e1
  unfold Sys.getFile Sys.meant
  rw [e1, e2]
  simp only [hr, Bool.false_eq_true, if_false]
  cases hc : s.file (s.place n)
  · simp only [Bool.false_eq_true, if_false, false_imp_iff, iff_true]
    split
    · simp [e1]
    · split
      · simp [e2]
      · rfl
  · simp only [if_true, Option.map_some, true_imp_iff]
    exact eq_comm

/-- The file is found beside the file that includes it, and it is not hidden by a file seen from the directory the program was called in. -/
def Sys.Beside (s : Sys) (includer : List String) (n : Path) : Prop :=
  n.rooted = false ∧ s.file (walk includer.dropLast n.segs) = true ∧ (s.file (s.place n) = true → s.place n = walk includer.dropLast n.segs)

/-- The file is found in the directory `TPTP`, and there is no other file of this name. -/
def Sys.OnlyTptp (s : Sys) (n : Path) : Prop :=
  n.rooted = false ∧ s.file (walk (s.place s.tptp) n.segs) = true ∧ ∀ d, s.file (walk d n.segs) = true → walk d n.segs = walk (s.place s.tptp) n.segs

/-- The includes of a chain: first files beside each other, then files of the directory `TPTP`. -/
inductive Sys.Usual (s : Sys) : List String → List Path → Prop
  | library {includer ns} : (∀ n ∈ ns, s.OnlyTptp n) → s.Usual includer ns
  | beside {includer n ns} : s.Beside includer n → s.Usual (walk includer.dropLast n.segs) ns → s.Usual includer (n :: ns)

theorem library_ok (s : Sys) : ∀ (ns : List Path) (dir : Path) (includer : List String), (∀ n ∈ ns, s.OnlyTptp n) →
    s.chain dir ns = s.meantChain includer ns ∧ s.chain dir ns = some (ns.map fun n => walk (s.place s.tptp) n.segs)
  | [], _, _, _ => ⟨rfl, rfl⟩
  | n :: ns, dir, includer, h => by
    obtain ⟨hr, h1, h2⟩ := h n (by simp)
    have hm : s.meant includer n = some (walk (s.place s.tptp) n.segs) := by
      unfold Sys.meant
      simp only [hr, Bool.false_eq_true, if_false]
      split
      · rename_i h3
        rw [h2 _ h3]
      · simp
    have hg : ∃ p, s.getFile n dir = some p ∧ s.place p = walk (s.place s.tptp) n.segs := by
      unfold Sys.getFile
      split
      · rename_i h3
        refine ⟨n, rfl, ?_⟩
        have : s.place n = walk s.cwd n.segs := by simp [Sys.place, hr]
        rw [this] at h3 ⊢
        exact h2 _ h3
      · split
        · rename_i h3
          refine ⟨_, rfl, ?_⟩
          rw [place_join s dir n hr] at h3 ⊢
          exact h2 _ h3
        · rw [place_join s s.tptp n hr, if_pos h1]
          exact ⟨_, rfl, place_join s s.tptp n hr⟩
    obtain ⟨p, hp, e⟩ := hg
    obtain ⟨i1, i2⟩ := library_ok s ns (join dir (dirOf n)) (walk (s.place s.tptp) n.segs) fun m hm => h m (by simp [hm])
    simp only [Sys.chain, Sys.meantChain, hm, hp, e]
    rw [← i1, i2]
    simp

theorem usual_ok (s : Sys) {includer : List String} {ns : List Path} (h : s.Usual includer ns) : (∀ n ∈ ns, n.Named) →
    ∀ (dir : Path), s.place dir = includer.dropLast → s.chain dir ns = s.meantChain includer ns ∧ (s.chain dir ns).isSome := by
  induction h with
  | @library includer ns h =>
    intro _ dir _
    have := library_ok s ns dir includer h
    exact ⟨this.1, by rw [this.2]; rfl⟩
  | @beside includer n ns hb _ ih =>
    intro hn dir hd
    obtain ⟨hr, h1, h2⟩ := hb
    have hm : s.meant includer n = some (walk includer.dropLast n.segs) := by
      unfold Sys.meant
      simp [hr, h1]
    have hg := (C96_step_iff s dir n includer hd hr).2 fun h => by rw [hm, h2 h]
    rw [hm] at hg
    obtain ⟨p, hp, e⟩ := Option.map_eq_some_iff.1 hg
    obtain ⟨i1, i2⟩ := ih (fun m hm => hn m (by simp [hm])) (join dir (dirOf n)) (by
      rw [place_join s dir (dirOf n) (by simp [dirOf, clean, hr]), hd, walk_dirOf _ hr (hn n (by simp))])
    simp only [Sys.chain, Sys.meantChain, hm, hp, e, ← i1, Option.isSome_map, i2, and_self]

/-- **C96 (partial)**: a chain of relative includes in which files are beside each other, not hidden by files seen from the directory the program
was called in, followed by files that are only in the directory `TPTP`, reads the files that are meant, and none is missed. Missing: absolute
names, and the includes of a library file beside it (`C96_violated_*`). -/
theorem C96_usual_partial (s : Sys) (problem : Path) (names : List Path) (hp : problem.Named) (hn : ∀ n ∈ names, n.Named)
    (h : s.Usual (s.place problem) names) : s.reads problem names = s.meantChain (s.place problem) names ∧ (s.reads problem names).isSome :=
  usual_ok s h hn _ (place_dirOf s problem hp)

/-- Called in the directory of the problem, the first include is right. -/
theorem C96_first (s : Sys) (problem n : Path) (hp : problem.Named) (hr : n.rooted = false) (hc : s.cwd = (s.place problem).dropLast) :
    s.reads problem [n] = s.meantChain (s.place problem) [n] := by
  have := (C96_step_iff s (dirOf problem) n (s.place problem) (place_dirOf s problem hp) hr).2 fun h => by
    have e : s.place n = walk (s.place problem).dropLast n.segs := by
      rw [← hc]; unfold Sys.place; rw [hr]; rfl
    rw [e] at h ⊢
    unfold Sys.meant
    simp [hr, h]
  unfold Sys.reads
  simp only [Sys.chain, Sys.meantChain, ← this]
  cases s.getFile n (dirOf problem) <;> rfl

/-- **C96 for C88**: with these files, an include beside the including file gives the text that is meant, and the directory for its own
includes is that of the file. -/
theorem C96_files (s : Sys) (text : List String → List Char) (d : Path) (n : String) (includer : List String) (hd : s.place d = includer.dropLast)
    (hn : (pathOf n).Named) (h : s.Beside includer (pathOf n)) : ∃ d1, (s.files text).get d n = some (d1, text (walk includer.dropLast (pathOf n).segs)) ∧
      s.meant includer (pathOf n) = some (walk includer.dropLast (pathOf n).segs) ∧ s.place d1 = (walk includer.dropLast (pathOf n).segs).dropLast := by
  obtain ⟨hr, h1, h2⟩ := h
  have hm : s.meant includer (pathOf n) = some (walk includer.dropLast (pathOf n).segs) := by
    unfold Sys.meant
    simp [hr, h1]
  have hg := (C96_step_iff s d (pathOf n) includer hd hr).2 fun h => by rw [hm, h2 h]
  rw [hm] at hg
  obtain ⟨p, hp, e⟩ := Option.map_eq_some_iff.1 hg
  refine ⟨join d (dirOf (pathOf n)), ?_, hm, ?_⟩
  · show (s.getFile (pathOf n) d).map _ = _
    rw [hp, ← e]; rfl
  · rw [place_join s d (dirOf (pathOf n)) (by simp [dirOf, clean, hr]), hd, walk_dirOf _ hr hn]

/-! ### What is not -/

/-- A machine with some files. -/
def sys (files : List (List String)) : Sys := ⟨fun f => files.contains f, ["w"], ⟨true, ["tptp"]⟩⟩

/-- The hypotheses are met: `/w/p/x.p` includes `../a/b.ax`, which includes `c.ax`, which includes `Axioms/d.ax` of the library. -/
example : (sys [["w", "a", "b.ax"], ["w", "a", "c.ax"], ["tptp", "Axioms", "d.ax"]]).reads ⟨false, ["p", "x.p"]⟩
    [⟨false, ["..", "a", "b.ax"]⟩, ⟨false, ["c.ax"]⟩, ⟨false, ["Axioms", "d.ax"]⟩] =
    some [["w", "a", "b.ax"], ["w", "a", "c.ax"], ["tptp", "Axioms", "d.ax"]] := by decide +kernel

/-- **C96 is violated by the directory the program is called in**: `p/x.p` includes `a.ax`, which is beside it; another file `a.ax` is read. -/
theorem C96_violated_cwd : (sys [["w", "p", "a.ax"], ["w", "a.ax"]]).reads ⟨false, ["p", "x.p"]⟩ [⟨false, ["a.ax"]⟩] = some [["w", "a.ax"]] ∧
    (sys [["w", "p", "a.ax"], ["w", "a.ax"]]).meantChain ["w", "p", "x.p"] [⟨false, ["a.ax"]⟩] = some [["w", "p", "a.ax"]] := by decide +kernel

/-- **C96 is violated by library files that include a file beside them**: the program ends with an error. -/
theorem C96_violated_library : (sys [["tptp", "Axioms", "a.ax"], ["tptp", "Axioms", "b.ax"]]).reads ⟨false, ["x.p"]⟩
      [⟨false, ["Axioms", "a.ax"]⟩, ⟨false, ["b.ax"]⟩] = none ∧
    (sys [["tptp", "Axioms", "a.ax"], ["tptp", "Axioms", "b.ax"]]).meantChain ["w", "x.p"] [⟨false, ["Axioms", "a.ax"]⟩, ⟨false, ["b.ax"]⟩] =
      some [["tptp", "Axioms", "a.ax"], ["tptp", "Axioms", "b.ax"]] := by decide +kernel

/-- **C96 is violated by absolute names**: `/l/a.ax` includes `b.ax`, and the program reads `l/b.ax` seen from the directory of the problem. -/
theorem C96_violated_absolute : (sys [["l", "a.ax"], ["l", "b.ax"], ["w", "l", "b.ax"]]).reads ⟨false, ["x.p"]⟩
      [⟨true, ["l", "a.ax"]⟩, ⟨false, ["b.ax"]⟩] = some [["l", "a.ax"], ["w", "l", "b.ax"]] ∧
    (sys [["l", "a.ax"], ["l", "b.ax"], ["w", "l", "b.ax"]]).meantChain ["w", "x.p"] [⟨true, ["l", "a.ax"]⟩, ⟨false, ["b.ax"]⟩] =
      some [["l", "a.ax"], ["l", "b.ax"]] := by decide +kernel

/-- **C96 is false as stated.** -/
theorem C96_statement_false : ¬ C96_statement := by
  intro h
  have h1 := h (sys [["w", "p", "a.ax"], ["w", "a.ax"]]) ⟨false, ["p", "x.p"]⟩ [⟨false, ["a.ax"]⟩]
    ⟨["p"], "x.p", rfl, by decide, by decide⟩ (by simp; exact ⟨[], "a.ax", rfl, by decide, by decide⟩)
  rw [C96_violated_cwd.1] at h1
  have h2 := h1.trans C96_violated_cwd.2
  exact absurd h2 (by decide)

end Verif.Whole.Include
