import Verif.Unif.Subst
/-!
# The unification machine (`src/Unif/parsing.go`, `machine.go`, `matching.go`, `substitutions_tree.go`)

A term is compiled to instructions (`ParseTerm`), which are run against another term by an abstract
machine; the machine calls `AddUnification` for the bindings it finds, and `AddUnification` runs the
machine for pairs that cannot be bound directly. The recursion is bounded by fuel (`Res.out`).
-/

namespace Verif.Unif

/-- src/Unif/instruction.go:49-96. `Check` holds the index of the symbol. -/
inductive Instr where
  | begin
  | fin (t : Option UT)
  | right
  | down
  | check (p : Nat)
  | push (i : Nat)
  | pop (i : Nat)
  | put (i : Nat)
  | compare (i j : Nat)
deriving DecidableEq

/-- The comparisons with earlier occurrences of the same metavariable (src/Unif/parsing.go:207-213);
`seen` are the metavariable occurrences before this one (Go `subst`, with `varCount` its length). -/
def compares (seen : List Nat) (m : Nat) : List Instr :=
  ((List.range seen.length).filter (fun j => decide (seen[j]? = some m))).map fun j => .compare j seen.length

mutual
/-- One iteration of the loop of `parseTerms` (src/Unif/parsing.go:198-241). `pc` is `postCount`, `rd` is
`rightDefined`. -/
def parseT (pc : Nat) (seen : List Nat) (rd : Bool) : UT → List Instr
  | .mv m => .put seen.length :: (compares seen m ++ if rd then [.right] else [])
  | .fn p args =>
    if args.isEmpty then
      .begin :: .check p :: .fin (some (.fn p args)) :: if rd then [.right] else []
    else if rd then
      .begin :: .check p :: .push pc :: .down :: (parseL (pc + 1) seen args ++ [.pop pc, .fin (some (.fn p args))])
    else
      .begin :: .check p :: .down :: (parseL pc seen args ++ [.fin (some (.fn p args))])
/-- `parseTerms` (src/Unif/parsing.go:185-244). -/
def parseL (pc : Nat) (seen : List Nat) : List UT → List Instr
  | [] => []
  | t :: rest => parseT pc seen (!rest.isEmpty) t ++ parseL pc (seen ++ t.occ) rest
end

/-- `ParseTerm` (src/Unif/parsing.go:246-259). -/
def parseTerm (t : UT) : List Instr := parseL 0 [] [t]

/-- `Machine` (src/Unif/machine.go:58-71). -/
structure M where
  q : Nat := 0
  beginCount : Nat := 0
  beginLock : Option Nat := none
  hasPushed : Bool := false
  hasPoped : Bool := false
  post : List (Nat × List UT) := []
  subst : List (Nat × UT) := []
  terms : List UT := []
  mt : Subst := []
  tot : Nat := 0
  cnt : Nat := 0

/-- `unwrapMeta` (src/Unif/machine.go:105-116). Every iteration marks a bound metavariable not marked before,
so there are at most as many as bindings. -/
def unwrap (s : Subst) : Nat → List Nat → UT → UT
  | 0, _, t => t
  | n + 1, seen, .mv i =>
    match s.get i with
    | none => .mv i
    | some v => if i ∈ seen then .mv i else unwrap s n (i :: seen) v
  | _ + 1, _, .fn p args => .fn p args

/-- `GetSubstAt` (src/Unif/subst_pair.go:63-70). -/
def getAt (l : List (Nat × UT)) (i : Nat) : Option UT := (l.find? (fun p => decide (p.1 = i))).map (·.2)

/-- The type of `AddUnification`. -/
abbrev AU := UT → UT → Subst → Res Subst

/-- `right` (src/Unif/matching.go:260-269). -/
def M.right (m : M) : Res M :=
  match m.beginLock with
  | some _ => .ok m
  | none => if m.terms.length ≤ m.q + 1 then .fail else .ok { m with q := m.q + 1, cnt := m.cnt + 1 }

/-- `lockedRight` (src/Unif/machine.go:153-163). -/
def M.lockedRight (m : M) : Res M :=
  if m.hasPushed && m.hasPoped then
    let m1 := { m with hasPushed := false, hasPoped := false }
    if m1.q + 1 < m1.terms.length then m1.right else .ok m1
  else .ok m

/-- `checkEnd` (src/Unif/machine.go:181-186). -/
def M.checkEnd (m : M) : Res M := if m.beginCount = 0 ∧ m.cnt ≠ m.tot then .fail else .ok m

/-- `end` with `tryUnlock` and `trySubstituteMeta` (src/Unif/matching.go:251-257, machine.go:166-177,
substitutions_tree.go:153-163). -/
def M.fin (au : AU) (m0 : M) (t : Option UT) : Res M :=
  let m := { m0 with beginCount := m0.beginCount - 1 }
  match m.beginLock with
  | none => m.checkEnd
  | some b =>
    if m.beginCount = b then
      match m.terms[m.q]?, t with
      | some (.mv x), some t =>
        (au (.mv x) t m.mt).bind fun s => (M.lockedRight { m with beginLock := none, mt := s }).bind M.checkEnd
      | _, _ => .panic
    else m.checkEnd

/-- One instruction (src/Unif/matching.go:142-171, 245-348). -/
def M.step (au : AU) (m : M) : Instr → Res M
  | .begin =>
    match m.terms[m.q]? with
    | none => .panic
    | some (.mv _) => .ok { m with beginLock := some (m.beginLock.getD m.beginCount), beginCount := m.beginCount + 1 }
    | some (.fn _ _) => .ok { m with beginCount := m.beginCount + 1 }
  | .fin t => m.fin au t
  | .right => m.right
  | .down =>
    match m.beginLock with
    | some _ => .ok m
    | none => match m.terms[m.q]? with
      | some (.fn _ args) => .ok { m with terms := args, q := 0, tot := m.tot + args.length, cnt := m.cnt + 1 }
      | _ => .panic
  | .check p =>
    match m.beginLock with
    | some _ => .ok m
    | none => match m.terms[m.q]? with
      | none => .panic
      | some (.fn p' _) => if p' = p then .ok m else .fail
      | some (.mv x) =>
        match m.mt.get x with
        | none => .ok m
        | some v => match unwrap m.mt (m.mt.length + 1) [] v with
          | .mv _ => .ok m
          | .fn p' _ => if p' = p then .ok m else .fail
  | .push _ =>
    match m.beginLock with
    | some _ => .ok { m with hasPushed := true }
    | none => .ok { m with post := m.post ++ [(m.q + 1, m.terms)] }
  | .pop i =>
    match m.beginLock with
    | some _ => .ok { m with hasPoped := true }
    | none => match m.post[i]? with
      | none => .panic
      | some (q, ts) => if ts.length ≤ q then .fail
          else .ok { m with q := q, terms := ts, post := m.post.eraseIdx i, cnt := m.cnt + 1 }
  | .put i =>
    match m.beginLock with
    | some _ => .ok m
    | none => match m.terms[m.q]? with
      | none => .panic
      | some t => .ok { m with subst := m.subst ++ [(i, t)] }
  | .compare i j =>
    match m.beginLock with
    | some _ => .ok m
    | none => match getAt m.subst i, getAt m.subst j with
      | some a, some b =>
        let a' := unwrap m.mt (m.mt.length + 1) [] a
        let b' := unwrap m.mt (m.mt.length + 1) [] b
        if a' = b' then .ok m else (au a' b' m.mt).bind fun s => .ok { m with mt := s }
      | _, _ => .ok m

/-- The loop over the instructions of a node (src/Unif/matching.go:104-172). -/
def exec (au : AU) : List Instr → M → Res M
  | [], m => .ok m
  | i :: is, m => (m.step au i).bind (exec au is)

/-- The loop of `computeSubstitutions` (src/Unif/substitutions_tree.go:77-105): `metas` are the
metavariable occurrences of the compiled term, `T` is `treeSubs`, `E` is `metasToSubs`.

With `strict` the loop fails where the code goes wrong: where `treeSubs` got a binding of this metavariable
from an earlier call of `AddUnification`, so that `Set` ignores the new value. `strict = false` is the
code. -/
def computeLoop (strict : Bool) (au : AU) (metas : List Nat) :
    List (Nat × UT) → List Nat → Subst → Subst → Res (Subst × Subst)
  | [], _, T, E => .ok (T, E)
  | (i, u) :: rest, done, T, E =>
    match metas[i]? with
    | none => .panic
    | some m =>
      if UT.mv m = u then computeLoop strict au metas rest done T E
      else if strict && T.has m && decide (T.get m ≠ some u) && decide (m ∉ done) then .fail
      else match E.get m with
        | none => computeLoop strict au metas rest (m :: done) (T.set m u) E
        | some v =>
          if u = v then computeLoop strict au metas rest (m :: done) (T.set m u) E
          else (au u v (T.set m u)).bind fun T' => computeLoop strict au metas rest (m :: done) T' (E.removeKey m)

/-- The second loop of `MergeSubstitutions` (src/Unif/substitutions_tree.go:274-285). After a failure the Go
loop goes on, adding pairs to the failure value; `Eliminate` then fails again. -/
def mergeLoop (au : AU) (n : Nat) : Subst → Subst → Res Subst
  | [], res => .ok res
  | (k, v) :: rest, res =>
    if res.has k then (au (.mv k) v res).bind (mergeLoop au n rest)
    else (elimBoth n (res.set k v)).bind (mergeLoop au n rest)

/-- `MergeSubstitutions` (src/Unif/substitutions_tree.go:250-287). -/
def merge (au : AU) (n : Nat) (s1 s2 : Subst) : Res Subst :=
  if s1.isEmpty then .ok s2
  else if s2.isEmpty then .ok s1
  else mergeLoop au n s2 (s1.foldl (fun r p => r.set p.1 p.2) [])

/-- `computeSubstitutions` (src/Unif/substitutions_tree.go:52-150). -/
def compute (strict : Bool) (au : AU) (n : Nat) (metas : List Nat) (subs : List (Nat × UT)) (E : Subst) :
    Res Subst :=
  (computeLoop strict au metas subs [] [] E).bind fun r =>
  (elimBoth n r.2).bind fun E' =>
  (elimBoth n r.1).bind fun T' =>
  (merge au n E' T').bind fun res => elimBoth n res

/-- `tryUnification` (src/Unif/substitutions_tree.go:230-247): the single-leaf tree of the first term run
against the second. -/
def tryUnif (strict : Bool) (au : AU) (n : Nat) (t1 t2 : UT) (s : Subst) : Res Subst :=
  (exec au (parseTerm t1) { terms := [t2], mt := s }).bind fun m => compute strict au n t1.occ m.subst m.mt

/-- The metavariable is bound to something else than the other term. -/
def boundElse (s : Subst) : UT → UT → Bool
  | .mv x, t => match s.get x with
    | some v => decide (v ≠ t)
    | none => false
  | .fn _ _, _ => false

/-- `AddUnification` with `addUnifications` (src/Unif/substitutions_tree.go:165-227). -/
def addUnifBody (strict : Bool) (au : AU) (n : Nat) (t1 t2 : UT) (s : Subst) : Res Subst :=
  match t1, t2 with
  | .fn p l, .fn q m => (tryUnif strict au n (.fn p l) (.fn q m) s).bind (elimBoth n)
  | .mv x, t => if boundElse s (.mv x) t || boundElse s t (.mv x) then (tryUnif strict au n (.mv x) t s).bind (elimBoth n)
      else elimBoth n (s.set x t)
  | t, .mv y => if boundElse s (.mv y) t then (tryUnif strict au n t (.mv y) s).bind (elimBoth n)
      else elimBoth n (s.set y t)

/-- `AddUnification` with recursion depth and numbers of rounds bounded by the first argument. -/
def addUnif (strict : Bool) : Nat → AU
  | 0 => fun _ _ _ => .out
  | n + 1 => addUnifBody strict (addUnif strict n) n

/-- The code. -/
abbrev addUnification (n : Nat) : AU := addUnif false n

end Verif.Unif
