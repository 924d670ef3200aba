import Verif.Unif.Machine
/-!
# C103: substitutions of types and terms (`src/Unif/matching_substitutions.go`)

Unification turns type arguments into ordinary arguments and back: the index and the queries hold terms without type arguments, and the answers are
translated (`toMixed`). `MergeMixedSubstitutions` merges substitutions that were already translated, so here unification meets terms *with* type
arguments. This file is the model of `Verif.Unif.Subst` and `Verif.Unif.Machine` for such terms: type arguments are compared by `Equals`, kept by
replacements, and made arguments below the top of the compiled term only.

Types are terms without type arguments (`TyToTerm`, src/AST/ty-syntax.go:456-473): metavariables and constructors; the model starts after that
translation, with the identifier of a symbol for its name. Bound variables do not occur.
-/

namespace Verif.Unif.Mixed
open Verif.Unif

/-- Terms with type arguments (`Meta` and `Fun`, src/AST/termsDef.go:113-118, 310-316). -/
inductive PT where
  | mv (i : Nat)
  | fn (p : Nat) (tys : List UT) (args : List PT)

theorem PT.ind {P : PT → Prop} (mv : ∀ i, P (.mv i))
    (fn : ∀ p tys args, (∀ a ∈ args, P a) → P (.fn p tys args)) : ∀ t, P t := by
  intro t
  refine PT.rec (motive_1 := P) (motive_2 := fun l => ∀ a ∈ l, P a) mv (fun p tys args h => fn p tys args h) ?_ ?_ t
  · simp
  · intro h tl h1 h2 a ha
    rcases List.mem_cons.1 ha with rfl | ha
    · exact h1
    · exact h2 a ha

mutual
/-- `Equals` (src/AST/termsDef.go:142-155, 331-336). -/
def PT.beq : PT → PT → Bool
  | .mv a, .mv b => a == b
  | .fn p t l, .fn q u m => p == q && t == u && PT.beqL l m
  | _, _ => false
def PT.beqL : List PT → List PT → Bool
  | [], [] => true
  | a :: l, b :: m => PT.beq a b && PT.beqL l m
  | _, _ => false
end

theorem PT.beqL_iff {l : List PT} (h : ∀ a ∈ l, ∀ b, PT.beq a b = true ↔ a = b) (m : List PT) :
    PT.beqL l m = true ↔ l = m := by
  induction l generalizing m with
  | nil => cases m <;> simp [PT.beqL]
  | cons a l ih =>
    cases m with
    | nil => simp [PT.beqL]
    | cons b m =>
      simp only [PT.beqL, Bool.and_eq_true, List.cons.injEq]
      rw [h a (by simp), ih (fun a ha => h a (by simp [ha]))]

theorem PT.beq_iff : ∀ a b : PT, PT.beq a b = true ↔ a = b := by
  intro a
  induction a using PT.ind with
  | mv s => intro b; cases b <;> simp [PT.beq]
  | fn p tys args ih =>
    intro b; cases b <;> simp [PT.beq]
    rw [and_assoc, PT.beqL_iff ih]

instance : DecidableEq PT := fun a b => decidable_of_iff _ (PT.beq_iff a b)

mutual
/-- The metavariables of a term (`GetMetaList`, src/AST/termsDef.go:180-193): those of the type arguments are not among them. -/
def PT.occ : PT → List Nat
  | .mv i => [i]
  | .fn _ _ args => PT.occL args
def PT.occL : List PT → List Nat
  | [] => []
  | a :: l => PT.occ a ++ PT.occL l
end

mutual
/-- Replacement of a metavariable by a term; type arguments stay (`eliminateInside`, `eliminateList`, src/Unif/substitutions_type.go:313-318, 359-364). -/
def PT.sub : PT → Nat → PT → PT
  | .mv i, k, v => if i = k then v else .mv i
  | .fn p tys args, k, v => .fn p tys (PT.subL args k v)
def PT.subL : List PT → Nat → PT → List PT
  | [], _, _ => []
  | a :: l, k, v => PT.sub a k v :: PT.subL l k v
end

/-! ### Between terms with and without type arguments -/

mutual
/-- A term without type arguments. -/
def emb : UT → PT
  | .mv i => .mv i
  | .fn p args => .fn p [] (embL args)
def embL : List UT → List PT
  | [] => []
  | a :: l => emb a :: embL l
end

mutual
/-- Type arguments become arguments (`MakerTermForm` and `getFunctionalArguments`, src/Unif/parsing.go:99-106, 147-164). -/
def PT.enc : PT → PT
  | .mv i => .mv i
  | .fn p tys args => .fn p [] (embL tys ++ PT.encL args)
def PT.encL : List PT → List PT
  | [] => []
  | a :: l => PT.enc a :: PT.encL l
end

mutual
/-- `TermToTy` (src/AST/ty-syntax.go:475-492): type arguments are dropped. -/
def PT.toTy : PT → UT
  | .mv i => .mv i
  | .fn p _ args => .fn p (PT.toTyL args)
def PT.toTyL : List PT → List UT
  | [] => []
  | a :: l => PT.toTy a :: PT.toTyL l
end

mutual
/-- `translateTermRec` (src/Unif/matching_substitutions.go:96-128); `pi` is the number of type variables of the declared type of a symbol
(`QueryGlobalEnv`), 0 if there is none. `none` is a panic: too few arguments. -/
def PT.dec (pi : Nat → Nat) : PT → Option PT
  | .mv i => some (.mv i)
  | .fn p tys args => if tys ≠ [] then some (.fn p tys args)
    else if args.length < pi p then none
    else (PT.decL pi (pi p) args).map fun l => .fn p (PT.toTyL (args.take (pi p))) l
/-- The arguments after the first ones. -/
def PT.decL (pi : Nat → Nat) : Nat → List PT → Option (List PT)
  | _, [] => some []
  | k + 1, _ :: l => PT.decL pi k l
  | 0, a :: l => (PT.dec pi a).bind fun b => (PT.decL pi 0 l).map (b :: ·)
end

/-! ### Substitutions -/

/-- `Substitutions` (src/Unif/substitutions_type.go:48). -/
abbrev PSub := List (Nat × PT)

/-- `Get` (src/Unif/substitutions_type.go:136-145). -/
def PSub.get (s : PSub) (k : Nat) : Option PT := (s.find? (fun p => decide (p.1 = k))).map (·.2)

/-- `HasSubst` (src/Unif/substitutions_type.go:222-229). -/
def PSub.has (s : PSub) (k : Nat) : Bool := s.any (fun p => decide (p.1 = k))

/-- `Set` (src/Unif/substitutions_type.go:123-134). The loop assigns to a copy of the pair, so a pair with the same key is left as it
is. -/
def PSub.set (s : PSub) (k : Nat) (v : PT) : PSub := if s.has k then s else s ++ [(k, v)]

/-- `Remove` (src/Unif/substitutions_type.go:147-150) of the first pair with the key: the last pair takes its place. -/
def PSub.removeKey (s : PSub) (k : Nat) : PSub :=
  match s.findIdx? (fun p => decide (p.1 = k)) with
  | none => s
  | some i => match s.getLast? with
    | none => s
    | some l => (List.set s i l).dropLast

/-- `OccurCheckValid` with `isRecursive` and `areFuncArgsRecursive` (src/Unif/substitutions_type.go:233-264). -/
def occurValid (k : Nat) (v : PT) : Bool := !(v.occ.contains k)

/-- One pass of the loop of `eliminateInside` (src/Unif/substitutions_type.go:295-334) with `eliminateList` (src/Unif/substitutions_type.go:338-378) as replacement
of all occurrences (see `Verif.Unif.ElimList`). The second component says if something changed. -/
def elimPass (key : Nat) (value : PT) : PSub → PSub × Bool → Res (PSub × Bool)
  | [], acc => .ok acc
  | (k2, v2) :: rest, (tmp, ch) =>
    match v2 with
    | .mv i => if key = i then elimPass key value rest (tmp.set k2 value, true)
        else elimPass key value rest (tmp.set k2 v2, ch)
    | .fn _ _ _ =>
      let nv := v2.sub key value
      if occurValid k2 nv then elimPass key value rest (tmp.set k2 nv, ch || v2.occ.contains key) else .fail

/-- `eliminateInside` (src/Unif/substitutions_type.go:293-335); the second component is the flag `has_changed_top`. -/
def elimInside (key : Nat) (value : PT) : Nat → PSub → Bool → Res (PSub × Bool)
  | 0, _, _ => .out
  | n + 1, s, top => (elimPass key value s ([], false)).bind fun r =>
      if r.2 then elimInside key value n r.1 true else .ok (r.1, top)

/-- One round of `Eliminate` (src/Unif/substitutions_type.go:278-288): the pairs are those at the start of the round. -/
def elimRound (fuel : Nat) : PSub → PSub × Bool → Res (PSub × Bool)
  | [], acc => .ok acc
  | (k, v) :: rest, acc =>
    if occurValid k v then (elimInside k v fuel acc.1 acc.2).bind fun r => elimRound fuel rest r else .fail

/-- `Eliminate` (src/Unif/substitutions_type.go:268-290). -/
def eliminate : Nat → PSub → Res PSub
  | 0, _ => .out
  | n + 1, s => (elimRound (n + 2) s (s, false)).bind fun r => if r.2 then eliminate n r.1 else .ok r.1

/-- `EliminateMeta` (src/Unif/substitutions_type.go:381-397). -/
def elimMetaLoop (s : PSub) : PSub → PSub → PSub
  | [], acc => acc
  | (k, v) :: rest, acc =>
    match v with
    | .mv i => if s.has i && acc.has i && decide (s.get i = some (.mv k)) then elimMetaLoop s rest acc
        else elimMetaLoop s rest (acc.set k v)
    | .fn _ _ _ => elimMetaLoop s rest (acc.set k v)

def elimMeta (s : PSub) : PSub := elimMetaLoop s s []

/-- Both together. -/
def elimBoth (n : Nat) (s : PSub) : Res PSub := eliminate n (elimMeta s)

/-! ### The machine -/

/-- src/Unif/instruction.go:49-96. `Check` holds the index of the symbol. -/
inductive PInstr where
  | begin
  | fin (t : Option PT)
  | right
  | down
  | check (p : Nat)
  | push (i : Nat)
  | pop (i : Nat)
  | put (i : Nat)
  | compare (i j : Nat)

/-- The comparisons with earlier occurrences of the same metavariable (src/Unif/parsing.go:207-213). -/
def compares (seen : List Nat) (m : Nat) : List PInstr :=
  ((List.range seen.length).filter (fun j => decide (seen[j]? = some m))).map fun j => .compare j seen.length

mutual
/-- One iteration of the loop of `parseTerms` (src/Unif/parsing.go:198-241), for a term whose type arguments were made arguments. -/
def parseT (pc : Nat) (seen : List Nat) (rd : Bool) : PT → List PInstr
  | .mv m => .put seen.length :: (compares seen m ++ if rd then [.right] else [])
  | .fn p tys args =>
    if args.isEmpty then
      .begin :: .check p :: .fin (some (.fn p tys args)) :: if rd then [.right] else []
    else if rd then
      .begin :: .check p :: .push pc :: .down :: (parseL (pc + 1) seen args ++ [.pop pc, .fin (some (.fn p tys args))])
    else
      .begin :: .check p :: .down :: (parseL pc seen args ++ [.fin (some (.fn p tys args))])
/-- `parseTerms` (src/Unif/parsing.go:185-244). -/
def parseL (pc : Nat) (seen : List Nat) : List PT → List PInstr
  | [] => []
  | t :: rest => parseT pc seen (!rest.isEmpty) t ++ parseL pc (seen ++ t.occ) rest
end

/-- `ParseTerm` (src/Unif/parsing.go:246-259). The term itself still has its type arguments; `Down` is written only if it has other arguments
(src/Unif/parsing.go:222-229). -/
def parseTerm : PT → List PInstr
  | .mv m => parseL 0 [] [.mv m]
  | .fn p tys args =>
    if args.isEmpty then [.begin, .check p, .fin (some (.fn p tys args))]
    else .begin :: .check p :: .down :: (parseL 0 [] (embL tys ++ PT.encL args) ++ [.fin (some (.fn p tys args))])

/-- `Machine` (src/Unif/machine.go:58-71). -/
structure M where
  q : Nat := 0
  beginCount : Nat := 0
  beginLock : Option Nat := none
  hasPushed : Bool := false
  hasPoped : Bool := false
  post : List (Nat × List PT) := []
  subst : List (Nat × PT) := []
  terms : List PT := []
  mt : PSub := []
  tot : Nat := 0
  cnt : Nat := 0

/-- `unwrapMeta` (src/Unif/machine.go:105-116). Every iteration marks a bound metavariable not marked before,
so there are at most as many as bindings. -/
def unwrap (s : PSub) : Nat → List Nat → PT → PT
  | 0, _, t => t
  | n + 1, seen, .mv i =>
    match s.get i with
    | none => .mv i
    | some v => if i ∈ seen then .mv i else unwrap s n (i :: seen) v
  | _ + 1, _, .fn p tys args => .fn p tys args

/-- `GetSubstAt` (src/Unif/subst_pair.go:63-70). -/
def getAt (l : List (Nat × PT)) (i : Nat) : Option PT := (l.find? (fun p => decide (p.1 = i))).map (·.2)

/-- The type of `AddUnification`. -/
abbrev AU := PT → PT → PSub → Res PSub

/-- `right` (src/Unif/matching.go:260-269). -/
def M.right (m : M) : Res M :=
  match m.beginLock with
  | some _ => .ok m
  | none => if m.terms.length ≤ m.q + 1 then .fail else .ok { m with q := m.q + 1, cnt := m.cnt + 1 }

/-- `lockedRight` (src/Unif/machine.go:153-163). -/
def M.lockedRight (m : M) : Res M :=
  if m.hasPushed && m.hasPoped then
    let m1 := { m with hasPushed := false, hasPoped := false }
    if m1.q + 1 < m1.terms.length then m1.right else .ok m1
  else .ok m

/-- `checkEnd` (src/Unif/machine.go:181-186). -/
def M.checkEnd (m : M) : Res M := if m.beginCount = 0 ∧ m.cnt ≠ m.tot then .fail else .ok m

/-- `end` with `tryUnlock` and `trySubstituteMeta` (src/Unif/matching.go:251-257, machine.go:166-177,
substitutions_tree.go:153-163). -/
def M.fin (au : AU) (m0 : M) (t : Option PT) : Res M :=
  let m := { m0 with beginCount := m0.beginCount - 1 }
  match m.beginLock with
  | none => m.checkEnd
  | some b =>
    if m.beginCount = b then
      match m.terms[m.q]?, t with
      | some (.mv x), some t =>
        (au (.mv x) t m.mt).bind fun s => (M.lockedRight { m with beginLock := none, mt := s }).bind M.checkEnd
      | _, _ => .panic
    else m.checkEnd

/-- One instruction (src/Unif/matching.go:142-171, 245-348). -/
def M.step (au : AU) (m : M) : PInstr → Res M
  | .begin =>
    match m.terms[m.q]? with
    | none => .panic
    | some (.mv _) => .ok { m with beginLock := some (m.beginLock.getD m.beginCount), beginCount := m.beginCount + 1 }
    | some (.fn _ _ _) => .ok { m with beginCount := m.beginCount + 1 }
  | .fin t => m.fin au t
  | .right => m.right
  | .down =>
    match m.beginLock with
    | some _ => .ok m
    | none => match m.terms[m.q]? with
      | some (.fn _ _ args) => .ok { m with terms := args, q := 0, tot := m.tot + args.length, cnt := m.cnt + 1 }
      | _ => .panic
  | .check p =>
    match m.beginLock with
    | some _ => .ok m
    | none => match m.terms[m.q]? with
      | none => .panic
      | some (.fn p' _ _) => if p' = p then .ok m else .fail
      | some (.mv x) =>
        match m.mt.get x with
        | none => .ok m
        | some v => match unwrap m.mt (m.mt.length + 1) [] v with
          | .mv _ => .ok m
          | .fn p' _ _ => if p' = p then .ok m else .fail
  | .push _ =>
    match m.beginLock with
    | some _ => .ok { m with hasPushed := true }
    | none => .ok { m with post := m.post ++ [(m.q + 1, m.terms)] }
  | .pop i =>
    match m.beginLock with
    | some _ => .ok { m with hasPoped := true }
    | none => match m.post[i]? with
      | none => .panic
      | some (q, ts) => if ts.length ≤ q then .fail
          else .ok { m with q := q, terms := ts, post := m.post.eraseIdx i, cnt := m.cnt + 1 }
  | .put i =>
    match m.beginLock with
    | some _ => .ok m
    | none => match m.terms[m.q]? with
      | none => .panic
      | some t => .ok { m with subst := m.subst ++ [(i, t)] }
  | .compare i j =>
    match m.beginLock with
    | some _ => .ok m
    | none => match getAt m.subst i, getAt m.subst j with
      | some a, some b =>
        let a' := unwrap m.mt (m.mt.length + 1) [] a
        let b' := unwrap m.mt (m.mt.length + 1) [] b
        if a' = b' then .ok m else (au a' b' m.mt).bind fun s => .ok { m with mt := s }
      | _, _ => .ok m

/-- The loop over the instructions of a node (src/Unif/matching.go:104-172). -/
def exec (au : AU) : List PInstr → M → Res M
  | [], m => .ok m
  | i :: is, m => (m.step au i).bind (exec au is)

/-- The loop of `computeSubstitutions` (src/Unif/substitutions_tree.go:77-105): `metas` are the
metavariable occurrences of the compiled term, `T` is `treeSubs`, `E` is `metasToSubs`. -/
def computeLoop (au : AU) (metas : List Nat) :
    List (Nat × PT) → PSub → PSub → Res (PSub × PSub)
  | [], T, E => .ok (T, E)
  | (i, u) :: rest, T, E =>
    match metas[i]? with
    | none => .panic
    | some m =>
      if PT.mv m = u then computeLoop au metas rest T E
      else match E.get m with
        | none => computeLoop au metas rest (T.set m u) E
        | some v =>
          if u = v then computeLoop au metas rest (T.set m u) E
          else (au u v (T.set m u)).bind fun T' => computeLoop au metas rest T' (E.removeKey m)

/-- The second loop of `MergeSubstitutions` (src/Unif/substitutions_tree.go:274-285). After a failure the Go
loop goes on, adding pairs to the failure value; `Eliminate` then fails again. -/
def mergeLoop (au : AU) (n : Nat) : PSub → PSub → Res PSub
  | [], res => .ok res
  | (k, v) :: rest, res =>
    if res.has k then (au (.mv k) v res).bind (mergeLoop au n rest)
    else (elimBoth n (res.set k v)).bind (mergeLoop au n rest)

/-- `MergeSubstitutions` (src/Unif/substitutions_tree.go:250-287). -/
def merge (au : AU) (n : Nat) (s1 s2 : PSub) : Res PSub :=
  if s1.isEmpty then .ok s2
  else if s2.isEmpty then .ok s1
  else mergeLoop au n s2 (s1.foldl (fun r p => r.set p.1 p.2) [])

/-- `computeSubstitutions` (src/Unif/substitutions_tree.go:52-150). -/
def compute (au : AU) (n : Nat) (metas : List Nat) (subs : List (Nat × PT)) (E : PSub) :
    Res PSub :=
  (computeLoop au metas subs [] E).bind fun r =>
  (elimBoth n r.2).bind fun E' =>
  (elimBoth n r.1).bind fun T' =>
  (merge au n E' T').bind fun res => elimBoth n res

/-- `tryUnification` (src/Unif/substitutions_tree.go:230-247): the single-leaf tree of the first term run
against the second. -/
def tryUnif (au : AU) (n : Nat) (t1 t2 : PT) (s : PSub) : Res PSub :=
  (exec au (parseTerm t1) { terms := [t2], mt := s }).bind fun m => compute au n t1.enc.occ m.subst m.mt

/-- The metavariable is bound to something else than the other term. -/
def boundElse (s : PSub) : PT → PT → Bool
  | .mv x, t => match s.get x with
    | some v => decide (v ≠ t)
    | none => false
  | .fn _ _ _, _ => false

/-- `AddUnification` with `addUnifications` (src/Unif/substitutions_tree.go:165-227). -/
def addUnifBody (au : AU) (n : Nat) (t1 t2 : PT) (s : PSub) : Res PSub :=
  match t1, t2 with
  | .fn p tp l, .fn q tq m => (tryUnif au n (.fn p tp l) (.fn q tq m) s).bind (elimBoth n)
  | .mv x, t => if boundElse s (.mv x) t || boundElse s t (.mv x) then (tryUnif au n (.mv x) t s).bind (elimBoth n)
      else elimBoth n (s.set x t)
  | t, .mv y => if boundElse s (.mv y) t then (tryUnif au n t (.mv y) s).bind (elimBoth n)
      else elimBoth n (s.set y t)

/-- `AddUnification` with recursion depth and numbers of rounds bounded by the first argument. -/
def addUnif : Nat → AU
  | 0 => fun _ _ _ => .out
  | n + 1 => addUnifBody (addUnif n) n

/-! ### Mixed substitutions -/

/-- `MixedSubstitution` (src/Unif/matching_substitutions.go:76-78): of a metavariable for types or for terms. -/
inductive Mix where
  | ty (k : Nat) (v : UT)
  | tm (k : Nat) (v : PT)

/-- `translateToSubst` (src/Unif/matching_substitutions.go:271-284): terms stay as they are. -/
def Mix.toSub : Mix → Nat × PT
  | .ty k v => (k, emb v)
  | .tm k v => (k, v)

/-- `translateFromSubst` (src/Unif/matching_substitutions.go:80-95); `isTy` says which metavariables stand for types. -/
def fromSub (pi : Nat → Nat) (isTy : Nat → Bool) (b : Nat × PT) : Option Mix :=
  if isTy b.1 then some (.ty b.1 b.2.toTy) else (b.2.dec pi).map (.tm b.1)

/-- `MergeMixedSubstitutions` (src/Unif/matching_substitutions.go:286-299); `fail` is `success = false`. -/
def mergeMixed (pi : Nat → Nat) (isTy : Nat → Bool) (n : Nat) (s1 s2 : List Mix) : Res (List Mix) :=
  (merge (addUnif n) n (s1.map Mix.toSub) (s2.map Mix.toSub)).bind fun r =>
    match r.mapM (fromSub pi isTy) with
    | some l => .ok l
    | none => .panic

end Verif.Unif.Mixed
