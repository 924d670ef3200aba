import Verif.Search.Rules
import Verif.Search.Reintro
import Verif.Search.Clean
import Verif.Search.Select
import Verif.Search.GlobalUnifier
import Verif.Search.IncrSearch
/-!
# C65, C66: the main search as a whole (`src/Search/destructive.go`, `children.go`, `child_management.go`)

The processes of `Verif.Search.Protocol` with what they carry: the formulas of the branch, the metavariables, the
substitutions. A process is a tree node with its children; the channels are unbuffered, so that sending and receiving are one
step of both. A process that has got the order to quit only passes it on to its children (`Verif.Search.ProtocolEnd`), it is
left out of the tree.

Simplifications. The formulas a substitution comes with (`SubstAndForm`), the proofs (`Verif.Search.MainProof`), the global unifier (`Verif.Search.GlobalUnifier`)
and `meta_to_reintroduce` (not used in the choice, src/Search/destructive.go:1381) are left out: no decision depends on
them. Rewriting, the completeness mode and the assisted mode are off, as they are unless asked for. Equality reasoning is left out:
it is on unless `-noeq` is given (src/options.go:218-224), but does nothing on a branch without positive
equality (src/Mods/equality/bse/equality_problem_list.go:261-266), so that the model is about formulas without equality and about
runs with `-noeq`. Predicates and functions have no type arguments where they are compared or unified. Sets of metavariables are lists without repetitions;
the order of the arguments of a Skolem term follows these lists. The index is an oracle as for the incremental search.
-/

namespace Verif.Search.Main
open Verif.AST Verif.Search Verif.Unif

/-! ### Formulas with their terms -/

/-- `FormAndTerms` (src/Core/form_and_terms.go:44-47). -/
structure FT where
  form : Form
  terms : List Term
deriving DecidableEq

/-- `FormAndTerms.Equals` (src/Core/form_and_terms.go:75-78); `EqualsWithoutOrder` (src/AST/term-list.go:106-118) compares the sorted
lists. -/
def FT.same (a b : FT) : Bool := decide (a.form = b.form) && a.terms.isPerm b.terms

/-- `AppendIfNotContains` (src/Core/form_and_terms_list.go:152-158). -/
def addFT (l : List FT) (f : FT) : List FT := if l.any (fun g => f.same g) then l else l ++ [f]

/-- `Merge` (src/Core/form_and_terms_list.go:178-184). -/
def mergeFT (l l' : List FT) : List FT := l'.foldl addFT l

/-- Union of sets of metavariables. -/
def uni (l l' : List Nat) : List Nat := l ++ l'.filter fun x => decide (x ∉ l)

/-! ### States -/

/-- The part of `State` (src/Search/state.go:55-77) that decides. -/
structure Data where
  n : Int
  lf : List FT := []
  atomic : List FT := []
  alpha : List FT := []
  beta : List FT := []
  delta : List FT := []
  gamma : List FT := []
  metaGen : List (FT × Nat) := []
  mm : List Nat := []
  mc : List Nat := []
  applied : Subst := []
  found : List Subst := []
deriving DecidableEq

/-- `State.Copy` (src/Search/state.go:385-442) in destructive mode. -/
def Data.copy (d : Data) : Data := { d with mm := uni d.mm d.mc, mc := [], applied := [], found := [] }

/-- `DispatchForm` (src/Search/state.go:470-489). -/
def Data.dispatch (d : Data) (f : FT) : Data :=
  match showKind f.form with
  | .atomic => { d with atomic := addFT d.atomic f }
  | .alpha => { d with alpha := addFT d.alpha f }
  | .beta => { d with beta := addFT d.beta f }
  | .delta => { d with delta := addFT d.delta f }
  | .gamma => { d with gamma := addFT d.gamma f }

/-! ### Substitutions -/

mutual
/-- A machine term as a term. -/
def ofUT : UT → Term
  | .mv i => .mv i
  | .fn p args => .fn p [] (ofUTL args)
def ofUTL : List UT → List Term
  | [] => []
  | t :: l => ofUT t :: ofUTL l
end

/-- `ApplySubstitutionsOnFormula` (src/Core/substitutions_search.go:298-316). -/
def applyForm (s : Subst) (f : Form) : Form := s.foldl (fun f p => f.replaceMetaByTerm p.1 (ofUT p.2)) f

/-- `ApplySubstitutionsOnTerm` (src/Core/substitutions_search.go:263-280). -/
def applyTerm (s : Subst) (t : Term) : Term := s.foldl (fun t p => t.replaceSubTermBy (.mv p.1) (ofUT p.2)) t

/-- `ApplySubstitutionsOnFormAndTermsList` (src/Core/substitutions_search.go:330-343). -/
def applyList (s : Subst) (l : List FT) : List FT := l.foldl (fun r f => addFT r ⟨applyForm s f.form, f.terms⟩) []

/-- `ApplySubstitutionOnMetaGenList` (src/Core/substitutions_search.go:346-362). -/
def applyGen (s : Subst) (l : List (FT × Nat)) : List (FT × Nat) := l.foldl (fun r g =>
  let f : FT := ⟨applyForm s g.1.form, g.1.terms.map (applyTerm s)⟩
  if r.any (fun x => x.1.same f) then r else r ++ [(f, g.2)]) []

/-- `MergeSubstAndForm` (src/Core/subst_and_form.go:185-205); `none`: the program stops. -/
def mrg (fuel : Nat) (s1 s2 : Subst) : Option Subst :=
  if s1 = [] then some s2 else if s2 = [] then some s1 else
    match mixed fuel s1 s2 with
    | .ok (some r) => some r
    | _ => none

/-- `GetMetaFromSubst` (src/Core/substitutions_search.go:49-68). -/
def substMetas (s : Subst) : List Nat := s.foldl (fun r p => uni (uni r [p.1]) p.2.occ) []

/-- `ApplySubstitution` (src/Search/state.go:494-515). -/
def Data.apply (fuel : Nat) (s : Subst) (d : Data) : Option Data :=
  (mrg fuel d.applied s).map fun r => { d with
    applied := r, lf := applyList s d.lf, atomic := applyList s d.atomic, alpha := applyList s d.alpha, beta := applyList s d.beta,
    delta := applyList s d.delta, gamma := applyList s d.gamma, metaGen := applyGen s d.metaGen }

/-- `RemoveElementWithoutMM` (src/Core/substitutions_search.go:71-167); `none`: the program stops or does not end. -/
def cleaned (fuel : Nat) (s : Subst) (mm : List Nat) : Option Subst :=
  match Clean.clean fuel s mm with
  | .ok r => some r
  | _ => none

/-! ### Closure -/

/-- What the search depends on: the index, a bound on the depth of unification, the symbol of equality and
the arguments of Skolem terms, given the metavariables of the branch and the formula. -/
structure Env where
  U : Incr.Oracle
  fuel : Nat
  eq : Nat
  sko : List Nat → Form → List Nat

/-- The number of a step with the next metavariable and the next Skolem symbol. -/
structure Now where
  time : Nat
  m : Nat
  sk : Nat

/-- `searchObviousClosureRule` (src/Search/rules.go:135-151). -/
def obvious : Form → Bool
  | .bot => true
  | .neg .top => true
  | _ => false

/-- `searchInequalities` (src/Search/rules.go:154-190). Outer `none`: the program stops or does not end. -/
def inequality (e : Env) : Form → Option (Option Subst)
  | .neg (.pred p _ args) => if p = e.eq then
      match args with
      | t :: u :: _ => match addUnif false e.fuel (Incr.utOf t) (Incr.utOf u) [] with
        | .ok r => some (some r)
        | .fail => some none
        | _ => none
      | _ => none
    else some none
  | _ => some none

/-- The positive atoms of a list (`makeCodeTreeFromAtomic`, src/Unif/code-trees.go:103-127). -/
def posAtoms (l : List FT) : List Atom := l.filterMap fun f => match f.form with
  | .pred p _ args => some ⟨p, Incr.utOfL args⟩
  | _ => none

/-- The negated atoms of a list. -/
def negAtoms (l : List FT) : List Atom := l.filterMap fun f => match f.form with
  | .neg (.pred p _ args) => some ⟨p, Incr.utOfL args⟩
  | _ => none

/-- `searchClosureRule` (src/Search/rules.go:193-207) in the indexes of the atoms `pos` and `neg`. -/
def contrary (e : Env) (time : Nat) (pos neg : List Atom) : Form → Option (List Subst)
  | .pred p _ args => e.U time neg ⟨p, Incr.utOfL args⟩
  | .neg (.pred p _ args) => e.U time pos ⟨p, Incr.utOfL args⟩
  | _ => some []

/-- `ApplyClosureRules` (src/Search/rules.go:62-111) without forbidden substitutions. Outer `none`: the program stops or does not
end; inner `none`: no closure. -/
def closure (e : Env) (time : Nat) (pos neg : List Atom) (f : Form) : Option (Option (List Subst)) :=
  if obvious f then some (some []) else
    match inequality e f, contrary e time pos neg f with
    | some i, some l =>
      let r := l.foldl Clean.addNew i.toList
      some (if r = [] then none else some r)
    | _, _ => none

/-- What a round of `ProofSearch` leads to. -/
inductive Out where
  /-- `ProofSearch` again. -/
  | again (d : Data)
  /-- `sendSubToFather`. -/
  | answer (closed need : Bool) (d : Data)
  /-- Children are started; `waitChildren`. -/
  | split (d : Data) (kids : List Data)
deriving DecidableEq

/-- The third case of `ManageClosureRule` (src/Search/destructive.go:1157-1189): each substitution is merged with the applied one. -/
def mergeFound (fuel : Nat) (applied : Subst) : List Subst → List Subst → Option (List Subst)
  | [], r => some r
  | s :: l, r => match mrg fuel s applied with
    | some t => mergeFound fuel applied l (Clean.addNew r t)
    | none => none

/-- `ManageClosureRule` (src/Search/destructive.go:1061-1228). -/
def close (e : Env) (d : Data) (substs : List Subst) : Option Out :=
  match Clean.dispatch e.fuel (uni d.mm (substMetas d.applied)) substs {} with
  | .ok o =>
    if substs = [] ∨ o.withoutMM ≠ [] then some (.answer true false { d with found := [d.applied] })
    else (mergeFound e.fuel d.applied o.withMM d.found).map fun l => .answer true true { d with found := l }
  | _ => none

/-- The first formula of the list that closes the branch. Outer `none`: the program stops; inner: no closure. -/
def closeFirst (e : Env) (time : Nat) (pos neg : List Atom) (d : Data) : List FT → Option (Option Out)
  | [] => some none
  | f :: l => match closure e time pos neg f.form with
    | none => none
    | some (some substs) => (close e d substs).map some
    | some none => closeFirst e time pos neg d l

/-! ### Rules -/

/-- `GetIndexMetaGenList` (src/Core/meta_gen.go:100-108). -/
def genIndex (f : FT) (l : List (FT × Nat)) : Nat × List (FT × Nat) :=
  match l.findIdx? fun g => g.1.same f with
  | some i => (i, l)
  | none => (l.length, l ++ [(f, 1)])

/-- Whether the first variable of a gamma formula stands for terms. -/
def firstIsTerm : Form → Bool
  | .neg (.ex (v :: _) _) => !isTType v.ty
  | .all (v :: _) _ => !isTType v.ty
  | _ => false

/-- `applyRules` (src/Search/destructive.go:1231-1410). -/
def rules (e : Env) (w : Now) (d : Data) : Option Out :=
  match d.alpha, d.delta, d.beta, d.gamma with
  | h :: t, _, _, _ => some (.again { d with alpha := t, lf := (applyAlpha h.form).map fun f => ⟨f, h.terms⟩ })
  | [], h :: t, _, _ => (skolemize w.sk (e.sko (uni d.mm d.mc) h.form) h.form).map fun f =>
      .again { d with delta := t, lf := [⟨f, (uni d.mm d.mc).map .mv⟩] }
  | [], [], h :: t, _ => some (.split d ((applyBeta h.form).map fun fs =>
      { d.copy with beta := t, lf := fs.map fun f => ⟨f, h.terms⟩ }))
  | [], [], [], h :: t =>
    let (k, gen) := genIndex h d.metaGen
    let new := if firstIsTerm h.form then [w.m] else []
    (instantiate w.m k h.form).map fun f =>
      .again { d with gamma := t, metaGen := gen, lf := [⟨f, h.terms ++ new.map .mv⟩], mc := uni d.mc new, n := d.n - 1 }
  | [], [], [], [] =>
    if d.metaGen ≠ [] ∧ d.n > 0 then
      match Reintro.reintroduce (d.metaGen.map (·.2)) none 0 with
      | some (i, cs) => (d.metaGen[i]?).map fun g => .again { d with lf := [g.1], metaGen := (d.metaGen.map (·.1)).zip cs }
      | none => none
    else some (.answer false false d)

/-! ### `ProofSearch` -/

/-- The loop over the new formulas (src/Search/destructive.go:331-346): the state, the new literals, and whether one of
them closes the branch obviously. -/
def dispatchLF : List FT → Data → List FT → Data × List FT × Bool
  | [], d, new => (d, new, false)
  | f :: l, d, new =>
    if showKind f.form = .atomic then
      if obvious f.form then (d, new, true) else dispatchLF l d (new ++ [f])
    else dispatchLF l (d.dispatch f) new

/-- `FilterLitPolarity` (src/Core/form_and_terms_list.go:223-242). -/
def filterPos (l : List FT) : List FT := l.foldl (fun r f => match f.form with
  | .pred _ _ _ => addFT r f
  | _ => r) []

def filterNeg (l : List FT) : List FT := l.foldl (fun r f => match f.form with
  | .neg (.pred _ _ _) => addFT r f
  | _ => r) []

/-- From the loop over the new formulas on (src/Search/destructive.go:330-403). -/
def expand (e : Env) (w : Now) (d : Data) : Option Out :=
  let (d1, new, obv) := dispatchLF d.lf d []
  if obv then close e d1 [] else
    let plus := filterPos new
    let minus := filterNeg new
    let pos := posAtoms (mergeFT d1.atomic plus)
    let neg := negAtoms (mergeFT d1.atomic minus)
    let d2 := new.foldl Data.dispatch d1
    match closeFirst e w.time pos neg d2 (plus ++ minus) with
    | none => none
    | some (some o) => some o
    | some none => rules e w d2

/-- `ProofSearch` (src/Search/destructive.go:264-404) when no order has come. -/
def round (e : Env) (w : Now) (s : Subst) (d : Data) : Option Out :=
  if s = [] then expand e w d else
    match d.apply e.fuel s with
    | none => none
    | some d1 => match closeFirst e w.time (posAtoms d1.atomic) (negAtoms d1.atomic) d1 d1.atomic with
      | none => none
      | some (some o) => some o
      | some none => expand e w d1

/-! ### Processes -/

/-- What a process does after it has closed its children. -/
inductive Next where
  /-- `sendSubToFather` (src/Search/child_management.go:122-251, 320-321). -/
  | send (closed need : Bool)
  /-- `waitFather` (src/Search/destructive.go:477-482, 644-655). -/
  | wait
  /-- Another substitution (src/Search/child_management.go:293-301). -/
  | retry (cur : Subst) (bt : List Subst)
  /-- No substitution left (src/Search/child_management.go:302-322). -/
  | giveUp
deriving DecidableEq

/-- The place in the code a process is at. -/
inductive Pc where
  /-- The `select` at the beginning of `ProofSearch` (src/Search/destructive.go:293-296), with the substitution to apply. -/
  | search (s : Subst)
  /-- The `select` of `sendSubToFather` (src/Search/children.go:227-244). -/
  | send (closed need : Bool)
  /-- `waitFather` (src/Search/destructive.go:503-641). -/
  | waitF
  /-- `selectChildren` (src/Search/destructive.go:679-943), with the current substitution, the ones to backtrack to and what
  has been collected. -/
  | collect (cur : Subst) (bt : List Subst) (acc : Select.St)
  /-- `sendSubToChildren` (src/Search/children.go:159-176), with the substitution sent, the current one and the ones to backtrack to. -/
  | give (s cur : Subst) (bt : List Subst)
  /-- The `select` of `closeChildren` (src/Search/children.go:131-141). -/
  | close (kill : Bool) (k : Next)
  /-- `v.quit <- kill` in `closeChildren` (src/Search/children.go:142-143). -/
  | reply (kill : Bool) (k : Next)
deriving DecidableEq

/-- A process: its state, the substitutions it has sent (`given_substs`), where it is, and its children. The mark of a child is
`true` while the loop the process is in still has to deal with it. -/
inductive Proc where
  | mk (d : Data) (given : List Subst) (pc : Pc) (kids : List (Bool × Proc))

namespace Proc
def d : Proc → Data
  | .mk d _ _ _ => d
def given : Proc → List Subst
  | .mk _ g _ _ => g
def pc : Proc → Pc
  | .mk _ _ pc _ => pc
def kids : Proc → List (Bool × Proc)
  | .mk _ _ _ k => k
end Proc

/-- A new process (src/Search/destructive.go:1331-1334, 633). -/
def fresh (s : Subst) (d : Data) : Proc := .mk d [] (.search s) []

/-- All children have still to be dealt with. -/
def all (ks : List (Bool × Proc)) : List (Bool × Proc) := ks.map fun k => (true, k.2)

/-- Nothing is left to do in the loop over the children. -/
def done (ks : List (Bool × Proc)) : Bool := ks.all fun k => !k.1

/-- The substitutions `sendSubToFather` sends (src/Search/children.go:193). -/
def Proc.sends (p : Proc) : List Subst := p.d.found.filter fun s => !s.isEmpty

/-- A process after its answer was taken, when it waits for an answer (src/Search/children.go:236-237, destructive.go:507;
`FusionSubstAndFormListWithoutDouble`, src/Core/substitutions_search.go:221-227). -/
def Proc.sent : Proc → Proc
  | .mk d g pc ks => .mk { d with found := [] } (g.foldl Clean.addNew (Proc.mk d g pc ks).sends) .waitF ks

/-- The order to wait (`quit` is false): taken at the `select`s of `ProofSearch`, `waitChildren`, `selectChildren`,
`sendSubToFather` and `waitFather` (src/Search/destructive.go:293-296, 439-444, 510-513, 722-731, children.go:241-243). -/
def Proc.hold : Proc → Option Proc
  | .mk d _ (.search _) ks => some (.mk d d.found (.close true .wait) (all ks))
  | .mk d g (.send _ _) ks => some (.mk d g (.close true .wait) (all ks))
  | .mk d g .waitF ks => some (.mk d g (.close true .wait) (all ks))
  | .mk d g (.collect _ _ _) ks => some (.mk d g (.close true .wait) (all ks))
  | _ => none

/-- The order to quit is taken at the same places. -/
def Proc.dies : Proc → Bool
  | .mk _ _ (.search _) _ => true
  | .mk _ _ (.send _ _) _ => true
  | .mk _ _ .waitF _ => true
  | .mk _ _ (.collect _ _ _) _ => true
  | _ => false

/-- A substitution of the father arrives in `waitFather` (src/Search/destructive.go:516-640). -/
def Proc.take (s : Subst) : Proc → Option Proc
  | .mk d g .waitF ks =>
    if s ∈ g then some (.mk { d with found := [s] } g (.send true true) ks)
    else
      let d1 := { d with mm := uni d.mm ((substMetas s).filter fun x => decide (x ∉ d.mc)) }
      some (.mk d1 g (.collect s [] {}) [(true, fresh s d1.copy)])
  | _ => none

/-- `passSubstToParent` (src/Search/child_management.go:160-251): the substitutions for the father. -/
def forParent (fuel : Nat) (d : Data) : List Subst → List Subst → Option (List Subst)
  | [], r => some r
  | s :: l, r => match mrg fuel s d.applied with
    | none => none
    | some t => match cleaned fuel t d.mm with
      | none => none
      | some c => forParent fuel d l (if c = [] then r else Clean.addNew r c)

/-- All children have answered (src/Search/destructive.go:462-476, child_management.go:122-273). `rnd` is the random number of
`chooseSubstitutionDestructive`. -/
def collected (e : Env) (rnd : Nat) (d : Data) (g : List Subst) (cur : Subst) (bt : List Subst) (acc : Select.St)
    (ks : List (Bool × Proc)) : Option Proc :=
  match Select.finish (mrg e.fuel) cur none acc with
  | some (.closeByItself, _) =>
    match cleaned e.fuel d.applied d.mm with
    | none => none
    | some c => if cur = [] then some (.mk { d with found := if c = [] then [] else [c] } g (.close true (.send true false)) (all ks)) else none
  | some (.substForParent, l) => (forParent e.fuel d l []).map fun r =>
      .mk { d with found := r } g (.close true (.send true (!r.isEmpty))) (all ks)
  | some (.substForChildren, l) => (Select.choose d.mm (rnd % l.length) l).map fun p =>
      .mk d g (.give p.1 p.1 (bt ++ p.2)) (all ks)
  | _ => none

/-- The children are closed. -/
def closed (rnd : Nat) (d : Data) (g : List Subst) (k : Next) (ks : List (Bool × Proc)) : Option Proc :=
  match k with
  | .send c n => some (.mk d g (.send c n) ks)
  | .wait => some (.mk { d with found := [] } g .waitF ks)
  | .retry cur bt => (Select.choose d.mm (rnd % bt.length) bt).map fun p => .mk d g (.give p.1 cur p.2) (all ks)
  | .giveUp => some (.mk d g (.close true (.send false true)) (all ks))

/-- A step of the process itself. -/
def Proc.own (e : Env) (w : Now) (rnd : Nat) : Proc → Option Proc
  | .mk d g (.search s) ks => match round e w s d with
    | some (.again d') => some (.mk d' g (.search []) ks)
    | some (.answer c n d') => some (.mk d' [] (.send c n) ks)
    | some (.split d' ds) => some (.mk d' [] (.collect [] [] {}) (ds.map fun d => (true, fresh [] d)))
    | none => none
  | .mk d g (.collect cur bt acc) ks => if done ks then collected e rnd d g cur bt acc ks else none
  | .mk d g (.give _ cur bt) ks => if done ks then some (.mk d g (.collect cur bt {}) (all ks)) else none
  | .mk d g (.close _ k) ks => if done ks then closed rnd d g k ks else none
  | _ => none

/-- The child `i` is the next one of the loop over the children. -/
def isNext (ks : List (Bool × Proc)) (i : Nat) : Bool := done (ks.take i)

/-- A child after its answer has been taken: it waits, or it is gone. -/
def keep (ks : List (Bool × Proc)) (i : Nat) (k : Proc) (need : Bool) : List (Bool × Proc) :=
  if need then ks.set i (false, k.sent) else ks.eraseIdx i

/-- The answer of the child `i` is taken, in `selectChildren` (src/Search/destructive.go:719-871) or in `closeChildren`
(src/Search/children.go:134-148). -/
def Proc.recv (i : Nat) : Proc → Option Proc
  | .mk d g (.collect cur bt acc) ks => match ks[i]? with
    | some (true, k) => match k.pc with
      | .send true need => some (.mk d g (.collect cur bt (Select.onClosed cur acc k.sends)) (keep ks i k need))
      | .send false need => some (.mk d g (.close false (if bt = [] then .giveUp else .retry cur bt)) (all (keep ks i k need)))
      | _ => none
    | _ => none
  | .mk d g (.close kill nx) ks => if isNext ks i then match ks[i]? with
      | some (true, k) => match k.pc with
        | .send _ true => some (.mk d g (.reply kill nx) (ks.set i (true, k.sent)))
        | .send _ false => some (.mk d g (.close kill nx) (ks.eraseIdx i))
        | _ => none
      | _ => none
    else none
  | _ => none

/-- The order for the child `i` in `closeChildren` (src/Search/children.go:132-133, 142-143). -/
def Proc.order (i : Nat) : Proc → Option Proc
  | .mk d g (.close kill nx) ks => if isNext ks i then match ks[i]? with
      | some (true, k) => if kill then (if k.dies then some (.mk d g (.close kill nx) (ks.eraseIdx i)) else none)
          else k.hold.map fun k' => .mk d g (.close kill nx) (ks.set i (false, k'))
      | _ => none
    else none
  | .mk d g (.reply kill nx) ks => if isNext ks i then match ks[i]? with
      | some (true, k) => if k.pc = .waitF then
          (if kill then some (.mk d g (.close kill nx) (ks.eraseIdx i))
          else k.hold.map fun k' => .mk d g (.close kill nx) (ks.set i (false, k')))
        else none
      | _ => none
    else none
  | _ => none

/-- The substitution for the child `i` in `sendSubToChildren` (src/Search/children.go:159-176). -/
def Proc.give (i : Nat) : Proc → Option Proc
  | .mk d g (.give s cur bt) ks => if isNext ks i then match ks[i]? with
      | some (true, k) => (k.take s).map fun k' => .mk d g (.give s cur bt) (ks.set i (false, k'))
      | _ => none
    else none
  | _ => none

/-- What the scheduler chooses. -/
inductive Act where
  | own (rnd : Nat)
  | recv (i : Nat)
  | order (i : Nat)
  | give (i : Nat)

def Proc.act (e : Env) (w : Now) : Act → Proc → Option Proc
  | .own rnd, p => p.own e w rnd
  | .recv i, p => p.recv i
  | .order i, p => p.order i
  | .give i, p => p.give i

/-- A step of the process at the given place of the tree. -/
def Proc.step (e : Env) (w : Now) (a : Act) : List Nat → Proc → Option Proc
  | [], p => p.act e w a
  | i :: path, .mk d g pc ks => match ks[i]? with
    | some (b, k) => (k.step e w a path).map fun k' => .mk d g pc (ks.set i (b, k'))
    | none => none

/-- The whole program: `doOneStep` and `manageResult` (src/Search/destructive.go:98-154, 1412-1427). -/
structure Sys where
  root : Proc
  time : Nat
  result : Option Bool

/-- The metavariables and Skolem symbols of a step are numbered from `m` and `sk` on. -/
structure Start where
  m : Nat
  sk : Nat

def Start.now (b : Start) (time : Nat) : Now := ⟨time, b.m + time, b.sk + time⟩

/-- A step of the program: of a process, or the main goroutine takes the result. -/
inductive Choice where
  | proc (path : List Nat) (a : Act)
  | result

def Sys.step (e : Env) (b : Start) (s : Sys) : Choice → Option Sys
  | .proc path a => if s.result = none then (s.root.step e (b.now s.time) a path).map fun p => { s with root := p, time := s.time + 1 } else none
  | .result => if s.result = none then match s.root.pc with
      | .send c _ => some { s with result := some c, time := s.time + 1 }
      | _ => none
    else none

def Sys.run (e : Env) (b : Start) : Sys → List Choice → Option Sys
  | s, [] => some s
  | s, c :: cs => match s.step e b c with
    | some s' => s'.run e b cs
    | none => none

/-- The beginning of the search with a limit (src/Search/destructive.go:98-134). -/
def start (limit : Nat) (f : Form) : Sys := ⟨fresh [] { n := limit, lf := [⟨f, []⟩] }, 0, none⟩

/-- Some schedule leads from the start to this state. -/
def Reaches (e : Env) (b : Start) (limit : Nat) (f : Form) (s : Sys) : Prop := ∃ cs, (start limit f).run e b cs = some s

end Verif.Search.Main
