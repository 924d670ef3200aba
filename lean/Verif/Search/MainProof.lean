import Verif.Search.Main
import Verif.Mods.Gs3
/-!
# C93: the proof the main search writes down (`src/Search/destructive.go`, `child_management.go`, `state.go`, `proof.go`)

What the processes of `Verif.Search.Main` note of their proof when proofs are asked for (`Glob.GetProof`). No decision of the search
depends on it, so that it is a tree of notes that runs along with the tree of processes: each step of the search has one effect on the
notes.

Simplifications. The names of the rules are those of the GS3 module (`proofStructRuleToGS3Rule`, src/Mods/gs3/sequent.go:259-280); the step
"Sat" of a branch that stays open (src/Search/destructive.go:1267-1268) is left out, the proof of an open branch is never read
(src/Search/child_management.go:275-324). The terms that come with a formula and the numbers of the results are left out. Rewriting is off.
-/

namespace Verif.Search.Main
open Verif.AST Verif.Search Verif.Unif
open Verif.Gs3 (PS Rule)

/-! ### Which step a round notes -/

/-- The name `setStateRules` gives to the rule for a formula (src/Search/rules.go:216-229, 239-512). -/
def ruleOf : Form → Rule
  | .neg (.neg _) => .nnot
  | .neg (.or _) => .nor
  | .neg (.imp _ _) => .nimp
  | .and _ => .and
  | .neg (.and _) => .nand
  | .neg (.equ _ _) => .nequ
  | .or _ => .or
  | .imp _ _ => .imp
  | .equ _ _ => .equ
  | .neg (.all _ _) => .nall
  | .ex _ _ => .ex
  | .neg (.ex _ _) => .nex
  | .all _ _ => .all
  | _ => .ax

/-- `SetCurrentProofFormula`, `SetCurrentProofRule`, `SetCurrentProofResultFormulas` (src/Search/state.go:206-234). -/
structure Note where
  form : Form
  rule : Rule
  results : List (List Form)

/-- The step of closure (src/Search/destructive.go:1092-1098, 1120-1129, 1148-1154). -/
def Note.ax (f : Form) : Note := ⟨f, .ax, []⟩

/-- The formula with which `closeFirst` closes the branch. -/
def closing (e : Env) (time : Nat) (pos neg : List Atom) : List FT → Option Form
  | [] => none
  | f :: l => match closure e time pos neg f.form with
    | none => none
    | some (some _) => some f.form
    | some none => closing e time pos neg l

/-- The first new literal that closes the branch obviously (src/Search/destructive.go:331-340). -/
def obviousOf : List FT → Option Form
  | [] => none
  | f :: l => if showKind f.form = .atomic ∧ obvious f.form = true then some f.form else obviousOf l

/-- The step noted by `applyRules` (src/Search/destructive.go:1284-1288, 1303-1307, 1317-1324, 1366-1370, 1399-1405). -/
def noteRules (e : Env) (w : Now) (d : Data) : Option Note :=
  match d.alpha, d.delta, d.beta, d.gamma with
  | h :: _, _, _, _ => some ⟨h.form, ruleOf h.form, [applyAlpha h.form]⟩
  | [], h :: _, _, _ => (skolemize w.sk (e.sko (uni d.mm d.mc) h.form) h.form).map fun f => ⟨h.form, ruleOf h.form, [[f]]⟩
  | [], [], h :: _, _ => some ⟨h.form, ruleOf h.form, applyBeta h.form⟩
  | [], [], [], h :: _ => (instantiate w.m (genIndex h d.metaGen).1 h.form).map fun f => ⟨h.form, ruleOf h.form, [[f]]⟩
  | [], [], [], [] => match Reintro.reintroduce (d.metaGen.map (·.2)) none 0 with
    | some (i, _) => (d.metaGen[i]?).map fun g => ⟨g.1.form, .r, [[g.1.form]]⟩
    | none => none

/-- The step noted from the loop over the new formulas on. -/
def noteExpand (e : Env) (w : Now) (d : Data) : Option Note :=
  let (d1, new, obv) := dispatchLF d.lf d []
  if obv then (obviousOf d.lf).map Note.ax else
    let plus := filterPos new
    let minus := filterNeg new
    let pos := posAtoms (mergeFT d1.atomic plus)
    let neg := negAtoms (mergeFT d1.atomic minus)
    let d2 := new.foldl Data.dispatch d1
    match closing e w.time pos neg (plus ++ minus) with
    | some f => some (.ax f)
    | none => noteRules e w d2

/-- The step noted by a round of `ProofSearch`. -/
def noteRound (e : Env) (w : Now) (s : Subst) (d : Data) : Option Note :=
  if s = [] then noteExpand e w d else
    match d.apply e.fuel s with
    | none => none
    | some d1 => match closing e w.time (posAtoms d1.atomic) (negAtoms d1.atomic) d1.atomic with
      | some f => some (.ax f)
      | none => noteExpand e w d1

/-! ### The notes of a process -/

/-- The notes of a process: `proof` and `current_proof` of its state (src/Search/state.go:71-72), its `node_id` and `original_node_id`, and, while
it waits for its children, `overwrite` and `childOrdering` (src/Search/child_management.go:46-60) and `proof_tab` of `selectChildren`
(src/Search/destructive.go:681). -/
structure Info where
  proof : List PS := []
  cur : PS := .mk .bot (-1) .ax [] []
  node : Nat
  orig : Nat
  over : Bool := false
  order : List Nat := []
  tab : List (List PS) := []

/-- The notes of a process and of its children. -/
inductive Ann where
  | mk (i : Info) (kids : List Ann)

def Ann.i : Ann → Info
  | .mk i _ => i
def Ann.kids : Ann → List Ann
  | .mk _ k => k

/-- The notes of a new process: `State.Copy` (src/Search/state.go:436-437) leaves proof and current proof empty. -/
def Ann.new (node orig : Nat) : Ann := .mk { node := node, orig := orig } []

/-- The current step is filled in; its node is set at the beginning of the round (src/Search/destructive.go:286). -/
def Info.set (n : Note) (i : Info) : Info := { i with cur := .mk n.form i.node n.rule n.results i.cur.children }

/-- `st.SetProof(append(st.GetProof(), st.GetCurrentProof()))`. -/
def Info.add (i : Info) : Info := { i with proof := i.proof ++ [i.cur] }

/-- `SetCurrentProofChildren` (src/Search/state.go:235-239). -/
def withChildren : PS → List (List PS) → PS
  | .mk f n r res _, c => .mk f n r res c

/-- `updateProof` (src/Search/child_management.go:358-378), without rewriting. The list is not empty when it is shortened: only a process
that has answered is given a substitution. -/
def updateProof (i : Info) : Info :=
  if i.over then { i with proof := i.proof.dropLast ++ i.tab.headD [] }
  else { i with cur := withChildren i.cur i.tab, proof := i.proof ++ [withChildren i.cur i.tab] }

/-- `proof_tab` at the beginning of `selectChildren` (src/Search/destructive.go:681): no proof yet. -/
def Info.clear (i : Info) : Info := { i with tab := i.order.map fun _ => [] }

/-! ### The effect of a step -/

/-- The notes after a step of the process itself, and the next number of a node (`Glob.IncrCptNode`). -/
def Ann.own (e : Env) (w : Now) (cnt : Nat) : Proc → Ann → Ann × Nat
  | .mk d _ (.search s) _, .mk i as => match round e w s d, noteRound e w s d with
    | some (.again _), some n => (.mk { (i.set n).add with node := cnt } as, cnt + 1)
    | some (.answer true _ _), some n => (.mk (i.set n).add as, cnt)
    | some (.split _ ds), some n =>
      let ids := (List.range ds.length).map (cnt + ·)
      (.mk (Info.clear { i.set n with over := false, order := ids }) (ids.map fun k => .new k k), cnt + ds.length)
    | _, _ => (.mk i as, cnt)
  | .mk _ _ (.collect cur _ acc) _, .mk i as => match Select.finish (mrg e.fuel) cur none acc with
    | some (.closeByItself, _) => (.mk (updateProof i) as, cnt)
    | some (.substForParent, _) => (.mk (updateProof i) as, cnt)
    | some (.substForChildren, _) => (.mk { i with over := false } as, cnt)
    | _ => (.mk i as, cnt)
  | .mk _ _ (.give _ _ _) _, .mk i as => (.mk i.clear as, cnt)
  | .mk _ _ (.close _ (.retry _ _)) _, .mk i as => (.mk { i with over := false } as, cnt)
  | _, a => (a, cnt)

/-- The notes after the answer of the child `j` was taken (src/Search/destructive.go:734-751, children.go:134-148). In `selectChildren` its proof is
put at the place of its number. -/
def Ann.recv (j : Nat) : Proc → Ann → Ann
  | .mk _ _ (.collect _ _ _) ks, .mk i as => match ks[j]?, as[j]? with
    | some (_, k), some a => match k.pc with
      | .send _ need => .mk { i with tab := i.tab.set (i.order.idxOf a.i.orig) a.i.proof } (if need then as else as.eraseIdx j)
      | _ => .mk i as
    | _, _ => .mk i as
  | .mk _ _ (.close _ _) ks, .mk i as => match ks[j]? with
    | some (_, k) => match k.pc with
      | .send _ false => .mk i (as.eraseIdx j)
      | _ => .mk i as
    | _ => .mk i as
  | _, a => a

/-- The notes after the order for the child `j`: a child that is told to quit is gone. -/
def Ann.order (j : Nat) : Proc → Ann → Ann
  | .mk _ _ (.close kill _) _, .mk i as => .mk i (if kill then as.eraseIdx j else as)
  | .mk _ _ (.reply kill _) _, .mk i as => .mk i (if kill then as.eraseIdx j else as)
  | _, a => a

/-- The notes of a process to which its father has sent a substitution: a copy starts anew (src/Search/destructive.go:615-638). -/
def Ann.take (s : Subst) : Proc → Ann → Ann
  | .mk _ g .waitF _, .mk i as => if s ∈ g then .mk i as
    else .mk (Info.clear { i with over := true, order := [i.orig] }) [.new i.node i.orig]
  | _, a => a

def Ann.give (j : Nat) : Proc → Ann → Ann
  | .mk _ _ (.give s _ _) ks, .mk i as => match ks[j]?, as[j]? with
    | some (_, k), some a => .mk i (as.set j (a.take s k))
    | _, _ => .mk i as
  | _, a => a

def Ann.act (e : Env) (w : Now) (cnt : Nat) : Act → Proc → Ann → Ann × Nat
  | .own _, p, a => a.own e w cnt p
  | .recv j, p, a => (a.recv j p, cnt)
  | .order j, p, a => (a.order j p, cnt)
  | .give j, p, a => (a.give j p, cnt)

/-- The notes after a step of the process at the given place of the tree. -/
def Ann.step (e : Env) (w : Now) (cnt : Nat) (x : Act) : List Nat → Proc → Ann → Ann × Nat
  | [], p, a => a.act e w cnt x p
  | j :: path, .mk _ _ _ ks, .mk i as => match ks[j]?, as[j]? with
    | some (_, k), some a => (.mk i (as.set j (a.step e w cnt x path k).1), (a.step e w cnt x path k).2)
    | _, _ => (.mk i as, cnt)

/-- The notes of all processes and the next number of a node. -/
structure Notes where
  root : Ann
  cnt : Nat

/-- The notes after a step of the program. -/
def Notes.step (e : Env) (b : Start) (s : Sys) (n : Notes) : Choice → Notes
  | .proc path a => ⟨(n.root.step e (b.now s.time) n.cnt a path s.root).1, (n.root.step e (b.now s.time) n.cnt a path s.root).2⟩
  | .result => n

/-- The notes after a run. -/
def Notes.run (e : Env) (b : Start) : Sys → Notes → List Choice → Notes
  | _, n, [] => n
  | s, n, c :: cs => match s.step e b c with
    | some s' => Notes.run e b s' (n.step e b s c) cs
    | none => n

/-- The notes at the beginning (src/Search/destructive.go:107, 124-125). -/
def Notes.start (cnt : Nat) : Notes := ⟨.new cnt cnt, cnt + 1⟩

/-- The proof `manageResult` hands on after a run (src/Search/destructive.go:137, 1412-1427). -/
def finalProof (e : Env) (b : Start) (limit cnt : Nat) (f : Form) (cs : List Choice) : List PS :=
  (Notes.run e b (start limit f) (.start cnt) cs).root.i.proof

end Verif.Search.Main
