import Verif.Mods.Gs3
/-!
# What a GS3 proof is (specification)

The tree of sequents is read the way the output modules read it (src/Mods/rocq/proof.go:79-93): they
keep their own list of hypotheses, start from the formula to refute, skip empty sequents, and extend
the hypotheses with the formulas generated for each child. A tree is valid for the hypotheses `Γ` when
each step is an instance of a rule of the sequent calculus GS3 that applies to a formula of `Γ`. The
condition on a Skolem term is the one that the outputs need: its symbol, introduced as a new constant,
does not occur in the hypotheses.
-/

namespace Verif.Gs3
open Verif.AST

/-- A tree of sequents: empty sequent or formula and rule with the witness term and the generated
formulas. -/
inductive Tree where
  | hole (children : List Tree)
  | node (rule : Rule) (target : Form) (term : Option Term) (forms : List (List Form)) (children : List Tree)

mutual
/-- The tree below an address. -/
def unfold (h : Heap) : Nat → Nat → Option Tree
  | 0, _ => none
  | n + 1, a =>
    match h[a]? with
    | none => none
    | some s =>
      match unfoldL h n s.children with
      | none => none
      | some cs =>
        if s.isEmpty then some (.hole cs)
        else
          match s.hyps[s.appliedOn]? with
          | none => none
          | some f => some (.node s.rule f s.term s.forms cs)
def unfoldL (h : Heap) : Nat → List Nat → Option (List Tree)
  | _, [] => some []
  | 0, _ :: _ => none
  | n + 1, a :: l =>
    match unfold h n a with
    | none => none
    | some t =>
      match unfoldL h n l with
      | none => none
      | some ts => some (t :: ts)
end

/-- The components of a conjunctive formula, under the rule that treats it. -/
def alphaParts : Rule → Form → Option (List Form)
  | .nnot, .neg (.neg f) => some [f]
  | .nor, .neg (.or fs) => some (fs.map .neg)
  | .nimp, .neg (.imp f g) => some [f, .neg g]
  | .and, .and fs => some fs
  | _, _ => none

/-- The alternatives of a disjunctive formula, under the rule that treats it. -/
def betaParts : Rule → Form → Option (List (List Form))
  | .nand, .neg (.and fs) => some (fs.map fun f => [.neg f])
  | .nequ, .neg (.equ f g) => some [[.neg f, g], [f, .neg g]]
  | .or, .or fs => some (fs.map fun f => [f])
  | .imp, .imp f g => some [[.neg f], [g]]
  | .equ, .equ f g => some [[.neg f, .neg g], [f, g]]
  | _, _ => none

/-- The body of a quantified formula without its first variable, under the rule that treats it. -/
def quantParts : Rule → Form → Option (Nat × Form)
  | .all, .all (v :: vs) f => some (v.index, if vs.isEmpty then f else .all vs f)
  | .nex, .neg (.ex (v :: vs) f) => some (v.index, .neg (if vs.isEmpty then f else .ex vs f))
  | .ex, .ex (v :: vs) f => some (v.index, if vs.isEmpty then f else .ex vs f)
  | .nall, .neg (.all (v :: vs) f) => some (v.index, .neg (if vs.isEmpty then f else .all vs f))
  | _, _ => none

/-- `g` is the instance of the body `b` for the variable `x` with the term `t`; without a term the
variable must not occur. The variable is neither bound again in the body nor a function symbol. -/
def isInstance (x : Nat) (b : Form) (t : Option Term) (g : Form) : Bool :=
  decide (x ∉ b.funs) && decide (x ∉ b.binders) &&
  match t with
  | some t => (Term.vars t).isEmpty && decide (g = (b.replaceTermByTerm (.var x) t).1)
  | none => decide (x ∉ allVars b) && decide (g = b)

/-- The hypotheses contain two complementary formulas, one of which is the target, or the target is
false. -/
def closes (Γ : List Form) (f : Form) : Bool :=
  decide (f ∈ Γ) && (decide (f = .bot) || decide (f = .neg .top) || decide (Form.neg f ∈ Γ) ||
    match f with
    | .neg g => decide (g ∈ Γ)
    | _ => false)

mutual
/-- The tree is a GS3 refutation of the hypotheses `Γ`. -/
def valid (Γ : List Form) : Tree → Bool
  | .hole cs => cs.length == 1 && validL (cs.map fun _ => Γ) cs
  | .node rule f t forms cs =>
    decide (f ∈ Γ) &&
    match rule with
    | .ax => closes Γ f && cs.isEmpty
    | .w =>
      match t with
      | none => cs.length == 1 && validL [Γ.erase f] cs
      | some t => (Term.funs t).head?.all (fun p => decide (p ∉ Form.funsL Γ)) && cs.length == 1 && validL [Γ] cs
    | .r => false
    | rule =>
      if rule.isAlpha then
        match alphaParts rule f, forms with
        | some ps, [gs] => gs.all (fun g => decide (g ∈ ps)) && cs.length == 1 && validL [Γ ++ gs] cs
        | _, _ => false
      else if rule.isBeta then
        match betaParts rule f with
        | some ps => decide (forms = ps) && cs.length == ps.length && validL (ps.map (Γ ++ ·)) cs
        | none => false
      else
        match quantParts rule f, forms with
        | some (x, b), [[g]] =>
          isInstance x b t g &&
          (!rule.isDelta ||
            match t with
            | some (.fn p _ _) => decide (p ∉ Form.funsL Γ)
            | some _ => false
            | none => true) &&
          cs.length == 1 && validL [Γ ++ [g]] cs
        | _, _ => false
/-- Each tree is a refutation of its list of hypotheses. -/
def validL : List (List Form) → List Tree → Bool
  | Γ :: Γs, c :: cs => valid Γ c && validL Γs cs
  | _, [] => true
  | [], _ :: _ => false
end

/-- The output of the translation is a refutation of the formula. -/
def outputValid (F : Form) (r : R (Nat × Heap)) : Bool :=
  match r with
  | .ok (a, h) =>
    match unfold h (2 * h.length + 2) a with
    | some t => valid [F] t
    | none => false
  | _ => false

end Verif.Gs3
