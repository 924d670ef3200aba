import Verif.AST.ReplaceLemmas
/-!
# The expansion rules of the tableau search (model)

A `FormAndTerms` pair is modelled by its formula: the attached list of terms is only used when
formulas are printed or compared, and all formulas produced by one rule carry the same list, so that
`AppendIfNotContains` inside one rule application compares formulas only.
-/

namespace Verif.Search
open Verif.AST

/-- Kinds of rules (src/Core/rules_type.go:54-62). -/
inductive Kind where
  | atomic | alpha | beta | delta | gamma
deriving DecidableEq, Repr

/-- `ShowKindOfRule` (src/Core/rules_type.go:71-99). -/
def showKind : Form → Kind
  | .pred _ _ _ => .atomic
  | .top => .atomic
  | .bot => .atomic
  | .neg f =>
    match f with
    | .pred _ _ _ => .atomic
    | .top => .atomic
    | .bot => .atomic
    | .neg _ => .alpha
    | .imp _ _ => .alpha
    | .or _ => .alpha
    | .and _ => .beta
    | .equ _ _ => .beta
    | .ex _ _ => .gamma
    | .all _ _ => .delta
  | .and _ => .alpha
  | .or _ => .beta
  | .imp _ _ => .beta
  | .equ _ _ => .beta
  | .ex _ _ => .delta
  | .all _ _ => .gamma

/-- `AppendIfNotContains` (src/Core/form_and_terms_list.go:152-158). -/
def appendNew (l : List Form) (f : Form) : List Form := if f ∈ l then l else l ++ [f]

/-- `ApplyAlphaRules` (src/Search/rules.go:239-332). The result list is empty for other formulas, as in
the code where the `switch` statements have no default case. -/
def applyAlpha : Form → List Form
  | .neg (.neg f) => appendNew [] f
  | .neg (.or fs) => fs.foldl (fun r f => appendNew r (.neg f)) []
  | .neg (.imp f g) => appendNew (appendNew [] f) (.neg g)
  | .and fs => fs.foldl appendNew []
  | _ => []

/-- `ApplyBetaRules` (src/Search/rules.go:342-464). -/
def applyBeta : Form → List (List Form)
  | .neg (.and fs) => fs.map fun f => [.neg f]
  | .neg (.equ f g) => [[.neg f, g], [f, .neg g]]
  | .or fs => fs.map fun f => [f]
  | .imp f g => [[.neg f], [g]]
  | .equ f g => [[.neg f, .neg g], [f, g]]
  | _ => []

/-- `IsTType` (src/AST/tptp-native-types.go:91). -/
def isTType (t : Ty) : Bool := t = .constr "$tType" []

/-- Substitution of the first variable of a quantifier by a metavariable in `RealInstantiate`
(src/Core/instanciation.go:85-99). `m` is the index of the new metavariable when the variable is a term
variable; `k` the formula index given to the new type metavariable otherwise. The upper-casing of
the name has no influence on anything but printing for term metavariables; for type metavariables the name is
kept as is (simplification). -/
def instFirst (m k : Nat) (v : TVar) (f : Form) : Form :=
  if isTType v.ty then f.substBound v.name (.mv v.name k) else f.substituteVarByMeta v.index m

/-- `Instantiate`, `RealInstantiate` (src/Core/instanciation.go:51-113). `none`: a formula that is
not a gamma formula (the code panics: `meta` is a nil option) or an empty variable list (index out
of range). -/
def instantiate (m k : Nat) : Form → Option Form
  | .neg (.ex (v :: vs) f) =>
    some (.neg (if vs.length > 0 then .ex vs (instFirst m k v f) else instFirst m k v f))
  | .all (v :: vs) f =>
    some (if vs.length > 0 then .all vs (instFirst m k v f) else instFirst m k v f)
  | _ => none

/-- The replacement done by the three Skolemisation strategies once the symbol and the arguments are
chosen (src/Core/Sko/outer-skolemization.go:66-75, inner-skolemization.go:66-75,
preinner-skolemization.go:84-93). -/
def skoFirst (sk : Nat) (args : List Nat) (v : TVar) (f : Form) : Form :=
  (f.replaceTermByTerm (.var v.index) (.fn sk [] (args.map .mv))).1

/-- `Skolemize`, `realSkolemize` for a term variable (src/Core/skolemisation.go:89-157). `none`: not
a delta formula (`Anomaly`). -/
def skolemize (sk : Nat) (args : List Nat) : Form → Option Form
  | .neg (.all (v :: vs) f) =>
    some (.neg (if vs.length > 0 then .all vs (skoFirst sk args v f) else skoFirst sk args v f))
  | .ex (v :: vs) f =>
    some (if vs.length > 0 then .ex vs (skoFirst sk args v f) else skoFirst sk args v f)
  | _ => none

/-- The lists of formulas of a state (src/Search/state.go). -/
structure Lists where
  atomic : List Form
  alpha : List Form
  beta : List Form
  delta : List Form
  gamma : List Form

/-- `DispatchForm` (src/Search/state.go:470-489). -/
def Lists.dispatch (st : Lists) (f : Form) : Lists :=
  match showKind f with
  | .atomic => { st with atomic := appendNew st.atomic f }
  | .alpha => { st with alpha := appendNew st.alpha f }
  | .beta => { st with beta := appendNew st.beta f }
  | .delta => { st with delta := appendNew st.delta f }
  | .gamma => { st with gamma := appendNew st.gamma f }

/-- All formulas of a state. -/
def Lists.forms (st : Lists) : List Form :=
  st.atomic ++ st.alpha ++ st.beta ++ st.delta ++ st.gamma

end Verif.Search
