import Verif.AST.Syntax
/-!
# Replacement functions (`src/AST`, `src/Core/substitutions_search.go`)

Simplification: Go updates the argument slice of a conjunction/disjunction in place in
`ReplaceMetaByTerm` (`LsSubstByTerm`, src/AST/form-list.go:44); here the result is a new formula.
-/

namespace Verif.AST

/-- `GetIndex` of a term (src/AST/termsDef.go:54,136,268,322). -/
def Term.index : Term → Nat
  | .var i => i
  | .mv i => i
  | .fn p _ _ => p

mutual
/-- One round of the loop of `replaceTermInTermList` (src/AST/formula.go:75-111): result and
"has been replaced" flag. The test in the `Meta` case is `oldTerm.Equals(newTerm)` in the code. -/
def replT (old new : Term) : Term → Term × Bool
  | .var i => if old.index = i then (new, true) else (.var i, false)
  | .mv i => if old = new then (new, true) else (.mv i, false)
  | .fn p tys args =>
    if old.index = p then (new, true)
    else
      let r := replTL old new args
      (.fn p tys r.1, r.2)
/-- `replaceTermInTermList` (src/AST/formula.go:65-112). -/
def replTL (old new : Term) : List Term → List Term × Bool
  | [] => ([], false)
  | a :: l =>
    let r := replT old new a
    let s := replTL old new l
    (r.1 :: s.1, r.2 || s.2)
end

mutual
/-- `ReplaceTermByTerm` (src/AST/formsDef.go:120,175,261,385,483,597,713,911,1016,1044 and
quantifiers.go:129). -/
def Form.replaceTermByTerm (old new : Term) : Form → Form × Bool
  | .pred p tys args => let r := replTL old new args; (.pred p tys r.1, r.2)
  | .top => (.top, false)
  | .bot => (.bot, false)
  | .neg f => let r := Form.replaceTermByTerm old new f; (.neg r.1, r.2)
  | .and fs => let r := Form.replaceTermByTermL old new fs; (.and r.1, r.2)
  | .or fs => let r := Form.replaceTermByTermL old new fs; (.or r.1, r.2)
  | .imp f g =>
    let r := Form.replaceTermByTerm old new f
    let s := Form.replaceTermByTerm old new g
    (.imp r.1 s.1, r.2 || s.2)
  | .equ f g =>
    let r := Form.replaceTermByTerm old new f
    let s := Form.replaceTermByTerm old new g
    (.equ r.1 s.1, r.2 || s.2)
  | .all vs f => let r := Form.replaceTermByTerm old new f; (.all vs r.1, r.2)
  | .ex vs f => let r := Form.replaceTermByTerm old new f; (.ex vs r.1, r.2)
/-- `replaceTermInFormList` (src/AST/formula.go:127-138). -/
def Form.replaceTermByTermL (old new : Term) : List Form → List Form × Bool
  | [] => ([], false)
  | f :: fs =>
    let r := Form.replaceTermByTerm old new f
    let s := Form.replaceTermByTermL old new fs
    (r.1 :: s.1, r.2 || s.2)
end

mutual
/-- `SubstituteVarByMeta` (src/AST/formsDef.go:129,184,279,403,515,630,746,958 and
quantifiers.go:189); on predicates it is `ReplaceTermByTerm`. -/
def Form.substituteVarByMeta (x m : Nat) : Form → Form
  | .pred p tys args => (Form.replaceTermByTerm (.var x) (.mv m) (.pred p tys args)).1
  | .top => .top
  | .bot => .bot
  | .neg f => .neg (Form.substituteVarByMeta x m f)
  | .and fs => .and (Form.substituteVarByMetaL x m fs)
  | .or fs => .or (Form.substituteVarByMetaL x m fs)
  | .imp f g => .imp (Form.substituteVarByMeta x m f) (Form.substituteVarByMeta x m g)
  | .equ f g => .equ (Form.substituteVarByMeta x m f) (Form.substituteVarByMeta x m g)
  | .all vs f => .all vs (Form.substituteVarByMeta x m f)
  | .ex vs f => .ex vs (Form.substituteVarByMeta x m f)
/-- `substVarByMetaInFormList` (src/AST/formsDef.go:56-80). -/
def Form.substituteVarByMetaL (x m : Nat) : List Form → List Form
  | [] => []
  | f :: fs => Form.substituteVarByMeta x m f :: Form.substituteVarByMetaL x m fs
end

mutual
/-- `ReplaceSubTermBy` (src/AST/termsDef.go:195,288,342). -/
def Term.replaceSubTermBy (old new : Term) : Term → Term
  | .var i => if Term.var i = old then new else .var i
  | .mv i => if Term.mv i = old then new else .mv i
  | .fn p tys args =>
    if Term.fn p tys args = old then new
    else .fn p tys (Term.replaceFirst old new args)
/-- `replaceFirstOccurrenceTermList` (src/AST/term-list.go:60-82): once an element has been
modified the following ones are kept (`updated`). -/
def Term.replaceFirst (old new : Term) : List Term → List Term
  | [] => []
  | a :: l =>
    let a' := Term.replaceSubTermBy old new a
    if a = a' then a :: Term.replaceFirst old new l
    else a' :: l
end

mutual
/-- `ReplaceMetaByTerm` (src/AST/formsDef.go:133,188,292,416,528,643,736,988 and
quantifiers.go:200). -/
def Form.replaceMetaByTerm (m : Nat) (t : Term) : Form → Form
  | .pred p tys args => .pred p tys (args.map (Term.replaceSubTermBy (.mv m) t))
  | .top => .top
  | .bot => .bot
  | .neg f => .neg (Form.replaceMetaByTerm m t f)
  | .and fs => .and (Form.replaceMetaByTermL m t fs)
  | .or fs => .or (Form.replaceMetaByTermL m t fs)
  | .imp f g => .imp (Form.replaceMetaByTerm m t f) (Form.replaceMetaByTerm m t g)
  | .equ f g => .equ (Form.replaceMetaByTerm m t f) (Form.replaceMetaByTerm m t g)
  | .all vs f => .all vs (Form.replaceMetaByTerm m t f)
  | .ex vs f => .ex vs (Form.replaceMetaByTerm m t f)
/-- `LsSubstByTerm` (src/AST/form-list.go:44-49). -/
def Form.replaceMetaByTermL (m : Nat) (t : Term) : List Form → List Form
  | [] => []
  | f :: fs => Form.replaceMetaByTerm m t f :: Form.replaceMetaByTermL m t fs
end

mutual
/-- `ApplySubstitutionOnTerm` (src/Core/substitutions_search.go:230-246). -/
def Term.applySubst (m : Nat) (u : Term) : Term → Term
  | .var i => .var i
  | .mv i => if i = m then u else .mv i
  | .fn p tys args => .fn p tys (Term.applySubstL m u args)
/-- `ApplySubstitutionOnTermList` (src/Core/substitutions_search.go:283-295). -/
def Term.applySubstL (m : Nat) (u : Term) : List Term → List Term
  | [] => []
  | a :: l => Term.applySubst m u a :: Term.applySubstL m u l
end

/-- `getDeepFormWithoutNot` (src/AST/formsDef.go:778-784). -/
def Form.deepWithoutNot : Form → Bool → Form × Bool
  | .neg f, e => Form.deepWithoutNot f (!e)
  | f, e => (f, e)

/-- `RemoveNeg` (src/AST/formsDef.go:762). -/
def Form.removeNeg (f : Form) : Form := (f.deepWithoutNot true).1

/-- `SimplifyNegations` (src/AST/formsDef.go:768-776). -/
def Form.simplifyNegations (f : Form) : Form :=
  let r := f.deepWithoutNot true
  if r.2 then r.1 else .neg r.1

/-! ### Type substitution -/

mutual
/-- `SubstTy` on types with a bound type variable (src/AST/ty-syntax.go:101,183,218,247,281). -/
def Ty.substBound (n : String) (new : Ty) : Ty → Ty
  | .var s => .var s
  | .bound m => if m = n then new else .bound m
  | .mv a i => .mv a i
  | .constr s args => .constr s (Ty.substBoundL n new args)
  | .prod args => .prod (Ty.substBoundL n new args)
  | .func a b => .func (Ty.substBound n new a) (Ty.substBound n new b)
  | .pi vs t => .pi vs (Ty.substBound n new t)
def Ty.substBoundL (n : String) (new : Ty) : List Ty → List Ty
  | [] => []
  | a :: l => Ty.substBound n new a :: Ty.substBoundL n new l
end

mutual
/-- `SubstTy` on terms (src/AST/termsDef.go:208). -/
def Term.substBound (n : String) (new : Ty) : Term → Term
  | .var i => .var i
  | .mv i => .mv i
  | .fn p tys args => .fn p (Ty.substBoundL n new tys) (Term.substBoundL n new args)
def Term.substBoundL (n : String) (new : Ty) : List Term → List Term
  | [] => []
  | a :: l => Term.substBound n new a :: Term.substBoundL n new l
end

mutual
/-- `SubstTy` on formulas (src/AST/formsDef.go:125,180,270,394,495,610,724,929;
quantifiers.go:140). -/
def Form.substBound (n : String) (new : Ty) : Form → Form
  | .pred p tys args => .pred p (Ty.substBoundL n new tys) (Term.substBoundL n new args)
  | .top => .top
  | .bot => .bot
  | .neg f => .neg (Form.substBound n new f)
  | .and fs => .and (Form.substBoundL n new fs)
  | .or fs => .or (Form.substBoundL n new fs)
  | .imp f g => .imp (Form.substBound n new f) (Form.substBound n new g)
  | .equ f g => .equ (Form.substBound n new f) (Form.substBound n new g)
  | .all vs f => .all (vs.map fun v => { v with ty := Ty.substBound n new v.ty }) (Form.substBound n new f)
  | .ex vs f => .ex (vs.map fun v => { v with ty := Ty.substBound n new v.ty }) (Form.substBound n new f)
def Form.substBoundL (n : String) (new : Ty) : List Form → List Form
  | [] => []
  | f :: fs => Form.substBound n new f :: Form.substBoundL n new fs
end

end Verif.AST
