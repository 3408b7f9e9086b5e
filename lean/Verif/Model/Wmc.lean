import Verif.Model.Sdd
import Verif.Model.Clause
import Verif.Model.Dnf
import Verif.Model.Dual

/-!
# Weighted model counting of tags

Models `/repo/lib/sdd/src/formula.rs`, `/repo/core/src/runtime/provenance/common/{as_boolean_formula,real,dual_number,dnf_formula,
cnf_dnf_formula,literal}.rs`.
-/

namespace Scallop

/-- Models `RealSemiring` (`real.rs` 10-32) with exact arithmetic. -/
def Sdd.Diagram.realAlgebra (K : Type*) [CommRing K] : Sdd.Diagram.Algebra K where
  zero := 0
  one := 1
  add := fun a b => a + b
  mult := fun a b => a * b
  negate := fun a => 1 - a

/-- Models `DualNumberSemiring` (`dual_number.rs` 35-72) with exact arithmetic. -/
def Sdd.Diagram.dualAlgebra (K : Type*) [Field K] [LinearOrder K] : Sdd.Diagram.Algebra (DualNumber K) where
  zero := DualNumber.constant 0
  one := DualNumber.constant 1
  add := DualNumber.add
  mult := DualNumber.mult
  negate := DualNumber.negate

/-- Models `BooleanSemiring` (`semiring.rs` 15-39). -/
def Sdd.Diagram.boolAlgebra : Sdd.Diagram.Algebra Bool where
  zero := false
  one := true
  add := fun a b => a || b
  mult := fun a b => a && b
  negate := fun a => !a

/-- Models `bf_conjunction` (`formula.rs` 52-64). -/
def bfConjunction : List BoolForm → BoolForm
  | [] => .tru
  | f :: fs => fs.foldl .and f

/-- Models `bf_disjunction` (`formula.rs` 67-79). -/
def bfDisjunction : List BoolForm → BoolForm
  | [] => .fls
  | f :: fs => fs.foldl .or f

/-- Models `collect_vars_helper` (`formula.rs` 164-184), on the ascending list of the set. -/
def BoolForm.collectVarsHelper : BoolForm → List Nat → List Nat
  | .fls, s => s
  | .tru, s => s
  | .pos v, s => bsetInsert v s
  | .neg v, s => bsetInsert v s
  | .not f, s => f.collectVarsHelper s
  | .and l r, s => r.collectVarsHelper (l.collectVarsHelper s)
  | .or l r, s => r.collectVarsHelper (l.collectVarsHelper s)

/-- Models `collect_vars` (`formula.rs` 127-131). -/
def BoolForm.collectVars (f : BoolForm) : List Nat := f.collectVarsHelper []

/-- Models `as_boolean_formula` of a literal (`literal.rs` 32-39). -/
def Literal.asBooleanFormula : Literal → BoolForm
  | .pos i => .pos i
  | .neg i => .neg i

/-- Models `as_boolean_formula` of a DNF (`dnf_formula.rs` 106-115, `cnf_dnf_formula.rs` 151-156). -/
def Dnf.asBooleanFormula (t : Dnf) : BoolForm :=
  bfDisjunction (t.map (fun c => bfConjunction (c.map Literal.asBooleanFormula)))

/-- Models `as_boolean_formula` of a CNF (`cnf_dnf_formula.rs` 145-150). -/
def cnfAsBooleanFormula (t : List Clause) : BoolForm :=
  bfConjunction (t.map (fun c => bfDisjunction (c.map Literal.asBooleanFormula)))

/-- Building the diagram of a formula and counting (`as_boolean_formula.rs` 16-19, 43-46; `SDDBuilderConfig::with_formula`, `bottom_up.rs`
20-27, with `VTreeType::default`, balanced, `vtree.rs` 80-84). -/
def BoolForm.wmc {E : Type*} (f : BoolForm) (s : Sdd.Diagram.Algebra E) (v : Nat → E) : Option E :=
  match Sdd.configure f.collectVars .balanced with
  | none => none
  | some b =>
    match b.build f true with
    | none => none
    | some d => d.evalT s v

/-- Models `wmc` (`as_boolean_formula.rs` 10-20) of a DNF. -/
def Dnf.wmc {E : Type*} (t : Dnf) (s : Sdd.Diagram.Algebra E) (v : Nat → E) : Option E := t.asBooleanFormula.wmc s v

/-- The formula that `wmc_with_disjunctions` adds for one mutual exclusion (`as_boolean_formula.rs` 31-41). -/
def exclusionFormula (facts : List Nat) : BoolForm :=
  bfConjunction (facts.map (fun n => bfDisjunction (facts.map (fun i => if i = n then .neg i else .pos i))))

/-- Models `wmc_with_disjunctions` (`as_boolean_formula.rs` 23-47) of a DNF. -/
def Dnf.wmcWithDisjunctions {E : Type*} (t : Dnf) (s : Sdd.Diagram.Algebra E) (v : Nat → E) (groups : List (List Nat)) : Option E :=
  (bfDisjunction (t.asBooleanFormula :: groups.map exclusionFormula)).wmc s v

end Scallop
