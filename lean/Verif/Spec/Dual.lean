import Verif.Model.Dual
import Mathlib.Algebra.MvPolynomial.PDeriv

/-!
# Specification of automatic differentiation

A tag expression denotes a polynomial in the probabilities of the input facts; the derivative is the formal partial derivative of Mathlib.
-/

namespace Scallop

variable {K : Type*} [Field K]

/-- Expressions over input facts: `var i` is the probability of fact `i`; `compl` is the complement `1 - x`. -/
inductive ArithExpr (K : Type*) where
  | var (i : Nat)
  | const (c : K)
  | add (a b : ArithExpr K)
  | mul (a b : ArithExpr K)
  | compl (a : ArithExpr K)

namespace ArithExpr

/-- The polynomial of an expression. -/
noncomputable def toPoly : ArithExpr K → MvPolynomial ℕ K
  | var i => MvPolynomial.X i
  | const c => MvPolynomial.C c
  | add a b => a.toPoly + b.toPoly
  | mul a b => a.toPoly * b.toPoly
  | compl a => 1 - a.toPoly

/-- The value of an expression at given probabilities. -/
def value (v : Nat → K) : ArithExpr K → K
  | var i => v i
  | const c => c
  | add a b => a.value v + b.value v
  | mul a b => a.value v * b.value v
  | compl a => 1 - a.value v

/-- The input facts an expression mentions. -/
def vars : ArithExpr K → List Nat
  | var i => [i]
  | const _ => []
  | add a b => a.vars ++ b.vars
  | mul a b => a.vars ++ b.vars
  | compl a => a.vars

variable [LinearOrder K]

/-- Every sum in the expression is a number from 0 to 1. -/
def SumsInRange (v : Nat → K) : ArithExpr K → Prop
  | add a b => a.SumsInRange v ∧ b.SumsInRange v ∧ 0 ≤ a.value v + b.value v ∧ a.value v + b.value v ≤ 1
  | mul a b => a.SumsInRange v ∧ b.SumsInRange v
  | compl a => a.SumsInRange v
  | _ => True

/-- The expression computed with sparse dual numbers. -/
def dual (v : Nat → K) : ArithExpr K → DualNumber2 K
  | var i => DualNumber2.new i (v i)
  | const c => DualNumber2.constant c
  | add a b => (a.dual v).add (b.dual v)
  | mul a b => (a.dual v).mul (b.dual v)
  | compl a => (a.dual v).neg

/-- The expression computed with the dual numbers used for weighted model counting. -/
def dualDense (v : Nat → K) : ArithExpr K → DualNumber K
  | var i => DualNumber.singleton (v i) i
  | const c => DualNumber.constant c
  | add a b => (a.dualDense v).add (b.dualDense v)
  | mul a b => (a.dualDense v).mult (b.dualDense v)
  | compl a => (a.dualDense v).negate

/-- The expression computed with the operations of a provenance; `none` if negation fails. -/
def provEval (c : Prov (DualNumber2 K) K) (v : Nat → K) : ArithExpr K → Option (DualNumber2 K)
  | var i => some (DualNumber2.new i (v i))
  | const r => some (DualNumber2.constant r)
  | add a b => do let x ← a.provEval c v; let y ← b.provEval c v; some (c.add x y)
  | mul a b => do let x ← a.provEval c v; let y ← b.provEval c v; some (c.mult x y)
  | compl a => do let x ← a.provEval c v; c.negate x

end ArithExpr

/-- The component of a sparse gradient: 0 where no entry is stored. -/
def gradValue (g : Gradient K) (j : Nat) : K :=
  match g.lookup j with
  | some x => x
  | none => 0

/-- Strictly ascending indices. -/
def Gradient.Asc (g : Gradient K) : Prop := g.Pairwise (fun p q => p.1 < q.1)

end Scallop
