import Verif.Model.Sdd
import Mathlib.Algebra.BigOperators.Group.Finset.Basic
import Mathlib.Algebra.BigOperators.Ring.Finset
import Mathlib.Algebra.MvPolynomial.PDeriv

/-!
# What a Boolean formula and its probability mean
-/

namespace Scallop

namespace BoolForm

/-- Truth of a formula in a world. -/
def eval (w : Nat → Bool) : BoolForm → Bool
  | fls => false
  | tru => true
  | pos v => w v
  | neg v => !w v
  | not f => !f.eval w
  | and l r => l.eval w && r.eval w
  | or l r => l.eval w || r.eval w

/-- The formula mentions only variables of the list. -/
def Over (vars : List Nat) : BoolForm → Prop
  | fls => True
  | tru => True
  | pos v => v ∈ vars
  | neg v => v ∈ vars
  | not f => f.Over vars
  | and l r => l.Over vars ∧ r.Over vars
  | or l r => l.Over vars ∧ r.Over vars

/-- The probability of the formula when the variables of `V` are independent, variable `x` being true with probability `p x`: the sum of
the weights of the subsets of true variables in which the formula holds. -/
def prob {K : Type*} [CommRing K] (p : Nat → K) (V : Finset Nat) (f : BoolForm) : K :=
  ∑ S ∈ V.powerset, if f.eval (fun x => decide (x ∈ S)) then (∏ x ∈ S, p x) * ∏ x ∈ V \ S, (1 - p x) else 0

open Classical in
/-- The probability of an event when the variables of `V` are independent (and all others false). -/
noncomputable def _root_.Scallop.eventProb {K : Type*} [CommRing K] (p : Nat → K) (V : Finset Nat) (event : (Nat → Bool) → Prop) : K :=
  ∑ S ∈ V.powerset, if event (fun x => decide (x ∈ S)) then (∏ x ∈ S, p x) * ∏ x ∈ V \ S, (1 - p x) else 0

/-- The probability of a formula as a polynomial in the probabilities of the variables. -/
noncomputable def probPoly (K : Type*) [CommRing K] (V : Finset Nat) (f : BoolForm) : MvPolynomial Nat K := f.prob MvPolynomial.X V

end BoolForm

end Scallop
