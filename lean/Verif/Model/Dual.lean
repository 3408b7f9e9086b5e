import Verif.Model.Provenance
import Mathlib.Algebra.Order.Field.Basic

/-!
# Dual numbers

Models `/repo/core/src/runtime/provenance/common/{dual_number_2,dual_number}.rs` and
`/repo/core/src/runtime/provenance/differentiable/{diff_add_mult_prob,diff_max_mult_prob}.rs` over an ordered field (no rounding).
-/

namespace Scallop

variable {K : Type*} [Field K] [LinearOrder K]

/-- Models `struct Gradient` (`dual_number_2.rs` 118-122). The two vectors `indices` and `values`, which always have the same length, are
kept as one list of pairs. -/
abbrev Gradient (K : Type*) := List (Nat × K)

namespace Gradient

/-- Models `Gradient::empty` (`dual_number_2.rs` 125-130). -/
def empty : Gradient K := []

/-- Models `Gradient::singleton` (`dual_number_2.rs` 132-137). -/
def singleton (id : Nat) : Gradient K := [(id, 1)]

/-- Models `Mul<&f64>` (`dual_number_2.rs` 140-149). -/
def scale (g : Gradient K) (r : K) : Gradient K := g.map (fun p => (p.1, p.2 * r))

/-- The turns of the loop of `Add` (`dual_number_2.rs` 161-193) while the left cursor stays at `p`; `rec` continues with the next one. -/
def addFrom (p : Nat × K) (rec : Gradient K → Gradient K) : Gradient K → Gradient K
  | [] => p :: rec []
  | q :: qs =>
    if p.1 = q.1 then (p.1, p.2 + q.2) :: rec qs
    else if p.1 < q.1 then p :: rec (q :: qs)
    else q :: addFrom p rec qs

/-- Models `Add` (`dual_number_2.rs` 151-201). -/
def add : Gradient K → Gradient K → Gradient K
  | [], qs => qs
  | p :: ps, qs => addFrom p (add ps) qs

/-- Models `Neg` (`dual_number_2.rs` 203-211). -/
def neg (g : Gradient K) : Gradient K := g.map (fun p => (p.1, -p.2))

end Gradient

/-- Models `struct DualNumber2` (`dual_number_2.rs` 12-16). -/
structure DualNumber2 (K : Type*) where
  real : K
  gradient : Gradient K

namespace DualNumber2

/-- Models `new` (`dual_number_2.rs` 21-26). -/
def new (id : Nat) (real : K) : DualNumber2 K := ⟨real, Gradient.singleton id⟩

/-- Models `constant` (`dual_number_2.rs` 42-47); `one` (28-33) and `zero` (35-40) are the constants 1 and 0. -/
def constant (real : K) : DualNumber2 K := ⟨real, Gradient.empty⟩

/-- Models `clamp_real` (`dual_number_2.rs` 49-51). -/
def clampReal (d : DualNumber2 K) : DualNumber2 K := { d with real := min (max d.real 0) 1 }

/-- Models `max` (`dual_number_2.rs` 53-59). -/
def max (a b : DualNumber2 K) : DualNumber2 K := if b.real < a.real then a else b

/-- Models `min` (`dual_number_2.rs` 61-67). -/
def min (a b : DualNumber2 K) : DualNumber2 K := if a.real < b.real then a else b

/-- Models `Neg` (`dual_number_2.rs` 70-79): the complement `1 - x`. -/
def neg (a : DualNumber2 K) : DualNumber2 K := ⟨1 - a.real, a.gradient.neg⟩

/-- Models `Mul` (`dual_number_2.rs` 96-105). -/
def mul (a b : DualNumber2 K) : DualNumber2 K := ⟨a.real * b.real, (a.gradient.scale b.real).add (b.gradient.scale a.real)⟩

/-- Models `Add` (`dual_number_2.rs` 107-116). -/
def add (a b : DualNumber2 K) : DualNumber2 K := ⟨a.real + b.real, a.gradient.add b.gradient⟩

end DualNumber2

/-- Models `DiffAddMultProbProvenance` (`diff_add_mult_prob.rs` 52-140). -/
def diffAddMultProv (K : Type*) [Field K] [LinearOrder K] (validThreshold : K) : Prov (DualNumber2 K) K where
  zero := DualNumber2.constant 0
  one := DualNumber2.constant 1
  add := fun a b => (a.add b).clampReal
  mult := fun a b => a.mul b
  negate := fun a => some a.neg
  saturated := fun _ _ => true
  discard := fun t => decide (t.real ≤ validThreshold)
  weight := fun t => t.real

/-- Models `DiffMaxMultProbProvenance` (`diff_max_mult_prob.rs` 52-140): as above with `max` for `add`. -/
def diffMaxMultProv (K : Type*) [Field K] [LinearOrder K] (validThreshold : K) : Prov (DualNumber2 K) K where
  zero := DualNumber2.constant 0
  one := DualNumber2.constant 1
  add := fun a b => a.max b
  mult := fun a b => a.mul b
  negate := fun a => some a.neg
  saturated := fun a b => decide (a.real = b.real)
  discard := fun t => decide (t.real ≤ validThreshold)
  weight := fun t => t.real

/-- Models `struct DualNumber` (`dual_number.rs` 3-7). The sparse vector of the `sprs` library is represented by its components. -/
structure DualNumber (K : Type*) where
  real : K
  deriv : Nat → K

namespace DualNumber

/-- Models `DualNumberSemiring::singleton` (`dual_number.rs` 19-24). -/
def singleton (real : K) (id : Nat) : DualNumber K := ⟨real, fun j => if j = id then 1 else 0⟩

/-- Models `DualNumberSemiring::constant` (`dual_number.rs` 27-32); `zero` and `one` (38-50) are the constants 0 and 1. -/
def constant (real : K) : DualNumber K := ⟨real, fun _ => 0⟩

/-- Models `add` (`dual_number.rs` 52-57). -/
def add (a b : DualNumber K) : DualNumber K := ⟨a.real + b.real, fun j => a.deriv j + b.deriv j⟩

/-- Models `mult` (`dual_number.rs` 59-64). -/
def mult (a b : DualNumber K) : DualNumber K := ⟨a.real * b.real, fun j => a.deriv j * b.real + b.deriv j * a.real⟩

/-- Models `negate` (`dual_number.rs` 66-71). -/
def negate (a : DualNumber K) : DualNumber K := ⟨1 - a.real, fun j => -a.deriv j⟩

end DualNumber

end Scallop
