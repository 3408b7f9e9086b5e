import Verif.Model.Base
import Mathlib.Algebra.Order.Field.Basic

/-!
# Discrete and numeric provenances

Models the tag algebras in `/repo/core/src/runtime/provenance/{discrete,probabilistic}` that do not need shared state. The default
`weight` is the constant `1.0` (`provenance.rs` 72-74), modelled by the one-point order `Unit`.
-/

namespace Scallop

/-- Models `UnitProvenance` (`discrete/unit.rs` 28-74). -/
def unitProv : Prov Unit Unit where
  zero := ()
  one := ()
  add := fun _ _ => ()
  mult := fun _ _ => ()
  negate := fun _ => none
  saturated := fun _ _ => true
  discard := fun _ => false
  weight := fun _ => ()

/-- Models `BooleanProvenance` (`discrete/boolean.rs` 13-59): it overrides `minus` and keeps the default `negate`. -/
def boolProv : Prov Bool Unit where
  zero := false
  one := true
  add := fun a b => a || b
  mult := fun a b => a && b
  negate := fun _ => none
  minus := fun a b => some (a && !b)
  saturated := fun a b => a == b
  discard := fun a => !a
  weight := fun _ => ()

/-- Models `NaturalProvenance` (`discrete/natural.rs` 8-50), without the overflow of `usize`. -/
def naturalProv : Prov Nat Unit where
  zero := 0
  one := 1
  add := fun a b => a + b
  mult := fun a b => a * b
  negate := fun _ => none
  saturated := fun _ _ => true
  discard := fun a => a == 0
  weight := fun _ => ()

/-- Models `NatWithInfty` (`discrete/tropical.rs` 3-7). -/
inductive NatInf where
  | nat (n : Nat)
  | infty
deriving DecidableEq

/-- Models `NatWithInfty::partial_cmp` (`discrete/tropical.rs` 25-34): two infinities are not comparable. -/
def NatInf.partialCmp : NatInf → NatInf → Option Ordering
  | .infty, .infty => none
  | .infty, .nat _ => some .gt
  | .nat _, .infty => some .lt
  | .nat a, .nat b => some (compare a b)

/-- Models `add` (`discrete/tropical.rs` 93-100). -/
def NatInf.tadd (a b : NatInf) : NatInf :=
  match a.partialCmp b with
  | some .lt => a
  | some .gt => b
  | some .eq => a
  | none => a

/-- Models `mult` (`discrete/tropical.rs` 102-107), without the overflow of `usize`. -/
def NatInf.tmult : NatInf → NatInf → NatInf
  | .nat a, .nat b => .nat (a + b)
  | _, _ => .infty

/-- Models `TropicalProvenance` (`discrete/tropical.rs` 58-112). -/
def tropicalProv : Prov NatInf Unit where
  zero := .infty
  one := .nat 0
  add := NatInf.tadd
  mult := NatInf.tmult
  negate := fun _ => none
  saturated := fun a b => a == b
  discard := fun a => a == .infty
  weight := fun _ => ()

variable {K : Type*} [Field K] [LinearOrder K]

/-- Models `MinMaxProbProvenance` (`probabilistic/min_max_prob.rs` 32-81) with the default threshold 0 (15-21). Tags are elements of
an ordered field instead of `f64`: rounding and NaN are not modelled. -/
def minMaxProv (K : Type*) [Field K] [LinearOrder K] : Prov K K where
  zero := 0
  one := 1
  add := fun a b => max a b
  mult := fun a b => min a b
  negate := fun p => some (1 - p)
  saturated := fun a b => a == b
  discard := fun p => decide (p ≤ 0)
  weight := fun t => t

/-- Models `AddMultProbProvenance` (`probabilistic/add_mult_prob.rs` 25-75), in an ordered field. -/
def addMultProv (K : Type*) [Field K] [LinearOrder K] : Prov K K where
  zero := 0
  one := 1
  add := fun a b => min (a + b) 1
  mult := fun a b => a * b
  negate := fun p => some (1 - p)
  saturated := fun _ _ => true
  discard := fun p => decide (p ≤ 0)
  weight := fun t => t

/-- Models `DualProvenance` (`composition/dual.rs` 9-69): `negate`, `minus` and `weight` are the defaults of the trait. -/
def dualProv {T1 T2 W1 W2 : Type*} (p1 : Prov T1 W1) (p2 : Prov T2 W2) : Prov (T1 × T2) Unit where
  zero := (p1.zero, p2.zero)
  one := (p1.one, p2.one)
  add := fun x y => (p1.add x.1 y.1, p2.add x.2 y.2)
  mult := fun x y => (p1.mult x.1 y.1, p2.mult x.2 y.2)
  negate := fun _ => none
  saturated := fun x y => p1.saturated x.1 y.1 && p2.saturated x.2 y.2
  discard := fun x => p1.discard x.1 || p2.discard x.2
  weight := fun _ => ()

end Scallop
