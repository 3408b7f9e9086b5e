import Mathlib.Order.Defs.LinearOrder
import Mathlib.Data.Set.Defs

/-!
# Tagged tuples and provenance contexts

Models `/repo/core/src/runtime/provenance/provenance.rs` (6-75) and
`/repo/core/src/runtime/provenance/tag.rs`.
-/

namespace Scallop

/-- Models `trait Provenance` (`core/src/runtime/provenance/provenance.rs` 6-75), as a record of the operations on the
internal tag space `T`. Input and output tags (`tagging_fn`, `recover_fn`) are not part of this record: they are modelled
per provenance. `weight` returns an element of a linear order `W` (in the code an `f64`; NaN is not modelled); only the
ordering of weights is used by the schedulers. -/
structure Prov (T : Type*) (W : Type*) where
  zero : T
  one : T
  add : T → T → T
  mult : T → T → T
  /-- `negate` (58): by default `None`. -/
  negate : T → Option T
  /-- `minus` (61-63): by default the product with the negation; a provenance may override it (the boolean one does). -/
  minus : T → T → Option T := fun t1 t2 => (negate t2).map (fun n => mult t1 n)
  /-- `saturated` (66). -/
  saturated : T → T → Bool
  /-- `discard` (38). -/
  discard : T → Bool
  /-- `weight` (72). -/
  weight : T → W

/-- Models `struct Tagged` (`core/src/runtime/provenance/tag.rs` 7-11). Equality and order on tagged tuples look at the
tuple only (13-33); in the model every comparison is therefore written on `.tuple`. -/
structure Elem (α : Type*) (T : Type*) where
  tuple : α
  tag : T
deriving Repr, DecidableEq

end Scallop
