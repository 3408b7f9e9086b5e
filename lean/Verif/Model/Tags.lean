import Verif.Model.Dual
import Verif.Model.Clause
import Mathlib.Algebra.Order.AbsoluteValue.Basic

/-!
# Further tag algebras

Models `/repo/core/src/runtime/provenance/numerical/{real_tropical,real_tropical_proofs}.rs` and
`/repo/core/src/runtime/provenance/differentiable/{diff_nand_mult_prob,diff_nand_min_prob,diff_min_max_prob}.rs` over an ordered field
(no rounding, no NaN).
-/

namespace Scallop

variable {K : Type*} [Field K] [LinearOrder K]

/-- `min` on numbers with +∞ (`none`): `f64::min`. -/
def rtMin : Option K → Option K → Option K
  | none, b => b
  | a, none => a
  | some a, some b => some (min a b)

/-- `+` on numbers with +∞. -/
def rtAdd : Option K → Option K → Option K
  | some a, some b => some (a + b)
  | _, _ => none

/-- `(old - new).abs() < eps` (`real_tropical.rs` 49-51): false when an infinity is involved. -/
def rtNear (eps : K) : Option K → Option K → Bool
  | some a, some b => decide (|a - b| < eps)
  | _, _ => false

/-- Models `RealTropicalProvenance` (`real_tropical.rs` 6-52). `none` is +∞; -∞ is not modelled. The weight `exp(-t)` is replaced by `-t`,
which orders tags in the same way, with a bottom for +∞. -/
def realTropicalProv (K : Type*) [Field K] [LinearOrder K] : Prov (Option K) (WithBot K) where
  zero := none
  one := some 0
  add := rtMin
  mult := rtAdd
  negate := fun _ => none
  saturated := rtNear (1 / 1000)
  discard := fun t => t.isNone
  weight := fun t => match t with | none => ⊥ | some a => ((-a : K) : WithBot K)

/-- Models `struct RealTropicalProofsTag` (`real_tropical_proofs.rs` 34-40); the `BTreeSet` is a sorted list. -/
structure RtpTag (K : Type*) where
  real : Option K
  proof : List Nat
deriving DecidableEq

/-- `t1.real < t2.real` with +∞. -/
def rtLt : Option K → Option K → Bool
  | some a, some b => decide (a < b)
  | some _, none => true
  | none, _ => false

/-- Models `RealTropicalProofsProvenance` (`real_tropical_proofs.rs` 64-135); weight as in `realTropicalProv`. -/
def realTropicalProofsProv (K : Type*) [Field K] [LinearOrder K] : Prov (RtpTag K) (WithBot K) where
  zero := ⟨none, []⟩
  one := ⟨some 0, []⟩
  add := fun t1 t2 => if rtLt t1.real t2.real then t1 else t2
  mult := fun t1 t2 => ⟨rtAdd t1.real t2.real, bsetCollect (t1.proof ++ t2.proof)⟩
  negate := fun _ => none
  saturated := fun t1 t2 => rtNear (1 / 100) t1.real t2.real
  discard := fun t => t.real.isNone || t.proof.isEmpty
  weight := fun t => match t.real with | none => ⊥ | some a => ((-a : K) : WithBot K)

/-- Models `tagging_fn` (`real_tropical_proofs.rs` 75-86) for a plain number. -/
def RtpTag.ofFloat (f : K) : RtpTag K := ⟨some f, []⟩

/-- Models `tagging_fn` (`real_tropical_proofs.rs` 75-86) for a new variable whose identifier is `id`. -/
def RtpTag.ofVariable (id : Nat) : RtpTag K := ⟨some 0, [id]⟩

/-- Models `DiffNandMultProbProvenance` (`diff_nand_mult_prob.rs` 52-117). -/
def diffNandMultProv (K : Type*) [Field K] [LinearOrder K] (validThreshold : K) : Prov (DualNumber2 K) K where
  zero := DualNumber2.constant 0
  one := DualNumber2.constant 1
  add := fun a b => (a.neg.mul b.neg).neg
  mult := fun a b => a.mul b
  negate := fun a => some a.neg
  saturated := fun _ _ => true
  discard := fun t => decide (t.real ≤ validThreshold)
  weight := fun t => t.real

/-- Models `DiffNandMinProbProvenance` (`diff_nand_min_prob.rs` 52-117). -/
def diffNandMinProv (K : Type*) [Field K] [LinearOrder K] (validThreshold : K) : Prov (DualNumber2 K) K where
  zero := DualNumber2.constant 0
  one := DualNumber2.constant 1
  add := fun a b => (a.neg.mul b.neg).neg
  mult := fun a b => a.min b
  negate := fun a => some a.neg
  saturated := fun _ _ => true
  discard := fun t => decide (t.real ≤ validThreshold)
  weight := fun t => t.real

/-- Models `enum Derivative` (`diff_min_max_prob.rs` 11-16). -/
inductive Derivative where
  | pos (i : Nat)
  | zero
  | neg (i : Nat)
deriving DecidableEq

/-- Models `Derivative::negate` (`diff_min_max_prob.rs` 18-26). -/
def Derivative.negate : Derivative → Derivative
  | .pos i => .neg i
  | .zero => .zero
  | .neg i => .pos i

/-- Models `DiffMinMaxProbProvenance` (`diff_min_max_prob.rs` 108-187); a tag is `struct Prob` (28-29). The default threshold is
-0.0001 (83-88). -/
def diffMinMaxProv (K : Type*) [Field K] [LinearOrder K] (validThreshold : K) : Prov (K × Derivative) K where
  zero := (0, .zero)
  one := (1, .zero)
  add := fun t1 t2 => if t2.1 < t1.1 then t1 else t2
  mult := fun t1 t2 => if t2.1 < t1.1 then t2 else t1
  negate := fun p => some (1 - p.1, p.2.negate)
  saturated := fun a b => decide (a.1 = b.1)
  discard := fun p => decide (p.1 ≤ validThreshold)
  weight := fun t => t.1

end Scallop
