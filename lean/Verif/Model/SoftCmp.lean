import Verif.Model.Value
import Mathlib.Analysis.SpecialFunctions.Exp
import Mathlib.Algebra.Order.BigOperators.Ring.Finset
import Mathlib.Analysis.SpecialFunctions.Sqrt
import Mathlib.Analysis.SpecialFunctions.Trigonometric.Arctan

/-!
# Soft comparison

Models `/repo/core/src/common/foreign_predicates/soft_cmp.rs` and the predicates `soft_eq`, `soft_neq`, `soft_gt` and `soft_lt` that give the
probability with which two numbers compare, and `soft_eq` and `soft_neq` of tensors of the standard library of the Python API (`/repo/etc/scallopy/scallopy/stdlib.py`).

Simplified: floating point numbers are real numbers. With them `E.powf(v)` overflows for `v` above 709, where `soft_eq` of two numbers that
are 1420 apart is `inf / inf`, not a number; that is not in the model.
-/

namespace Scallop.Soft

/-- Models `enum SigmoidFunction` (`soft_cmp.rs` 7-12). -/
inductive Sigmoid where
  | logistic (beta : ℝ)
  | reciprocal (beta : ℝ)
  | cauchy (beta : ℝ)
  | optimalMonotonic (beta : ℝ)

/-- The scaling parameter. -/
def Sigmoid.beta : Sigmoid → ℝ
  | .logistic b | .reciprocal b | .cauchy b | .optimalMonotonic b => b

/-- Models `Default for SigmoidFunction` (`soft_cmp.rs` 14-18). -/
noncomputable def Sigmoid.default : Sigmoid := .logistic 1

/-- Models `SigmoidFunction::eval` (`soft_cmp.rs` 42-67). -/
noncomputable def Sigmoid.eval : Sigmoid → ℝ → ℝ
  | .logistic b, x => 1 / (1 + Real.exp (-b * x))
  | .reciprocal b, x => (b * x) / (1 + 2 * b * |x|) + 1 / 2
  | .cauchy b, x => 1 / Real.pi * Real.arctan (b * x) + 1 / 2
  | .optimalMonotonic b, x =>
    let xp := b * x
    if xp < -(1 / 4) then -1 / (16 * xp) else if 1 / 4 < xp then 1 - 1 / (16 * xp) else xp + 1 / 2

/-- Models `SigmoidFunction::eval_deriv` (`soft_cmp.rs` 73-92): three cases are `unimplemented!()`. -/
noncomputable def Sigmoid.evalDeriv : Sigmoid → ℝ → Outcome ℝ
  | .logistic b, x =>
    let v := 1 / 2 * b * x
    let epv := Real.exp v
    .ok (2 * epv / (epv ^ 2 + 1))
  | _, _ => .panic

/-- Models `soft_gt` (`soft_gt.rs` 31-40). -/
noncomputable def softGt (s : Sigmoid) (lhs rhs : ℝ) : ℝ := s.eval (lhs - rhs)

/-- Models `soft_lt` (`soft_lt.rs` 31-40). -/
noncomputable def softLt (s : Sigmoid) (lhs rhs : ℝ) : ℝ := s.eval (rhs - lhs)

/-- Models `soft_eq` (`soft_eq.rs` 33-42). -/
noncomputable def softEq (s : Sigmoid) (lhs rhs : ℝ) : Outcome ℝ := s.evalDeriv (lhs - rhs)

/-- Models `soft_neq` (`soft_neq.rs` 33-42). -/
noncomputable def softNeq (s : Sigmoid) (lhs rhs : ℝ) : Outcome ℝ := (s.evalDeriv (lhs - rhs)).bind fun p => .ok (1 - p)

/-- `soft_gt` for integers (`soft_gt.rs` 82-90): the difference is taken in their type. The standard registry has the soft comparisons for
floating point numbers only (`foreign_predicate.rs` 314-320); the others are for applications that register them. -/
noncomputable def softGtInt (s : Sigmoid) (k : IntTy) (lhs rhs : Int) : Outcome ℝ :=
  if k.fits (lhs - rhs) then .ok (s.eval ((lhs - rhs : Int) : ℝ)) else .panic

/-! ## Tensors -/

/-- The length of a vector. -/
noncomputable def norm {n : Nat} (x : Fin n → ℝ) : ℝ := Real.sqrt (∑ i, x i ^ 2)

/-- `torch.cosine_similarity(x, y, dim=0)` of two vectors of the same length. It is not part of the code: `ε` is the lower bound PyTorch sets for the lengths (1e-8).
Simplified: tensors have one dimension. -/
noncomputable def cosine (ε : ℝ) {n : Nat} (x y : Fin n → ℝ) : ℝ := (∑ i, x i * y i) / (max (norm x) ε * max (norm y) ε)

/-- Models `soft_eq_tensor` (`stdlib.py` 6-11). -/
noncomputable def softEqTensor (ε : ℝ) {n : Nat} (x y : Fin n → ℝ) : ℝ := cosine ε x y + 1.0 / 2.0

/-- Models `soft_neq_tensor` (`stdlib.py` 13-18). -/
noncomputable def softNeqTensor (ε : ℝ) {n : Nat} (x y : Fin n → ℝ) : ℝ := 1.0 - (cosine ε x y + 1.0 / 2.0)

end Scallop.Soft
