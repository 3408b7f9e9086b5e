import Verif.Proof.Dual

/-!
# Property theorems C44: dual numbers
-/

namespace Scallop

variable {K : Type*} [Field K]

theorem value_eq_eval (v : Nat → K) (e : ArithExpr K) : e.value v = e.toPoly.eval v := by
  induction e <;> simp_all [ArithExpr.toPoly, ArithExpr.value]

variable [LinearOrder K]

/-- **C44.** Computing an expression with dual numbers gives its value and, in each component, its partial derivative; the gradient is strictly
sorted by fact and mentions only facts of the expression. -/
theorem c44_gradient (v : Nat → K) (e : ArithExpr K) :
    (e.dual v).real = e.toPoly.eval v ∧ (∀ j, gradValue (e.dual v).gradient j = (MvPolynomial.pderiv j e.toPoly).eval v) ∧
    (e.dual v).gradient.Asc ∧ (∀ p ∈ (e.dual v).gradient, p.1 ∈ e.vars) := by
  obtain ⟨h1, h2, h3, h4⟩ := dual_spec v e
  exact ⟨h1.trans (value_eq_eval v e), h4, h2, h3⟩

/-- **C44.** The same for the dual numbers used in weighted model counting. -/
theorem c44_gradient_dense (v : Nat → K) (e : ArithExpr K) :
    (e.dualDense v).real = e.toPoly.eval v ∧ ∀ j, (e.dualDense v).deriv j = (MvPolynomial.pderiv j e.toPoly).eval v := by
  induction e with
  | var i =>
    refine ⟨by simp [ArithExpr.dualDense, DualNumber.singleton, ArithExpr.toPoly], fun j => ?_⟩
    simp only [ArithExpr.dualDense, DualNumber.singleton, ArithExpr.toPoly, MvPolynomial.pderiv_X]
    by_cases h : j = i
    · subst h; simp
    · rw [if_neg h]; simp [h, Pi.single_apply, eq_comm]
  | const c => exact ⟨by simp [ArithExpr.dualDense, DualNumber.constant, ArithExpr.toPoly], fun j => by simp [ArithExpr.dualDense, DualNumber.constant, ArithExpr.toPoly]⟩
  | add a b iha ihb =>
    exact ⟨by simp [ArithExpr.dualDense, DualNumber.add, ArithExpr.toPoly, iha.1, ihb.1], fun j => by
      simp [ArithExpr.dualDense, DualNumber.add, ArithExpr.toPoly, iha.2, ihb.2]⟩
  | mul a b iha ihb =>
    refine ⟨by simp [ArithExpr.dualDense, DualNumber.mult, ArithExpr.toPoly, iha.1, ihb.1], fun j => ?_⟩
    simp only [ArithExpr.dualDense, DualNumber.mult, ArithExpr.toPoly, Derivation.leibniz, smul_eq_mul, map_add, map_mul, iha.1, ihb.1, iha.2, ihb.2]
    ring
  | compl a iha =>
    exact ⟨by simp [ArithExpr.dualDense, DualNumber.negate, ArithExpr.toPoly, iha.1], fun j => by
      simp [ArithExpr.dualDense, DualNumber.negate, ArithExpr.toPoly, iha.2, map_sub]⟩

/-- C44 for the add-mult provenance: as long as every sum stays in [0, 1] (so that clamping changes nothing), its tags carry the value and
the partial derivatives. -/
theorem c44_add_mult_prob (thr : K) (v : Nat → K) (e : ArithExpr K) (h : e.SumsInRange v) :
    e.provEval (diffAddMultProv K thr) v = some (e.dual v) := by
  induction e with
  | var i => rfl
  | const c => rfl
  | add a b iha ihb =>
    obtain ⟨h1, h2, h3, h4⟩ := h
    simp only [ArithExpr.provEval, iha h1, ihb h2]
    have hr : (ArithExpr.dual v (.add a b)).real = a.value v + b.value v := (dual_spec v (.add a b)).1
    have : ((a.dual v).add (b.dual v)).clampReal = (a.dual v).add (b.dual v) := by
      simp only [ArithExpr.dual] at hr
      unfold DualNumber2.clampReal
      rw [hr, max_eq_left h3, min_eq_left h4, ← hr]
    simp only [diffAddMultProv, Option.bind_eq_bind, Option.bind_some, this]
    rfl
  | mul a b iha ihb =>
    simp only [ArithExpr.provEval, iha h.1, ihb h.2]; rfl
  | compl a iha =>
    have h' : a.SumsInRange v := h
    simp only [ArithExpr.provEval, iha h']; rfl

/-- C44: maximum and minimum select the tag (value with gradient) of the larger and smaller argument. -/
theorem c44_max_min (a b : DualNumber2 K) :
    (a.max b).real = max a.real b.real ∧ (a.max b = a ∨ a.max b = b) ∧ (a.min b).real = min a.real b.real ∧ (a.min b = a ∨ a.min b = b) := by
  unfold DualNumber2.max DualNumber2.min
  refine ⟨?_, by split <;> simp, ?_, by split <;> simp⟩
  · split
    · rename_i h; rw [max_eq_left (le_of_lt h)]
    · rename_i h; rw [max_eq_right (not_lt.mp h)]
  · split
    · rename_i h; rw [min_eq_left (le_of_lt h)]
    · rename_i h; rw [min_eq_right (not_lt.mp h)]

example : (ArithExpr.dual (fun i => if i = 0 then (1/2 : ℚ) else 1/4) (.mul (.add (.var 1) (.var 0)) (.compl (.var 0)))).gradient =
    [(0, -1/4), (1, 1/2)] := by decide +kernel
example : ArithExpr.SumsInRange (fun i => if i = 0 then (1/2 : ℚ) else 1/4) (.mul (.add (.var 1) (.var 0)) (.compl (.var 0))) := by
  refine ⟨⟨trivial, trivial, ?_, ?_⟩, trivial⟩ <;> norm_num [ArithExpr.value]

/-- When a sum is clamped, the gradient is not that of the clamped value: at (0.7, 0.8) the clamped sum is 1 in a whole neighbourhood, but
the reported derivative is 1. -/
theorem c44_clamp_gradient : ∃ (v : Nat → ℚ) (d : DualNumber2 ℚ), ArithExpr.provEval (diffAddMultProv ℚ 0) v (.add (.var 0) (.var 1)) = some d ∧
    d.real = 1 ∧ gradValue d.gradient 0 = 1 ∧ ∀ x : ℚ, 3/10 ≤ x → min (max (x + v 1) 0) 1 = 1 := by
  refine ⟨fun i => if i = 0 then 7/10 else 8/10, ⟨1, [(0, 1), (1, 1)]⟩, ?_, rfl, rfl, ?_⟩
  · have : (min (max (7/10 + 8/10 : ℚ) 0) 1) = 1 := by norm_num
    simp [ArithExpr.provEval, diffAddMultProv, DualNumber2.add, DualNumber2.new, Gradient.singleton, Gradient.add, Gradient.addFrom,
      DualNumber2.clampReal, this]
  · intro x hx
    have : (1 : ℚ) ≤ x + 8/10 := by linarith
    simp only [if_neg (show ¬ (1 = 0) by decide)]
    rw [max_eq_left (by linarith), min_eq_right this]

end Scallop
