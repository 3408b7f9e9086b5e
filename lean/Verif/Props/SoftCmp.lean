import Verif.Model.SoftCmp
import Mathlib.Tactic.Linarith
import Mathlib.Tactic.FieldSimp
import Mathlib.Tactic.Ring
import Mathlib.Tactic.Positivity
import Mathlib.Analysis.SpecialFunctions.ExpDeriv
import Mathlib.Analysis.Calculus.Deriv.Inv

/-!
# C91: soft comparison gives probabilities
-/

namespace Scallop.Soft

open Real Filter Topology

/-- The probabilities of `soft_gt` and `soft_lt` are between 0 and 1. -/
theorem c91_probability (s : Sigmoid) (hb : 0 ≤ s.beta) (a b : ℝ) :
    (0 ≤ softGt s a b ∧ softGt s a b ≤ 1) ∧ 0 ≤ softLt s a b ∧ softLt s a b ≤ 1 := by
  suffices h : ∀ x, 0 ≤ s.eval x ∧ s.eval x ≤ 1 from ⟨h _, h _⟩
  intro x
  cases s with
  | logistic b =>
    simp only [Sigmoid.eval]
    have := exp_pos (-b * x)
    exact ⟨by positivity, by rw [div_le_one (by positivity)]; linarith⟩
  | reciprocal b =>
    simp only [Sigmoid.eval, Sigmoid.beta] at hb ⊢
    have hd : 0 < 1 + 2 * b * |x| := by positivity
    have h1 : |b * x| = b * |x| := by rw [abs_mul, abs_of_nonneg hb]
    have h2 := neg_abs_le (b * x)
    have h3 := le_abs_self (b * x)
    rw [h1] at h2 h3
    constructor
    · have : -(1 / 2) ≤ b * x / (1 + 2 * b * |x|) := by rw [le_div_iff₀ hd]; linarith
      linarith
    · have : b * x / (1 + 2 * b * |x|) ≤ 1 / 2 := by rw [div_le_iff₀ hd]; linarith
      linarith
  | cauchy b =>
    simp only [Sigmoid.eval]
    have h1 := neg_pi_div_two_lt_arctan (b * x)
    have h2 := arctan_lt_pi_div_two (b * x)
    have hp := pi_pos
    have e : 1 / π * arctan (b * x) = arctan (b * x) / π := by ring
    rw [e]
    constructor
    · have : -(1 / 2) ≤ arctan (b * x) / π := by rw [le_div_iff₀ hp]; linarith
      linarith
    · have : arctan (b * x) / π ≤ 1 / 2 := by rw [div_le_iff₀ hp]; linarith
      linarith
  | optimalMonotonic b =>
    simp only [Sigmoid.eval]
    split
    · next h =>
      have e : -1 / (16 * (b * x)) = 1 / (16 * (-(b * x))) := by rw [mul_neg, div_neg, neg_div]
      rw [e]
      exact ⟨div_nonneg zero_le_one (by linarith), by rw [div_le_one (by linarith)]; linarith⟩
    · split
      · next h =>
        have h1 : 0 ≤ 1 / (16 * (b * x)) := div_nonneg zero_le_one (by linarith)
        have h2 : 1 / (16 * (b * x)) ≤ 1 := by rw [div_le_one (by linarith)]; linarith
        exact ⟨by linarith, by linarith⟩
      · exact ⟨by linarith, by linarith⟩

/-- Equal numbers are greater with probability one half. -/
theorem c91_equal (s : Sigmoid) (a : ℝ) : softGt s a a = 1 / 2 ∧ softLt s a a = 1 / 2 := by
  simp only [softGt, softLt, sub_self]
  have : s.eval 0 = 1 / 2 := by
    cases s <;> simp [Sigmoid.eval] <;> norm_num
  exact ⟨this, this⟩

/-- `soft_gt` and `soft_lt` are complementary, and each is the other with its arguments exchanged. -/
theorem c91_complement (s : Sigmoid) (a b : ℝ) : softGt s a b + softLt s a b = 1 ∧ softGt s a b = softLt s b a := by
  refine ⟨?_, rfl⟩
  simp only [softGt, softLt]
  suffices h : ∀ x, s.eval x + s.eval (-x) = 1 by
    have := h (a - b)
    rwa [neg_sub] at this
  intro x
  cases s with
  | logistic b =>
    simp only [Sigmoid.eval]
    have e : exp (-b * -x) = (exp (-b * x))⁻¹ := by rw [← exp_neg]; congr 1; ring
    rw [e]
    have := exp_pos (-b * x)
    field_simp
    ring
  | reciprocal b =>
    simp only [Sigmoid.eval, abs_neg, mul_neg, neg_div]
    ring
  | cauchy b =>
    simp only [Sigmoid.eval, mul_neg, arctan_neg]
    ring
  | optimalMonotonic b =>
    simp only [Sigmoid.eval, mul_neg]
    split
    · next h =>
      rw [if_neg (by linarith), if_pos (by linarith)]
      have : b * x ≠ 0 := by intro h'; rw [h'] at h; norm_num at h
      field_simp
      ring
    · split
      · next h =>
        rw [if_pos (by linarith)]
        have : b * x ≠ 0 := by intro h'; rw [h'] at h; norm_num at h
        field_simp
        ring
      · rw [if_neg (by linarith), if_neg (by linarith)]
        ring

private theorem eval_mono (s : Sigmoid) (hb : 0 ≤ s.beta) : Monotone s.eval := by
  intro x y hxy
  cases s with
  | logistic b =>
    simp only [Sigmoid.eval, Sigmoid.beta] at hb ⊢
    have h : exp (-b * y) ≤ exp (-b * x) := exp_le_exp.2 (by nlinarith)
    have := exp_pos (-b * y)
    exact one_div_le_one_div_of_le (by linarith) (by linarith)
  | reciprocal b =>
    simp only [Sigmoid.eval, Sigmoid.beta] at hb ⊢
    have hm : b * x ≤ b * y := mul_le_mul_of_nonneg_left hxy hb
    have e : ∀ z, b * z / (1 + 2 * b * |z|) = (b * z) / (1 + 2 * |b * z|) := fun z => by rw [abs_mul, abs_of_nonneg hb]; ring
    rw [e, e]
    generalize b * x = u at hm ⊢
    generalize b * y = w at hm ⊢
    have h1 : 0 < 1 + 2 * |u| := by positivity
    have h2 : 0 < 1 + 2 * |w| := by positivity
    have : u / (1 + 2 * |u|) ≤ w / (1 + 2 * |w|) := by
      rw [div_le_div_iff₀ h1 h2]
      rcases le_total 0 u with hu | hu <;> rcases le_total 0 w with hw | hw
      · rw [abs_of_nonneg hu, abs_of_nonneg hw]; nlinarith
      · have : u = 0 := le_antisymm (hm.trans hw) hu
        have : w = 0 := le_antisymm hw (hu.trans hm)
        simp_all
      · rw [abs_of_nonpos hu, abs_of_nonneg hw]; nlinarith [mul_nonneg (neg_nonneg.2 hu) hw]
      · rw [abs_of_nonpos hu, abs_of_nonpos hw]; nlinarith
    linarith
  | cauchy b =>
    simp only [Sigmoid.eval, Sigmoid.beta] at hb ⊢
    have hm : b * x ≤ b * y := mul_le_mul_of_nonneg_left hxy hb
    have := arctan_mono hm
    have hp : 0 ≤ 1 / π := by positivity
    nlinarith [mul_le_mul_of_nonneg_left this hp]
  | optimalMonotonic b =>
    simp only [Sigmoid.eval, Sigmoid.beta] at hb ⊢
    have hm : b * x ≤ b * y := mul_le_mul_of_nonneg_left hxy hb
    generalize b * x = u at hm ⊢
    generalize b * y = w at hm ⊢
    have neg : ∀ z : ℝ, z < -(1 / 4) → -1 / (16 * z) ≤ 1 / 4 ∧ 0 ≤ -1 / (16 * z) := fun z hz => by
      have e : -1 / (16 * z) = 1 / (16 * (-z)) := by rw [mul_neg, div_neg, neg_div]
      rw [e]
      exact ⟨by rw [div_le_iff₀ (by linarith)]; linarith, div_nonneg zero_le_one (by linarith)⟩
    have pos : ∀ z : ℝ, 1 / 4 < z → 1 / (16 * z) ≤ 1 / 4 ∧ 0 ≤ 1 / (16 * z) := fun z hz =>
      ⟨by rw [div_le_iff₀ (by linarith)]; linarith, div_nonneg zero_le_one (by linarith)⟩
    split_ifs with h1 h2 h3 h4 h5 h6
    · have e : ∀ z : ℝ, -1 / (16 * z) = 1 / (16 * (-z)) := fun z => by rw [mul_neg, div_neg, neg_div]
      rw [e, e]
      exact one_div_le_one_div_of_le (by linarith) (by linarith)
    · have := neg u h1; have := pos w h3; linarith
    · have := neg u h1; linarith
    · linarith
    · exact sub_le_sub_left (one_div_le_one_div_of_le (by linarith) (by linarith)) 1
    · linarith
    · linarith
    · have := pos w (by assumption); linarith
    · linarith

/-- The greater the first number and the less the second, the greater the probability of `soft_gt`. -/
theorem c91_monotone (s : Sigmoid) (hb : 0 ≤ s.beta) {a a' b b' : ℝ} (ha : a ≤ a') (hb' : b' ≤ b) : softGt s a b ≤ softGt s a' b' :=
  eval_mono s hb (by linarith)

private noncomputable def sech (v : ℝ) : ℝ := 2 * exp v / (exp v ^ 2 + 1)

private theorem sech_le (v : ℝ) : 0 < sech v ∧ sech v ≤ 1 := by
  have := exp_pos v
  simp only [sech]
  exact ⟨by positivity, by rw [div_le_one (by positivity)]; nlinarith [sq_nonneg (exp v - 1)]⟩

private theorem sech_one {v : ℝ} (h : sech v = 1) : v = 0 := by
  have := exp_pos v
  simp only [sech] at h
  rw [div_eq_one_iff_eq (by positivity)] at h
  have : (exp v - 1) ^ 2 = 0 := by linarith
  have : exp v = 1 := by have := pow_eq_zero_iff (two_ne_zero) |>.1 this; linarith
  exact (exp_eq_one_iff v).1 this

private theorem sech_neg (v : ℝ) : sech (-v) = sech v := by
  have := exp_pos v
  simp only [sech, exp_neg]
  field_simp
  ring

/-- With the logistic function, the default, `soft_eq` gives a probability: one exactly for equal numbers, the same when its arguments are
exchanged; `soft_neq` gives the complement. -/
theorem c91_soft_eq (b : ℝ) (hb : b ≠ 0) (x y : ℝ) : ∃ p, softEq (.logistic b) x y = .ok p ∧ softNeq (.logistic b) x y = .ok (1 - p) ∧
    0 < p ∧ p ≤ 1 ∧ (p = 1 ↔ x = y) ∧ softEq (.logistic b) y x = .ok p := by
  refine ⟨sech (1 / 2 * b * (x - y)), rfl, rfl, (sech_le _).1, (sech_le _).2, ⟨fun h => ?_, fun h => ?_⟩, ?_⟩
  · have := sech_one h
    have h2 : x - y = 0 := by
      rcases mul_eq_zero.1 this with h | h
      · rcases mul_eq_zero.1 h with h | h
        · norm_num at h
        · exact absurd h hb
      · exact h
    linarith
  · subst h
    simp [sech]
    norm_num
  · have e : 1 / 2 * b * (x - y) = -(1 / 2 * b * (y - x)) := by ring
    rw [e, sech_neg]
    rfl

/-- The other functions cannot be used for `soft_eq`: it panics. -/
theorem c91_soft_eq_false (b x y : ℝ) :
    softEq (.reciprocal b) x y = .panic ∧ softEq (.cauchy b) x y = .panic ∧ softEq (.optimalMonotonic b) x y = .panic := ⟨rfl, rfl, rfl⟩

private theorem eval_deriv (b x : ℝ) :
    HasDerivAt (Sigmoid.logistic b).eval (b * exp (-b * x) / (1 + exp (-b * x)) ^ 2) x := by
  have h1 : HasDerivAt (fun x => exp (-b * x)) (exp (-b * x) * -b) x := by
    have : HasDerivAt (fun x : ℝ => -b * x) (-b) x := by simpa using (hasDerivAt_id x).const_mul (-b)
    exact this.exp
  have hp := exp_pos (-b * x)
  have h2 : HasDerivAt (fun x => 1 + exp (-b * x)) (exp (-b * x) * -b) x := h1.const_add 1
  have h3 := h2.inv (by positivity)
  have e : (Sigmoid.logistic b).eval = fun x => (1 + exp (-b * x))⁻¹ := by
    funext z
    simp [Sigmoid.eval]
  rw [e]
  have h4 : -(exp (-b * x) * -b) / (1 + exp (-b * x)) ^ 2 = b * exp (-b * x) / (1 + exp (-b * x)) ^ 2 := by ring
  rw [h4] at h3
  exact h3

/-- `soft_eq` is said to be the derivative of the sigmoid function divided by the derivative at zero (`soft_cmp.rs` 69-76). It is the square
root of that: the code has one factor `sech` where the comment has its square. So it is another number for all numbers that are not equal,
always greater. -/
theorem c91_derivative_false (b : ℝ) (hb : 0 < b) {x : ℝ} (hx : x ≠ 0) : ∃ p, softEq (.logistic b) x 0 = .ok p ∧
    deriv (Sigmoid.logistic b).eval x / deriv (Sigmoid.logistic b).eval 0 = p ^ 2 ∧
    deriv (Sigmoid.logistic b).eval x / deriv (Sigmoid.logistic b).eval 0 < p := by
  have key : deriv (Sigmoid.logistic b).eval x / deriv (Sigmoid.logistic b).eval 0 = sech (1 / 2 * b * x) ^ 2 := by
    rw [(eval_deriv b x).deriv, (eval_deriv b 0).deriv]
    have e : exp (-b * x) = (exp (1 / 2 * b * x) ^ 2)⁻¹ := by
      rw [← exp_nat_mul, ← exp_neg]; congr 1; push_cast; ring
    rw [e]
    have := exp_pos (1 / 2 * b * x)
    simp only [sech, mul_zero, exp_zero]
    field_simp
    ring
  refine ⟨sech (1 / 2 * b * x), by simp [softEq, Sigmoid.evalDeriv, sech], key, ?_⟩
  rw [key]
  obtain ⟨h1, h2⟩ := sech_le (1 / 2 * b * x)
  have h3 : sech (1 / 2 * b * x) ≠ 1 := fun h => by
    have := sech_one h
    have h4 : b * x = 0 := by linarith
    rcases mul_eq_zero.1 h4 with h | h
    · exact hb.ne' h
    · exact hx h
  have h4 : sech (1 / 2 * b * x) < 1 := lt_of_le_of_ne h2 h3
  nlinarith

/-- Far from each other two numbers are equal with a probability as small as one likes. -/
theorem c91_soft_eq_far (b : ℝ) (hb : 0 < b) {ε : ℝ} (hε : 0 < ε) :
    ∃ d, ∀ x y, d ≤ |x - y| → ∃ p, softEq (.logistic b) x y = .ok p ∧ p < ε := by
  obtain ⟨N, hN⟩ := exists_nat_gt (2 / ε)
  have hNpos : 0 < (N : ℝ) := lt_trans (by positivity) hN
  refine ⟨2 * N / b, fun x y hd => ⟨sech (1 / 2 * b * (x - y)), rfl, ?_⟩⟩
  have habs : sech (1 / 2 * b * (x - y)) = sech (1 / 2 * b * |x - y|) := by
    rcases abs_choice (x - y) with h | h
    · rw [h]
    · rw [h, mul_neg, sech_neg]
  rw [habs]
  have hv : (N : ℝ) ≤ 1 / 2 * b * |x - y| := by
    rw [div_le_iff₀ hb] at hd
    linarith
  generalize 1 / 2 * b * |x - y| = v at hv
  have hev : v < exp v := lt_of_lt_of_le (by linarith) (add_one_le_exp v)
  have hpos := exp_pos v
  have h1 : sech v < 2 / exp v := by
    simp only [sech]
    rw [div_lt_div_iff₀ (by positivity) hpos]
    nlinarith
  have h2 : 2 / exp v ≤ ε := by
    rw [div_le_iff₀ hpos]
    rw [div_lt_iff₀ hε] at hN
    nlinarith
  linarith

/-- For unsigned integers `soft_gt` panics where the first number is less: the difference has no representation. -/
theorem c91_unsigned_false (s : Sigmoid) {k : IntTy} (hk : k.signed = false) {a b : Int} (h : a < b) : softGtInt s k a b = .panic := by
  have hlo : k.lo = 0 := by cases k <;> simp [IntTy.signed] at hk <;> rfl
  simp only [softGtInt]
  rw [if_neg]
  simp only [IntTy.fits, hlo, Bool.and_eq_true, decide_eq_true_eq, not_and]
  omega

example : 0 ≤ Sigmoid.default.beta := by norm_num [Sigmoid.default, Sigmoid.beta]
example : softGt Sigmoid.default 1 0 = 1 / (1 + exp (-1)) := by simp [softGt, Sigmoid.default, Sigmoid.eval]
example : softGt (.optimalMonotonic 1) 1 0 = 15 / 16 ∧ softGt (.optimalMonotonic 1) 0 1 = 1 / 16 := by
  constructor <;> norm_num [softGt, Sigmoid.eval]
example : softGt (.reciprocal 1) 1 0 = 5 / 6 := by norm_num [softGt, Sigmoid.eval]

/-! ## Tensors -/

theorem norm_nonneg {n : Nat} (x : Fin n → ℝ) : 0 ≤ norm x := Real.sqrt_nonneg _

theorem abs_dot_le {n : Nat} (x y : Fin n → ℝ) : |∑ i, x i * y i| ≤ norm x * norm y := by
  unfold norm
  rw [← Real.sqrt_mul (Finset.sum_nonneg (fun i _ => sq_nonneg _)), ← Real.sqrt_sq_eq_abs]
  exact Real.sqrt_le_sqrt (Finset.sum_mul_sq_le_sq_mul_sq _ _ _)

theorem abs_cosine_le (ε : ℝ) (hε : 0 < ε) {n : Nat} (x y : Fin n → ℝ) : |cosine ε x y| ≤ 1 := by
  have hx : 0 < max (norm x) ε := lt_max_of_lt_right hε
  have hy : 0 < max (norm y) ε := lt_max_of_lt_right hε
  unfold cosine
  rw [abs_div, abs_of_pos (mul_pos hx hy), div_le_one (mul_pos hx hy)]
  exact (abs_dot_le x y).trans (mul_le_mul (le_max_left _ _) (le_max_left _ _) (norm_nonneg y) hx.le)

/-- **C91**, tensors: `soft_eq` and `soft_neq` are symmetric, add up to one, and are 1/2 for orthogonal vectors. *Partial*: they are probabilities only if the cosine is between -1/2 and 1/2
(`c91_tensor_false`); in general they are between -1/2 and 3/2. -/
theorem c91_tensor_partial (ε : ℝ) (hε : 0 < ε) {n : Nat} (x y : Fin n → ℝ) :
    softEqTensor ε x y = softEqTensor ε y x ∧ softEqTensor ε x y + softNeqTensor ε x y = 1 ∧
    (∑ i, x i * y i = 0 → softEqTensor ε x y = 1 / 2) ∧
    (-(1 / 2) ≤ softEqTensor ε x y ∧ softEqTensor ε x y ≤ 3 / 2) ∧
    ((0 ≤ softEqTensor ε x y ∧ softEqTensor ε x y ≤ 1) ↔ |cosine ε x y| ≤ 1 / 2) := by
  have h := abs_le.mp (abs_cosine_le ε hε x y)
  refine ⟨?_, ?_, ?_, ?_, ?_⟩
  · unfold softEqTensor cosine
    rw [mul_comm (max (norm y) ε)]
    simp only [mul_comm (y _)]
  · unfold softEqTensor softNeqTensor
    norm_num
  · intro h0
    unfold softEqTensor cosine
    rw [h0]
    norm_num
  · unfold softEqTensor
    norm_num
    constructor <;> linarith
  · unfold softEqTensor
    rw [abs_le]
    norm_num
    constructor <;> rintro ⟨h1, h2⟩ <;> constructor <;> linarith

/-- **C91**, tensors: for every vector that is not tiny, `soft_eq` of it with itself is 3/2 and `soft_neq` is -1/2, *not* probabilities; with its opposite they are -1/2 and 3/2. -/
theorem c91_tensor_false (ε : ℝ) (hε : 0 < ε) {n : Nat} (x : Fin n → ℝ) (hx : ε ≤ norm x) :
    softEqTensor ε x x = 3 / 2 ∧ softNeqTensor ε x x = -(1 / 2) ∧ softEqTensor ε x (-x) = -(1 / 2) ∧ softNeqTensor ε x (-x) = 3 / 2 := by
  have hp : 0 < norm x := hε.trans_le hx
  have hs : ∑ i, x i * x i = norm x * norm x := by
    unfold norm
    rw [Real.mul_self_sqrt (Finset.sum_nonneg (fun i _ => sq_nonneg _))]
    simp only [sq]
  have hn : norm (-x) = norm x := by
    unfold norm
    simp
  have h1 : cosine ε x x = 1 := by
    unfold cosine
    rw [hs, max_eq_left hx]
    exact div_self (mul_pos hp hp).ne'
  have h2 : cosine ε x (-x) = -1 := by
    unfold cosine
    simp only [Pi.neg_apply, mul_neg, Finset.sum_neg_distrib]
    rw [hn, hs, max_eq_left hx, neg_div]
    rw [div_self (mul_pos hp hp).ne']
  unfold softEqTensor softNeqTensor
  rw [h1, h2]
  norm_num

/-- The hypotheses are met. -/
example : (1 : ℝ) / 100000000 ≤ norm (fun i : Fin 2 => if i = 0 then (3 : ℝ) else 4) := by
  have : norm (fun i : Fin 2 => if i = 0 then (3 : ℝ) else 4) = 5 := by
    unfold norm
    rw [Fin.sum_univ_two]
    norm_num
    rw [show (25 : ℝ) = 5 ^ 2 by norm_num]
    exact Real.sqrt_sq (by norm_num)
  rw [this]
  norm_num

end Scallop.Soft
