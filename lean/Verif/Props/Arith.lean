import Verif.Proof.Front5
import Verif.Props.Back
import Mathlib.Tactic.Ring

/-!
# Arithmetic: the properties

C34 (the extra assignments that invert `+` and `-`), C64 (what the operators compute).
-/

namespace Scallop.Front

open Scallop.Back (Term Atom AExpr COp Lit Head Rule noExt)

variable {F : Type}

/-- The integer can be represented in the type. -/
def InRange (k : IntTy) (n : Int) : Prop := k.lo ≤ n ∧ n ≤ k.hi

instance (k : IntTy) (n : Int) : Decidable (InRange k n) := inferInstanceAs (Decidable (_ ∧ _))

theorem sat_of_inRange {k : IntTy} {n : Int} (h : InRange k n) : k.sat n = n := by
  unfold IntTy.sat
  rw [if_neg (by have := h.1; omega), if_neg (by have := h.2; omega)]

/-! ## C64: operators -/

/-- `r` is the representable integer nearest to `n`. -/
def Nearest (k : IntTy) (n r : Int) : Prop := InRange k r ∧ ∀ m, InRange k m → |n - r| ≤ |n - m|

theorem lo_le_hi (k : IntTy) : k.lo ≤ k.hi := by cases k <;> decide

theorem sat_nearest (k : IntTy) (n : Int) : Nearest k n (k.sat n) := by
  have h := lo_le_hi k
  unfold IntTy.sat
  split
  · refine ⟨⟨Int.le_refl _, h⟩, fun m hm => ?_⟩
    have := hm.1
    rw [abs_of_nonpos (by omega), abs_of_nonpos (by omega)]
    omega
  · split
    · refine ⟨⟨h, Int.le_refl _⟩, fun m hm => ?_⟩
      have := hm.2
      rw [abs_of_nonneg (by omega), abs_of_nonneg (by omega)]
      omega
    · refine ⟨⟨by omega, by omega⟩, fun m hm => ?_⟩
      simp

/-- **C64**: the sum and the difference of two integers of one type is always defined, and is the representable integer nearest to the exact
one, hence exact whenever that is representable. -/
theorem c64_add_sub (X : Ext F) (st : Stage) (k : IntTy) (a b : Int) :
    (∃ r, evalBin X st .add (.int k a) (.int k b) = .ok (.int k r) ∧ Nearest k (a + b) r ∧ (InRange k (a + b) → r = a + b)) ∧
    (∃ r, evalBin X st .sub (.int k a) (.int k b) = .ok (.int k r) ∧ Nearest k (a - b) r ∧ (InRange k (a - b) → r = a - b)) :=
  ⟨⟨_, by simp [evalBin, evalInt], sat_nearest k _, fun h => sat_of_inRange h⟩, ⟨_, by simp [evalBin, evalInt], sat_nearest k _, fun h => sat_of_inRange h⟩⟩

/-- Addition is not associative where it saturates: in 8 bits, (100 + 100) + -100 is 27, and 100 + (100 + -100) is 100. -/
theorem c64_add_not_associative : ∃ a b c ab bc l r : Val Empty, evalBin noExt .run .add a b = .ok ab ∧ evalBin noExt .run .add ab c = .ok l ∧
    evalBin noExt .run .add b c = .ok bc ∧ evalBin noExt .run .add a bc = .ok r ∧ l ≠ r :=
  ⟨.int .i8 100, .int .i8 100, .int .i8 (-100), .int .i8 127, .int .i8 0, .int .i8 27, .int .i8 100, by decide +kernel, by decide +kernel,
    by decide +kernel, by decide +kernel, by decide +kernel⟩

/-- **C64**: a product is exact; it is defined exactly when it can be represented. -/
theorem c64_mul (X : Ext F) (st : Stage) (k : IntTy) (a b : Int) (v : Val F) :
    evalBin X st .mul (.int k a) (.int k b) = .ok v ↔ InRange k (a * b) ∧ v = .int k (a * b) := by
  simp only [evalBin, if_true, evalInt, IntTy.fits, InRange, Bool.and_eq_true, decide_eq_true_eq]
  split <;> simp_all [eq_comm]

example : evalBin noExt .run .mul (.int .u8 15) (.int .u8 17) = .ok (.int .u8 255) := by decide +kernel

/-- **C64**: quotient and remainder: if both are defined, `a = b * q + r`, the remainder is smaller than the divisor and does not have the
sign opposite to that of the dividend. -/
theorem c64_div_mod (X : Ext F) (st : Stage) (k : IntTy) (a b q r : Int) (hq : evalBin X st .div (.int k a) (.int k b) = .ok (.int k q))
    (hr : evalBin X st .mod (.int k a) (.int k b) = .ok (.int k r)) :
    a = b * q + r ∧ |r| < |b| ∧ (0 ≤ a → 0 ≤ r) ∧ (a ≤ 0 → r ≤ 0) := by
  simp only [evalBin, if_true, evalInt] at hq hr
  split at hq
  · simp at hq
  · rename_i hb
    split at hq
    · rename_i hf
      rw [if_neg hb, if_pos hf] at hr
      simp only [Outcome.ok.injEq, Val.int.injEq, true_and] at hq hr
      subst hq hr
      refine ⟨(Int.mul_tdiv_add_tmod a b).symm, ?_, fun h => Int.tmod_nonneg b h, fun h => ?_⟩
      · rw [Int.abs_eq_natAbs, Int.abs_eq_natAbs, Int.natAbs_tmod]
        exact_mod_cast Nat.mod_lt _ (by omega)
      · have := Int.tmod_nonneg (a := -a) b (by omega)
        rw [Int.neg_tmod] at this
        omega
    · simp at hq

/-- **C64**: quotient and remainder are defined unless the divisor is 0 or the quotient cannot be represented. -/
theorem c64_div_defined (X : Ext F) (st : Stage) (k : IntTy) (a b : Int) (hb : b ≠ 0) (h : InRange k (a.tdiv b)) :
    (∃ q, evalBin X st .div (.int k a) (.int k b) = .ok (.int k q)) ∧ (∃ r, evalBin X st .mod (.int k a) (.int k b) = .ok (.int k r)) := by
  have hf : k.fits (a.tdiv b) = true := by simpa [IntTy.fits, InRange] using h
  simp [evalBin, evalInt, hb, hf]

/-- Dividing the smallest integer by -1 and dividing by 0 panic. -/
theorem c64_div_panics : evalBin noExt .run .div (.int .i8 (-128)) (.int .i8 (-1)) = .panic ∧ evalBin noExt .run .div (.int .i8 1) (.int .i8 0) = .panic ∧
    evalBin noExt .run .mod (.int .i8 1) (.int .i8 0) = .panic := by decide +kernel

example : evalBin noExt .run .div (.int .i8 (-7)) (.int .i8 2) = .ok (.int .i8 (-3)) ∧
    evalBin noExt .run .mod (.int .i8 (-7)) (.int .i8 2) = .ok (.int .i8 (-1)) := by decide +kernel

/-- **C64**: dividing numbers with decimals never gives NaN, and gives the quotient otherwise. -/
theorem c64_float_div (X : Ext F) (st : Stage) (k : FloatTy) (a b : F) (v : Val F) :
    evalBin X st .div (.float k a) (.float k b) = .ok v ↔ v = .float k (X.fdiv a b) ∧ X.isNan (X.fdiv a b) = false := by
  simp only [evalBin, evalFloat, if_true]
  split <;> rename_i h <;> simp [h, eq_comm]

/-- **C64**: comparisons of integers of one type are those of the integers. -/
theorem c64_compare (X : Ext F) (st : Stage) (k : IntTy) (a b : Int) (t : Bool) :
    (evalBin X st .eq (.int k a) (.int k b) = .ok (.bool t) ↔ (t = true ↔ a = b)) ∧
    (evalBin X st .neq (.int k a) (.int k b) = .ok (.bool t) ↔ (t = true ↔ a ≠ b)) ∧
    (evalBin X st .lt (.int k a) (.int k b) = .ok (.bool t) ↔ (t = true ↔ a < b)) ∧
    (evalBin X st .leq (.int k a) (.int k b) = .ok (.bool t) ↔ (t = true ↔ a ≤ b)) ∧
    (evalBin X st .gt (.int k a) (.int k b) = .ok (.bool t) ↔ (t = true ↔ a > b)) ∧
    (evalBin X st .geq (.int k a) (.int k b) = .ok (.bool t) ↔ (t = true ↔ a ≥ b)) := by
  simp only [evalBin, if_true, evalInt, Outcome.ok.injEq, Val.bool.injEq, gt_iff_lt, ge_iff_le]
  cases t <;> simp

/-- **C64**: logical operators on booleans, concatenation of strings, and equality of booleans, characters, strings, symbols and entities. -/
theorem c64_other (X : Ext F) :
    (∀ st a b, evalBin X st .and (.bool a) (.bool b) = .ok (.bool (a && b)) ∧ evalBin X st .or (.bool a) (.bool b) = .ok (.bool (a || b)) ∧
      evalBin X st .xor (.bool a) (.bool b) = .ok (.bool (a != b)) ∧ evalUn X st .not (.bool a) = .ok (.bool (!a))) ∧
    (∀ st a b, evalBin X st .add (.string a) (.string b) = .ok (.string (a ++ b))) ∧
    (∀ v w : Val F, (∀ k x, v ≠ .float k x) → ∀ t, evalBin X .run .eq v w = .ok (.bool t) → (t = true ↔ v = w)) ∧
    (∀ v w : Val F, (∀ k x, v ≠ .float k x) → ∀ t, evalBin X .run .neq v w = .ok (.bool t) → (t = true ↔ v ≠ w)) := by
  refine ⟨fun st a b => ⟨rfl, rfl, by cases a <;> cases b <;> rfl, rfl⟩, fun _ _ _ => rfl, ?_, ?_⟩
  · intro v w hv t h
    cases v with
    | float k x => exact absurd rfl (hv k x)
    | _ =>
      cases w <;> simp only [evalBin, evalInt] at h <;> (try split at h) <;> simp only [Outcome.ok.injEq, Val.bool.injEq, reduceCtorEq] at h <;>
        (subst h; simp_all)
  · intro v w hv t h
    cases v with
    | float k x => exact absurd rfl (hv k x)
    | _ =>
      cases w <;> simp only [evalBin, evalInt] at h <;> (try split at h) <;> simp only [Outcome.ok.injEq, Val.bool.injEq, reduceCtorEq] at h <;>
        (subst h; simp_all)

/-- **C64**: operators never mix types: operands of different kinds make the evaluation panic. -/
theorem c64_no_mixing (X : Ext F) (st : Stage) (op : BinOp) (k k' : IntTy) (hk : k ≠ k') (a b : Int) :
    evalBin X st op (.int k a) (.int k' b) = .panic := by
  simp [evalBin, hk]

/-- **C64**: an integer computed from representable ones can be represented in its type. -/
theorem c64_closed (X : Ext F) (st : Stage) (op : BinOp) (k k' k'' : IntTy) (a b r : Int) (ha : InRange k a) (_hb : InRange k' b)
    (h : evalBin X st op (.int k a) (.int k' b) = .ok (.int k'' r)) : k'' = k ∧ InRange k r := by
  simp only [evalBin] at h
  split at h
  · rename_i e
    subst e
    cases op <;> simp only [evalInt] at h
    · simp only [Outcome.ok.injEq, Val.int.injEq] at h
      exact ⟨h.1.symm, h.2 ▸ (sat_nearest k _).1⟩
    · simp only [Outcome.ok.injEq, Val.int.injEq] at h
      exact ⟨h.1.symm, h.2 ▸ (sat_nearest k _).1⟩
    · split at h
      · rename_i hf
        simp only [Outcome.ok.injEq, Val.int.injEq] at h
        exact ⟨h.1.symm, h.2 ▸ by simpa [IntTy.fits, InRange] using hf⟩
      · simp at h
    · split at h
      · simp at h
      · split at h
        · rename_i hf
          simp only [Outcome.ok.injEq, Val.int.injEq] at h
          exact ⟨h.1.symm, h.2 ▸ by simpa [IntTy.fits, InRange] using hf⟩
        · simp at h
    · split at h
      · simp at h
      · split at h
        · simp only [Outcome.ok.injEq, Val.int.injEq] at h
          refine ⟨h.1.symm, h.2 ▸ ?_⟩
          have hlo : k.lo ≤ 0 := by cases k <;> decide
          have hhi : 0 ≤ k.hi := by cases k <;> decide
          have h1 := ha.1
          have h2 := ha.2
          rcases Int.le_total 0 a with h0 | h0
          · have h3 := Int.tmod_nonneg b h0
            have h4 : a.tmod b ≤ a := by
              have h5 : (a.tmod b).natAbs ≤ a.natAbs := by rw [Int.natAbs_tmod]; exact Nat.mod_le _ _
              omega
            exact ⟨by omega, by omega⟩
          · have h3 := Int.tmod_nonneg (a := -a) b (by omega)
            rw [Int.neg_tmod] at h3
            have h5 : (a.tmod b).natAbs ≤ a.natAbs := by rw [Int.natAbs_tmod]; exact Nat.mod_le _ _
            exact ⟨by omega, by omega⟩
        · simp at h
    all_goals simp at h
  · simp at h

/-! ## C34: inverted arithmetic -/

/-- **C34 (partial)**: for `left = t₁ + t₂`, each of the extra assignments that compute an operand from the other two holds exactly when the
written one does, as long as no sum or difference leaves the range of the type. -/
theorem c34_add_partial (X : Ext F) (D : DB F) (G : Aggs F) (V : Name → Prop) (σ : Name → Val F) (left : Name) (t₁ t₂ : Term Name F)
    (k : IntTy) (a b c : Int) (h₁ : t₁.val σ = .int k a) (h₂ : t₂.val σ = .int k b) (hl : σ left = .int k c)
    (r₁ : InRange k (a + b)) (r₂ : InRange k (c - a)) (r₃ : InRange k (c - b)) :
    ∀ h ∈ hints left .add t₁ t₂, LitHolds X D G V σ h.lit ↔ LitHolds X D G V σ (.assign left (.bin .add t₁ t₂)) := by
  have key : LitHolds X D G V σ (.assign left (.bin .add t₁ t₂)) ↔ a + b = c := by
    simp [LitHolds, AExpr.val, h₁, h₂, hl, evalBin, evalInt, sat_of_inRange r₁]
  intro h hh
  rw [key]
  cases t₁ with
  | const u =>
    cases t₂ with
    | const w => simp [hints, invOp] at hh
    | var z =>
      simp [hints, invOp] at hh
      subst hh
      simp only [Term.val] at h₁ h₂
      simp [LitHolds, AExpr.val, Term.val, h₁, h₂, hl, evalBin, evalInt, sat_of_inRange r₂]
      omega
  | var w =>
    cases t₂ with
    | const u =>
      simp [hints, invOp] at hh
      subst hh
      simp only [Term.val] at h₁ h₂
      simp [LitHolds, AExpr.val, Term.val, h₁, h₂, hl, evalBin, evalInt, sat_of_inRange r₃]
      omega
    | var z =>
      simp [hints, invOp] at hh
      simp only [Term.val] at h₁ h₂
      rcases hh with rfl | rfl
      · simp [LitHolds, AExpr.val, Term.val, h₁, h₂, hl, evalBin, evalInt, sat_of_inRange r₃]
        omega
      · simp [LitHolds, AExpr.val, Term.val, h₁, h₂, hl, evalBin, evalInt, sat_of_inRange r₂]
        omega

/-- `z = x + y` produces two extra assignments, for `x` and for `y`. -/
example : (hints (F := Empty) (.user "z") .add (.var (.user "x")) (.var (.user "y"))).map FLit.lit =
    [.assign (.user "x") (.bin .sub (.var (.user "z")) (.var (.user "y"))), .assign (.user "y") (.bin .sub (.var (.user "z")) (.var (.user "x")))] := rfl
example : InRange .i32 (3 + 4) ∧ InRange .i32 (7 - 3) ∧ InRange .i32 (7 - 4) := by decide

/-- **C34 (partial)**: for `left = x - t₂`, the extra assignment that computes `x` holds exactly when the written one does, as long as no
sum or difference leaves the range of the type. -/
theorem c34_sub_partial (X : Ext F) (D : DB F) (G : Aggs F) (V : Name → Prop) (σ : Name → Val F) (left x : Name) (t₂ : Term Name F)
    (k : IntTy) (a b c : Int) (h₁ : σ x = .int k a) (h₂ : t₂.val σ = .int k b) (hl : σ left = .int k c)
    (r₁ : InRange k (a - b)) (r₂ : InRange k (c + b)) :
    ∃ h rest, hints left .sub (.var x) t₂ = h :: rest ∧ (∃ e, h.lit = .assign x e) ∧
      (LitHolds X D G V σ h.lit ↔ LitHolds X D G V σ (.assign left (.bin .sub (.var x) t₂))) := by
  refine ⟨⟨.assign x (.bin .add (.var left) t₂), true⟩, _, rfl, ⟨_, rfl⟩, ?_⟩
  have h₁' : (Term.var x : Term Name F).val σ = .int k a := h₁
  have hl' : (Term.var left : Term Name F).val σ = .int k c := hl
  simp [LitHolds, AExpr.val, h₁', hl', h₁, h₂, hl, evalBin, evalInt, sat_of_inRange r₁, sat_of_inRange r₂]
  omega

/-- Finding: for `left = x - y`, the extra assignment that computes `y` is `y = left + x` instead of `y = x - left`. Whenever it agrees with
the written assignment, `left` is 0. -/
theorem c34_sub_second_operand (X : Ext F) (D : DB F) (G : Aggs F) (V : Name → Prop) (σ : Name → Val F) (left x y : Name)
    (k : IntTy) (a b c : Int) (h₁ : σ x = .int k a) (h₂ : σ y = .int k b) (hl : σ left = .int k c)
    (r₁ : InRange k (a - b)) (r₂ : InRange k (c + a)) :
    ∃ h ∈ hints (F := F) left .sub (.var x) (.var y), (∃ e, h.lit = .assign y e) ∧
      (LitHolds X D G V σ h.lit → LitHolds X D G V σ (.assign left (.bin .sub (.var x) (.var y))) → c = 0) := by
  refine ⟨⟨.assign y (.bin .add (.var left) (.var x)), true⟩, by simp [hints, invOp], ⟨_, rfl⟩, ?_⟩
  simp [LitHolds, AExpr.val, Term.val, h₁, h₂, hl, evalBin, evalInt, sat_of_inRange r₁, sat_of_inRange r₂]
  omega

/-- Finding, concretely: from `z = x - y` with `x = 5` and `z = 2`, the value computed for `y` is 7, and `5 - 7` is not 2. -/
theorem c34_sub_false : ∃ σ : Name → Val Empty, ∃ h ∈ hints (F := Empty) (.user "z") .sub (.var (.user "x")) (.var (.user "y")),
    (∃ e, h.lit = .assign (.user "y") e) ∧ ∀ D G V, LitHolds noExt D G V σ h.lit ∧
      ¬ LitHolds noExt D G V σ (.assign (.user "z") (.bin .sub (.var (.user "x")) (.var (.user "y")))) := by
  refine ⟨fun v => if v = .user "x" then .int .i32 5 else if v = .user "z" then .int .i32 2 else .int .i32 7,
    ⟨.assign (.user "y") (.bin .add (.var (.user "z")) (.var (.user "x"))), true⟩, by simp [hints, invOp], ⟨_, rfl⟩, fun D G V => ?_⟩
  simp only [LitHolds, AExpr.val, Term.val]
  decide +kernel

/-- Finding: with saturation an inverted addition gives a wrong operand: in 8 bits, from `z = x + y` with `y = 100` and `z = -100`, the value
computed for `x` is -128, and `-128 + 100` is not -100. -/
theorem c34_saturation : ∃ σ : Name → Val Empty, ∃ h ∈ hints (F := Empty) (.user "z") .add (.var (.user "x")) (.var (.user "y")),
    (∃ e, h.lit = .assign (.user "x") e) ∧ ∀ D G V, LitHolds noExt D G V σ h.lit ∧
      ¬ LitHolds noExt D G V σ (.assign (.user "z") (.bin .add (.var (.user "x")) (.var (.user "y")))) := by
  refine ⟨fun v => if v = .user "x" then .int .i8 (-128) else if v = .user "z" then .int .i8 (-100) else .int .i8 100,
    ⟨.assign (.user "x") (.bin .sub (.var (.user "z")) (.var (.user "y"))), true⟩, by simp [hints, invOp], ⟨_, rfl⟩, fun D G V => ?_⟩
  simp only [LitHolds, AExpr.val, Term.val]
  decide +kernel

/-- Finding: the extra assignments are also made for the concatenation of strings, where subtraction panics. -/
theorem c34_strings (X : Ext F) (s t : String) : evalBin X .run .sub (.string s : Val F) (.string t) = .panic := rfl

end Scallop.Front
