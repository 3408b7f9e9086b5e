import Mathlib.Data.Set.Finite.Lattice
import Mathlib.Data.Set.Finite.Lemmas
import Mathlib.Order.Interval.Set.Defs
import Mathlib.Order.Interval.Finset.Defs
import Mathlib.Data.Int.Interval
import Verif.Spec.Boundness
import Verif.Proof.Front2
import Verif.Proof.Front4

/-!
# Boundness analysis: places marked as bound take finitely many values
-/

namespace Scallop

variable {F : Type}

theorem sat_proper (k : IntTy) (n : Int) : k.lo ≤ k.sat n ∧ k.sat n ≤ k.hi := by
  have h : k.lo ≤ k.hi := by cases k <;> simp [IntTy.lo, IntTy.hi, IntTy.signed, IntTy.bits]
  unfold IntTy.sat
  split
  · exact ⟨le_refl _, h⟩
  · split
    · exact ⟨h, le_refl _⟩
    · omega

theorem fits_proper {k : IntTy} {n : Int} (h : k.fits n = true) : k.lo ≤ n ∧ n ≤ k.hi := by
  simpa [IntTy.fits] using h

theorem lo_le_zero (k : IntTy) : k.lo ≤ 0 ∧ 0 ≤ k.hi := by
  cases k <;> simp [IntTy.lo, IntTy.hi, IntTy.signed, IntTy.bits]

theorem tmod_between (a b : Int) : (0 ≤ a → 0 ≤ a.tmod b ∧ a.tmod b ≤ a) ∧ (a ≤ 0 → a ≤ a.tmod b ∧ a.tmod b ≤ 0) := by
  have key : ∀ n : Nat, (n : Int).tmod b ≤ n := by
    intro n
    rcases Int.le_total 0 b with h | h
    · obtain ⟨m, rfl⟩ := Int.eq_ofNat_of_zero_le h
      rw [← Int.ofNat_tmod]
      exact_mod_cast Nat.mod_le n m
    · obtain ⟨m, hm⟩ := Int.eq_ofNat_of_zero_le (show 0 ≤ -b by omega)
      have : b = -(m : Int) := by omega
      subst this
      rw [Int.tmod_neg]
      rw [← Int.ofNat_tmod]
      exact_mod_cast Nat.mod_le n m
  constructor
  · intro h
    refine ⟨Int.tmod_nonneg b h, ?_⟩
    obtain ⟨n, rfl⟩ := Int.eq_ofNat_of_zero_le h
    exact key n
  · intro h
    obtain ⟨n, hn⟩ := Int.eq_ofNat_of_zero_le (show 0 ≤ -a by omega)
    have : a = -(n : Int) := by omega
    subst this
    rw [Int.neg_tmod]
    have h1 := Int.tmod_nonneg b (Int.natCast_nonneg n)
    have h2 := key n
    omega

theorem evalInt_proper {op : BinOp} {k : IntTy} {a b : Int} {v : Val F} (ha : k.lo ≤ a ∧ a ≤ k.hi) (h : evalInt op k a b = .ok v) : v.Proper := by
  cases op <;> simp only [evalInt] at h
  case add => cases h; exact sat_proper k _
  case sub => cases h; exact sat_proper k _
  case mul =>
    split at h
    · rename_i hf; cases h; exact fits_proper hf
    · cases h
  case div =>
    split at h
    · cases h
    · split at h
      · rename_i hf; cases h; exact fits_proper hf
      · cases h
  case mod =>
    split at h
    · cases h
    · split at h
      · cases h
        have h0 := lo_le_zero k
        have h1 := tmod_between a b
        simp only [Val.Proper]
        rcases Int.le_total 0 a with h2 | h2
        · have := h1.1 h2; omega
        · have := h1.2 h2; omega
      · cases h
  all_goals first | (cases h; trivial) | (cases h)

theorem evalBin_proper {X : Ext F} {st : Stage} {op : BinOp} {a b v : Val F} (ha : a.Proper) (h : evalBin X st op a b = .ok v) : v.Proper := by
  cases a <;> cases b <;> simp only [evalBin] at h
  case int.int =>
    split at h
    · exact evalInt_proper ha h
    · cases h
  case float.float =>
    split at h
    · cases op <;> simp only [evalFloat] at h <;> first | (cases h; trivial) | (cases h) | skip
      split at h
      · cases h
      · cases h; trivial
    · cases h
  all_goals first | (cases h) | skip
  all_goals
    split at h <;> first | (cases h; trivial) | (cases h)

theorem evalUn_proper {X : Ext F} (hX : X.Proper) {st : Stage} {op : UnOp} {a v : Val F} (ha : a.Proper) (h : evalUn X st op a = .ok v) : v.Proper := by
  cases op with
  | neg =>
    cases a <;> simp only [evalUn] at h
    case int k n =>
      split at h
      · rename_i hf
        cases h
        exact fits_proper (by simp only [Bool.and_eq_true] at hf; exact hf.2)
      · cases h
    all_goals first | (cases h; trivial) | (cases h)
  | pos => simp only [evalUn] at h; cases h; exact ha
  | not => cases a <;> simp only [evalUn] at h <;> first | (cases h; trivial) | (cases h)
  | cast ty => exact hX.cast _ _ _ _ h

theorem proper_int_finite (F : Type) (k : IntTy) : {y : Val F | ∃ n, y = .int k n ∧ k.lo ≤ n ∧ n ≤ k.hi}.Finite := by
  refine Set.Finite.subset ((Set.finite_Icc k.lo k.hi).image (fun n => (Val.int k n : Val F))) ?_
  rintro y ⟨n, rfl, h1, h2⟩
  exact ⟨n, ⟨h1, h2⟩, rfl⟩

theorem float_finite [Finite F] (k : FloatTy) : {y : Val F | ∃ n, y = .float k n}.Finite := by
  refine Set.Finite.subset (Set.finite_range (fun n : F => (Val.float k n : Val F))) ?_
  rintro y ⟨n, rfl⟩
  exact ⟨n, rfl⟩

/-- Finitely many values equal a given one. -/
theorem eq_finite [Finite F] (X : Ext F) (x : Val F) :
    {y | evalBin X .run .eq x y = .ok (.bool true) ∨ evalBin X .run .eq y x = .ok (.bool true)}.Finite := by
  refine Set.Finite.subset ((Set.finite_singleton x).union ((float_finite .f32).union (float_finite .f64))) ?_
  intro y hy
  by_cases hfl : ∃ k n, y = .float k n
  · obtain ⟨k, n, rfl⟩ := hfl
    cases k <;> simp
  · left
    cases x <;> cases y <;> simp_all [evalBin, evalInt, evalFloat]
    all_goals grind

/-- Finitely many proper values give `z` when added to or subtracted from `x`. -/
theorem addSub_finite_right [Finite F] (X : Ext F) {op : BinOp} (hop : Front.isAddSub op = true) (x z : Val F) :
    {y | y.Proper ∧ evalBin X .run op x y = .ok z}.Finite := by
  cases x with
  | int k a =>
    refine (proper_int_finite F k).subset ?_
    rintro y ⟨h1, h2⟩
    cases y <;> simp only [evalBin] at h2 <;> first | (cases h2) | skip
    split at h2
    · subst_vars; exact ⟨_, rfl, h1⟩
    · cases h2
  | float k a =>
    refine (float_finite k).subset ?_
    rintro y ⟨h1, h2⟩
    cases y <;> simp only [evalBin] at h2 <;> first | (cases h2) | skip
    split at h2
    · subst_vars; exact ⟨_, rfl⟩
    · cases h2
  | string a =>
    refine Set.Subsingleton.finite ?_
    rintro y ⟨h1, h2⟩ y' ⟨h1', h2'⟩
    cases y <;> simp only [evalBin] at h2 <;> first | (cases h2) | skip
    cases y' <;> simp only [evalBin] at h2' <;> first | (cases h2') | skip
    cases op <;> simp [Front.isAddSub] at hop <;> simp at h2 h2'
    rename_i s s'
    subst h2
    simp at h2'
    rw [h2']
  | _ =>
    refine Set.Finite.subset Set.finite_empty ?_
    rintro y ⟨h1, h2⟩
    cases op <;> simp [Front.isAddSub] at hop <;> cases y <;> simp [evalBin] at h2

/-- The same for the other operand. -/
theorem addSub_finite_left [Finite F] (X : Ext F) {op : BinOp} (hop : Front.isAddSub op = true) (x z : Val F) :
    {y | y.Proper ∧ evalBin X .run op y x = .ok z}.Finite := by
  cases x with
  | int k a =>
    refine (proper_int_finite F k).subset ?_
    rintro y ⟨h1, h2⟩
    cases y <;> simp only [evalBin] at h2 <;> first | (cases h2) | skip
    split at h2
    · subst_vars; exact ⟨_, rfl, h1⟩
    · cases h2
  | float k a =>
    refine (float_finite k).subset ?_
    rintro y ⟨h1, h2⟩
    cases y <;> simp only [evalBin] at h2 <;> first | (cases h2) | skip
    split at h2
    · subst_vars; exact ⟨_, rfl⟩
    · cases h2
  | string a =>
    refine Set.Subsingleton.finite ?_
    rintro y ⟨h1, h2⟩ y' ⟨h1', h2'⟩
    cases y <;> simp only [evalBin] at h2 <;> first | (cases h2) | skip
    cases y' <;> simp only [evalBin] at h2' <;> first | (cases h2') | skip
    cases op <;> simp [Front.isAddSub] at hop <;> simp at h2 h2'
    rename_i s s'
    subst h2
    simp at h2'
    rw [h2']
  | _ =>
    refine Set.Finite.subset Set.finite_empty ?_
    rintro y ⟨h1, h2⟩
    cases op <;> simp [Front.isAddSub] at hop <;> cases y <;> simp [evalBin] at h2

end Scallop
