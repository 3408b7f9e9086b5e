import Mathlib.Order.Defs.LinearOrder
import Mathlib.Order.Compare

/-!
# Tuples

Models `/repo/core/src/common/generic_tuple.rs` (3-7, 48-57): a tuple is a value or a sequence of tuples. The order is the
derived one (`#[derive(PartialOrd, Ord)]` at line 3): values come before sequences, sequences are compared lexicographically.
Values are an arbitrary linear order `V`; the floating point value NaN, which `Value::cmp` (`value.rs` 106-113) treats as equal to
every number, is not modelled.
-/

namespace Scallop

/-- Models `enum GenericTuple` (`generic_tuple.rs` 3-7). -/
inductive Tup (V : Type*) where
  | val (v : V)
  | tup (ts : List (Tup V))

namespace Tup
variable {V : Type*}

/-- Models `Index<usize>` (`generic_tuple.rs` 48-57); `none` is a panic. -/
def at? : Tup V → Nat → Option (Tup V)
  | .val _, _ => none
  | .tup ts, i => ts[i]?

variable [LinearOrder V]

mutual
/-- Models the derived `Ord::cmp` of `GenericTuple` (`generic_tuple.rs` 3). -/
def cmp : Tup V → Tup V → Ordering
  | .val a, .val b => compare a b
  | .val _, .tup _ => .lt
  | .tup _, .val _ => .gt
  | .tup l, .tup m => cmpList l m
/-- Lexicographic comparison of slices. -/
def cmpList : List (Tup V) → List (Tup V) → Ordering
  | [], [] => .eq
  | [], _ :: _ => .lt
  | _ :: _, [] => .gt
  | a :: l, b :: m => (cmp a b).then (cmpList l m)
end

mutual
theorem cmp_eq : ∀ (a b : Tup V), cmp a b = .eq ↔ a = b
  | .val a, .val b => by simp [cmp]
  | .val _, .tup _ => by simp [cmp]
  | .tup _, .val _ => by simp [cmp]
  | .tup l, .tup m => by simp [cmp, cmpList_eq l m]
theorem cmpList_eq : ∀ (l m : List (Tup V)), cmpList l m = .eq ↔ l = m
  | [], [] => by simp [cmpList]
  | [], _ :: _ => by simp [cmpList]
  | _ :: _, [] => by simp [cmpList]
  | a :: l, b :: m => by simp [cmpList, Ordering.then_eq_eq, cmp_eq a b, cmpList_eq l m]
end

mutual
theorem cmp_swap : ∀ (a b : Tup V), (cmp a b).swap = cmp b a
  | .val a, .val b => by
    simp only [cmp]
    rcases lt_trichotomy a b with h | h | h
    · rw [compare_lt_iff_lt.mpr h, compare_gt_iff_gt.mpr h]; rfl
    · rw [h, compare_eq_iff_eq.mpr rfl]; rfl
    · rw [compare_lt_iff_lt.mpr h, compare_gt_iff_gt.mpr h]; rfl
  | .val _, .tup _ => by simp [cmp]
  | .tup _, .val _ => by simp [cmp]
  | .tup l, .tup m => by simp [cmp, cmpList_swap l m]
theorem cmpList_swap : ∀ (l m : List (Tup V)), (cmpList l m).swap = cmpList m l
  | [], [] => by simp [cmpList]
  | [], _ :: _ => by simp [cmpList]
  | _ :: _, [] => by simp [cmpList]
  | a :: l, b :: m => by simp [cmpList, Ordering.swap_then, cmp_swap a b, cmpList_swap l m]
end

mutual
theorem cmp_trans : ∀ (a b d : Tup V), cmp a b = .lt → cmp b d = .lt → cmp a d = .lt
  | .val a, .val b, .val d => by
    simp only [cmp, compare_lt_iff_lt]; exact lt_trans
  | .val _, .val _, .tup _ => by simp [cmp]
  | .val _, .tup _, .val _ => by simp [cmp]
  | .val _, .tup _, .tup _ => by simp [cmp]
  | .tup _, .val _, .val _ => by simp [cmp]
  | .tup _, .val _, .tup _ => by simp [cmp]
  | .tup _, .tup _, .val _ => by simp [cmp]
  | .tup l, .tup m, .tup n => by simpa [cmp] using cmpList_trans l m n
theorem cmpList_trans : ∀ (l m n : List (Tup V)), cmpList l m = .lt → cmpList m n = .lt → cmpList l n = .lt
  | [], [], [] => by simp [cmpList]
  | [], [], _ :: _ => by simp [cmpList]
  | [], _ :: _, [] => by simp [cmpList]
  | [], _ :: _, _ :: _ => by simp [cmpList]
  | _ :: _, [], [] => by simp [cmpList]
  | _ :: _, [], _ :: _ => by simp [cmpList]
  | _ :: _, _ :: _, [] => by simp [cmpList]
  | a :: l, b :: m, d :: n => by
    simp only [cmpList, Ordering.then_eq_lt]
    rintro (h1 | ⟨h1, h1'⟩) (h2 | ⟨h2, h2'⟩)
    · exact Or.inl (cmp_trans a b d h1 h2)
    · rw [← (cmp_eq b d).mp h2]; exact Or.inl h1
    · rw [(cmp_eq a b).mp h1]; exact Or.inl h2
    · rw [(cmp_eq a b).mp h1]; exact Or.inr ⟨h2, cmpList_trans l m n h1' h2'⟩
end

instance : DecidableEq (Tup V) := fun a b => decidable_of_iff (cmp a b = .eq) (cmp_eq a b)

instance : LT (Tup V) := ⟨fun a b => cmp a b = .lt⟩
instance : LE (Tup V) := ⟨fun a b => cmp a b ≠ .gt⟩

theorem lt_def (a b : Tup V) : a < b ↔ cmp a b = .lt := Iff.rfl
theorem le_def (a b : Tup V) : a ≤ b ↔ cmp a b ≠ .gt := Iff.rfl

instance : DecidableLT (Tup V) := fun a b => inferInstanceAs (Decidable (cmp a b = .lt))
instance : DecidableLE (Tup V) := fun a b => inferInstanceAs (Decidable (cmp a b ≠ .gt))

theorem cmp_gt_iff (a b : Tup V) : cmp a b = .gt ↔ cmp b a = .lt := by
  rw [← cmp_swap a b]; cases cmp a b <;> simp

theorem le_iff' (a b : Tup V) : a ≤ b ↔ a < b ∨ a = b := by
  rw [le_def, lt_def, ← cmp_eq]; cases cmp a b <;> simp

instance : LinearOrder (Tup V) where
  le_refl a := by rw [le_def, (cmp_eq a a).mpr rfl]; simp
  le_trans a b d h1 h2 := by
    rw [le_iff'] at *
    rcases h1 with h1 | rfl
    · rcases h2 with h2 | rfl
      · exact Or.inl (cmp_trans a b d h1 h2)
      · exact Or.inl h1
    · exact h2
  le_antisymm a b h1 h2 := by
    rw [le_iff'] at h1
    rcases h1 with h1 | h1
    · exact absurd ((cmp_gt_iff b a).mpr h1) h2
    · exact h1
  le_total a b := by
    by_cases h : a ≤ b
    · exact Or.inl h
    · right
      rw [le_def, not_not, cmp_gt_iff] at h
      rw [le_iff']; exact Or.inl h
  lt_iff_le_not_ge a b := by
    rw [lt_def, le_def, le_def, not_not, cmp_gt_iff]
    constructor
    · intro h; exact ⟨by rw [h]; simp, h⟩
    · exact fun h => h.2
  toDecidableLE := inferInstance
  toDecidableLT := inferInstance
  toDecidableEq := inferInstance

/-- The order looks at the first component first. -/
theorem at0_mono {a b x y : Tup V} (hx : a.at? 0 = some x) (hy : b.at? 0 = some y) (h : a ≤ b) : x ≤ y := by
  cases a with
  | val v => simp [at?] at hx
  | tup l =>
    cases b with
    | val v => simp [at?] at hy
    | tup m =>
      cases l with
      | nil => simp [at?] at hx
      | cons p l =>
        cases m with
        | nil => simp [at?] at hy
        | cons q m =>
          simp only [at?, List.getElem?_cons_zero, Option.some.injEq] at hx hy
          subst hx hy
          rw [le_def] at h ⊢
          intro hc
          apply h
          simp [cmp, cmpList, hc]

end Tup
end Scallop
