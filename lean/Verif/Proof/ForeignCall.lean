import Verif.Proof.Foreign
import Verif.Spec.TypeInfer

/-! # Calls of the standard functions: lemmas -/

namespace Scallop.Foreign

open Ty

variable {F : Type}

theorem ascii_size {c : Char} (h : c.toNat < 128) : c.utf8Size = 1 := by
  have h' : c.val ≤ 0x7F := by
    have : c.val.toNat < 128 := h
    rw [UInt32.le_iff_toNat_le]
    simpa using Nat.lt_succ_iff.1 this
  simp [Char.utf8Size, h']

/-- The value of one argument of a generic type. -/
theorem fit_generic {t : TSet} {v : Val F} {vs : List (Val F)} {r : RetTy} {sts : List ArgTy}
    (h : ArgsFit ⟨[t], .generic 0 :: sts, [], none, r⟩ (v :: vs)) : t.contains v.ty = true :=
  h.family 0 v 0 t rfl (by simp [FunTy.argTy]) rfl

theorem numeric_cases {v : Val F} (h : TSet.numeric.contains v.ty = true) : (∃ k n, v = .int k n) ∨ ∃ k x, v = .float k x := by
  cases v <;> simp_all [TSet.contains, Val.ty, VTy.isNumeric, VTy.isInt, VTy.isFloat]

theorem float_cases {v : Val F} (h : TSet.float.contains v.ty = true) : ∃ k x, v = .float k x := by
  cases v <;> simp_all [TSet.contains, Val.ty, VTy.isFloat]

theorem integer_cases {v : Val F} (h : TSet.integer.contains v.ty = true) : ∃ k n, v = .int k n := by
  cases v <;> simp_all [TSet.contains, Val.ty, VTy.isInt]

theorem pickFrom_mem {α : Type} {conv : Val F → Option α} {better : α → α → Bool} {vs : List (Val F)} {cur m : α}
    (h : pickFrom conv better cur vs = some m) : m = cur ∨ ∃ v ∈ vs, conv v = some m := by
  induction vs generalizing cur with
  | nil => simp only [pickFrom, Option.some.injEq] at h; exact Or.inl h.symm
  | cons v vs ih =>
    simp only [pickFrom, Option.bind_eq_some_iff] at h
    obtain ⟨x, hx, h⟩ := h
    rcases ih h with h | ⟨w, hw, h⟩
    · split at h
      · exact Or.inr ⟨v, List.mem_cons_self, by rw [hx, h]⟩
      · exact Or.inl h
    · exact Or.inr ⟨w, List.mem_cons_of_mem _ hw, h⟩

theorem pick_mem {α : Type} {conv : Val F → Option α} {better : α → α → Bool} {vs : List (Val F)} {m : α}
    (h : pick conv better vs = some m) : ∃ v ∈ vs, conv v = some m := by
  cases vs with
  | nil => simp [pick] at h
  | cons v vs =>
    simp only [pick, Option.bind_eq_some_iff] at h
    obtain ⟨x, hx, h⟩ := h
    rcases pickFrom_mem h with h | ⟨w, hw, h⟩
    · exact ⟨v, List.mem_cons_self, by rw [hx, h]⟩
    · exact ⟨w, List.mem_cons_of_mem _ hw, h⟩

/-- What is chosen is not beaten, if "not better" is transitive. -/
theorem pickFrom_best {α : Type} {conv : Val F → Option α} {better : α → α → Bool} (irr : ∀ a, better a a = false)
    (asym : ∀ a b, better a b = true → better b a = false)
    (tr : ∀ a b c, better a b = false → better b c = false → better a c = false) {vs : List (Val F)} {cur m : α}
    (h : pickFrom conv better cur vs = some m) : better cur m = false ∧ ∀ v ∈ vs, ∀ x, conv v = some x → better x m = false := by
  induction vs generalizing cur with
  | nil => simp only [pickFrom, Option.some.injEq] at h; subst h; simp [irr]
  | cons v vs ih =>
    simp only [pickFrom, Option.bind_eq_some_iff] at h
    obtain ⟨x, hx, h⟩ := h
    obtain ⟨h1, h2⟩ := ih h
    have hcur : better cur m = false ∧ better x m = false := by
      split at h1
      · next hb => exact ⟨tr _ _ _ (asym _ _ hb) h1, h1⟩
      · next hb => exact ⟨h1, tr _ _ _ (by simpa using hb) h1⟩
    refine ⟨hcur.1, fun w hw y hy => ?_⟩
    rcases List.mem_cons.1 hw with rfl | hw
    · rw [hx] at hy
      simp only [Option.some.injEq] at hy
      subst hy
      exact hcur.2
    · exact h2 w hw y hy

theorem pick_best {α : Type} {conv : Val F → Option α} {better : α → α → Bool} (irr : ∀ a, better a a = false)
    (asym : ∀ a b, better a b = true → better b a = false)
    (tr : ∀ a b c, better a b = false → better b c = false → better a c = false) {vs : List (Val F)} {m : α}
    (h : pick conv better vs = some m) : ∀ v ∈ vs, ∀ x, conv v = some x → better x m = false := by
  cases vs with
  | nil => simp
  | cons v vs =>
    simp only [pick, Option.bind_eq_some_iff] at h
    obtain ⟨x, hx, h⟩ := h
    obtain ⟨h1, h2⟩ := pickFrom_best irr asym tr h
    intro w hw y hy
    rcases List.mem_cons.1 hw with rfl | hw
    · rw [hx] at hy
      simp only [Option.some.injEq] at hy
      subst hy
      exact h1
    · exact h2 w hw y hy

theorem pickFrom_total {α : Type} {conv : Val F → Option α} {better : α → α → Bool} {vs : List (Val F)}
    (h : ∀ v ∈ vs, ∃ x, conv v = some x) (cur : α) : ∃ m, pickFrom conv better cur vs = some m := by
  induction vs generalizing cur with
  | nil => exact ⟨cur, rfl⟩
  | cons v vs ih =>
    obtain ⟨x, hx⟩ := h v List.mem_cons_self
    simp only [pickFrom, hx, Option.bind_some]
    exact ih (fun w hw => h w (List.mem_cons_of_mem _ hw)) _

theorem pick_total {α : Type} {conv : Val F → Option α} {better : α → α → Bool} {vs : List (Val F)}
    (h : ∀ v ∈ vs, ∃ x, conv v = some x) (hne : vs ≠ []) : ∃ m, pick conv better vs = some m := by
  cases vs with
  | nil => exact absurd rfl hne
  | cons v vs =>
    obtain ⟨x, hx⟩ := h v List.mem_cons_self
    simp only [pick, hx, Option.bind_some]
    exact pickFrom_total (fun w hw => h w (List.mem_cons_of_mem _ hw)) _

theorem callConcat_eq {vs : List (Val F)} {acc : List Char} (ss : List String) (h : vs = ss.map .string) :
    callConcat vs acc = .ok (.string (String.ofList (acc ++ (ss.map String.toList).flatten))) := by
  induction ss generalizing vs acc with
  | nil => subst h; simp [callConcat]
  | cons s ss ih =>
    subst h
    simp only [List.map_cons, callConcat]
    rw [ih rfl]
    simp

theorem string_args {vs : List (Val F)} (h : ∀ v ∈ vs, v.ty = .string) : ∃ ss : List String, vs = ss.map .string := by
  induction vs with
  | nil => exact ⟨[], rfl⟩
  | cons v vs ih =>
    obtain ⟨ss, rfl⟩ := ih fun w hw => h w (List.mem_cons_of_mem _ hw)
    have := h v List.mem_cons_self
    cases v <;> simp [Val.ty] at this
    exact ⟨_ :: ss, rfl⟩

theorem split_ne_nil (s p : List Char) : split s p ≠ [] := by
  unfold split
  split
  · simp
  · exact splitFrom_ne_nil _ _ _ _

theorem toUpper_idem (c : Char) : c.toUpper.toUpper = c.toUpper := by
  by_cases h : 'a'.val ≤ c.val ∧ c.val ≤ 'z'.val
  · have e : c.toUpper.val = c.val + ('A'.val - 'a'.val) := by simp only [Char.toUpper, dif_pos h]
    have : ¬ ('a'.val ≤ c.toUpper.val ∧ c.toUpper.val ≤ 'z'.val) := by
      rw [e]
      obtain ⟨h1, h2⟩ := h
      rw [UInt32.le_iff_toNat_le] at h1 h2 ⊢
      have e1 : ('A'.val - 'a'.val).toNat = 4294967264 := by decide
      have e2 : 'a'.val.toNat = 97 := by decide
      have e3 : 'z'.val.toNat = 122 := by decide
      rw [UInt32.toNat_add, e1]
      omega
    rw [Char.toUpper.eq_1 c.toUpper, dif_neg this]
  · have : c.toUpper = c := by simp only [Char.toUpper, dif_neg h]
    rw [this, this]
theorem toLower_idem (c : Char) : c.toLower.toLower = c.toLower := by
  by_cases h : c.val ≥ 'A'.val ∧ c.val ≤ 'Z'.val
  · have e : c.toLower.val = c.val + ('a'.val - 'A'.val) := by simp only [Char.toLower, dif_pos h]
    have : ¬ (c.toLower.val ≥ 'A'.val ∧ c.toLower.val ≤ 'Z'.val) := by
      rw [e]
      obtain ⟨h1, h2⟩ := h
      rw [ge_iff_le, UInt32.le_iff_toNat_le] at h1
      rw [UInt32.le_iff_toNat_le] at h2
      intro h3
      have h3 := h3.2
      rw [UInt32.le_iff_toNat_le] at h3
      have e1 : ('a'.val - 'A'.val).toNat = 32 := by decide
      have e2 : 'A'.val.toNat = 65 := by decide
      have e3 : 'Z'.val.toNat = 90 := by decide
      rw [UInt32.toNat_add, e1] at h3
      omega
    rw [Char.toLower.eq_1 c.toLower, dif_neg this]
  · have : c.toLower = c := by simp only [Char.toLower, dif_neg h]
    rw [this, this]

end Scallop.Foreign
