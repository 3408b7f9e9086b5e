import Verif.Model.TypeInfer

/-! # The order of type sets -/

namespace Scallop.Ty

/-- One type set is below another in the order of the code. -/
def TSet.le (a b : TSet) : Prop := a = b ∨ a.cmp b = some .lt

instance (a b : TSet) : Decidable (a.le b) := inferInstanceAs (Decidable (_ ∨ _))

namespace TSet

theorem le_refl (a : TSet) : a.le a := Or.inl rfl

private theorem signed_int {t : VTy} (h : t.isSigned = true) : t.isInt = true := by cases t <;> simp_all [VTy.isSigned, VTy.isInt]
private theorem int_num {t : VTy} (h : t.isInt = true) : t.isNumeric = true := by simp [VTy.isNumeric, h]
private theorem float_num {t : VTy} (h : t.isFloat = true) : t.isNumeric = true := by simp [VTy.isNumeric, h]
private theorem unsigned_int {t : VTy} (h : t.isUnsigned = true) : t.isInt = true := by cases t <;> simp_all [VTy.isUnsigned, VTy.isInt]

theorem cmp_lt_trans {a b c : TSet} (h1 : a.cmp b = some .lt) (h2 : b.cmp c = some .lt) : a.cmp c = some .lt := by
  cases a <;> cases b <;> cases c <;> simp_all [cmp]
  all_goals
    first
    | exact signed_int h1
    | exact int_num h1
    | exact float_num h1
    | exact int_num (signed_int h1)
    | skip

theorem cmp_lt_irrefl (a : TSet) : a.cmp a ≠ some .lt := by cases a <;> simp [cmp]

theorem cmp_lt_asymm {a b : TSet} (h1 : a.cmp b = some .lt) (h2 : b.cmp a = some .lt) : False :=
  cmp_lt_irrefl a (cmp_lt_trans h1 h2)

theorem le_trans {a b c : TSet} (h1 : a.le b) (h2 : b.le c) : a.le c := by
  rcases h1 with rfl | h1
  · exact h2
  · rcases h2 with rfl | h2
    · exact Or.inr h1
    · exact Or.inr (cmp_lt_trans h1 h2)

theorem le_antisymm {a b : TSet} (h1 : a.le b) (h2 : b.le a) : a = b := by
  rcases h1 with rfl | h1
  · rfl
  · rcases h2 with rfl | h2
    · rfl
    · exact (cmp_lt_asymm h1 h2).elim

theorem cmp_gt {a b : TSet} (h : a.cmp b = some .gt) : b.le a := by
  cases a <;> cases b <;> simp_all [cmp, le]

theorem cmp_lt_gt {a b : TSet} (h : a.cmp b = some .lt) : b.cmp a = some .gt := by
  cases a <;> cases b <;> simp_all [cmp]

theorem cmp_eq {a b : TSet} (h : a.cmp b = some .eq) : a = b := by
  cases a <;> cases b <;> simp_all [cmp]

/-- What unification gives is below both and is one of them. -/
theorem unify_some {a b c : TSet} (h : a.unify b = some c) : c.le a ∧ c.le b ∧ (c = a ∨ c = b) := by
  unfold unify at h
  cases hc : a.cmp b with
  | none => simp [hc] at h
  | some o =>
    cases o <;> simp [hc] at h <;> subst h
    · exact ⟨le_refl _, Or.inr hc, Or.inl rfl⟩
    · exact ⟨le_refl _, Or.inl (cmp_eq hc), Or.inl rfl⟩
    · exact ⟨cmp_gt hc, le_refl _, Or.inr rfl⟩

theorem unify_of_le {a b : TSet} (h : a.le b) : a.unify b = some a := by
  rcases h with rfl | h
  · cases a <;> simp [unify, cmp]
  · simp [unify, h]

theorem unify_of_ge {a b : TSet} (h : b.le a) : a.unify b = some b := by
  rcases h with rfl | h
  · cases b <;> simp [unify, cmp]
  · simp [unify, cmp_lt_gt h]

theorem unify_none {a b : TSet} (h : a.unify b = none) : ¬ a.le b ∧ ¬ b.le a :=
  ⟨fun hl => by simp [unify_of_le hl] at h, fun hl => by simp [unify_of_ge hl] at h⟩

/-- What is above the same type set is comparable. -/
theorem le_total_of_common {a b c : TSet} (h1 : c.le a) (h2 : c.le b) : a.le b ∨ b.le a := by
  rcases h1 with rfl | h1
  · exact Or.inl h2
  · rcases h2 with rfl | h2
    · exact Or.inr (Or.inr h1)
    · revert h1 h2
      cases c with
      | base t => cases t <;> cases a <;> cases b <;> simp [cmp, le, VTy.isSigned, VTy.isInt, VTy.isFloat, VTy.isString, VTy.isNumeric]
      | _ => cases a <;> cases b <;> simp [cmp, le]

theorem le_base {a : TSet} {t : VTy} (h : a.le (.base t)) : a = .base t := by
  rcases h with h | h
  · exact h
  · cases a <;> simp [cmp] at h

theorem le_any (a : TSet) : a.le .any := by cases a <;> simp [le, cmp]

theorem unify_base_left {t : VTy} {b c : TSet} (h : TSet.unify (.base t) b = some c) : c = .base t :=
  le_base (unify_some h).1

theorem unify_base_right {t : VTy} {a c : TSet} (h : a.unify (.base t) = some c) : c = .base t :=
  le_base (unify_some h).2.1

/-- How far a type set is from the bottom. -/
def rank : TSet → Nat
  | .base _ => 1
  | .signed | .unsigned | .float | .string => 2
  | .integer => 3
  | .arith => 4
  | .numeric => 5
  | .any => 6

theorem rank_lt {a b : TSet} (h : a.cmp b = some .lt) : a.rank < b.rank := by
  cases a <;> cases b <;> simp_all [cmp, rank]

theorem rank_le {a b : TSet} (h : a.le b) : a.rank ≤ b.rank := by
  rcases h with rfl | h
  · exact Nat.le_refl _
  · exact Nat.le_of_lt (rank_lt h)

theorem contains_mono {a b : TSet} (h : a.le b) {t : VTy} (ht : a.contains t = true) : b.contains t = true := by
  rcases h with rfl | h
  · exact ht
  · cases a with
    | base u =>
      simp only [contains, beq_iff_eq] at ht
      subst ht
      cases b <;> simp_all [cmp, contains]
    | _ =>
      cases b <;> simp [cmp] at h <;> simp only [contains] at ht ⊢
      all_goals
        first
        | exact float_num ht
        | exact signed_int ht
        | exact unsigned_int ht
        | exact int_num ht
        | exact int_num (signed_int ht)
        | exact int_num (unsigned_int ht)
        | exact ht

theorem contains_default (a : TSet) : a.contains a.default = true := by
  cases a <;> simp [contains, default, VTy.isNumeric, VTy.isInt, VTy.isSigned, VTy.isUnsigned, VTy.isFloat, VTy.isString, IntTy.signed]

/-- Type sets with a common value type are comparable, a base unsigned integer type and the set of the unsigned integer types excepted. -/
theorem le_total_of_contains {a b : TSet} {t : VTy} (ha : a.contains t = true) (hb : b.contains t = true)
    (h1 : ¬ (a = .unsigned ∧ ∃ u, b = .base u)) (h2 : ¬ (b = .unsigned ∧ ∃ u, a = .base u)) : a.le b ∨ b.le a := by
  cases a <;> cases b <;> simp_all [contains, le, cmp]
  all_goals (cases t <;> simp_all [VTy.isNumeric, VTy.isInt, VTy.isSigned, VTy.isUnsigned, VTy.isFloat, VTy.isString])

/-- `unifyAll` is below all, and is one of them. -/
theorem unifyLoop_some {ty c : TSet} {ts : List TSet} (h : unifyLoop ty ts = some c) :
    c.le ty ∧ (∀ t ∈ ts, c.le t) ∧ (c = ty ∨ c ∈ ts) := by
  induction ts generalizing ty with
  | nil => simp [unifyLoop] at h; subst h; exact ⟨le_refl _, by simp, Or.inl rfl⟩
  | cons t ts ih =>
    simp only [unifyLoop, Option.bind_eq_some_iff] at h
    obtain ⟨n, hn, h⟩ := h
    obtain ⟨h1, h2, h3⟩ := unify_some hn
    obtain ⟨g1, g2, g3⟩ := ih h
    refine ⟨le_trans g1 h1, fun u hu => ?_, ?_⟩
    · rcases List.mem_cons.1 hu with rfl | hu
      · exact le_trans g1 h2
      · exact g2 u hu
    · rcases g3 with rfl | g3
      · rcases h3 with rfl | rfl
        · exact Or.inl rfl
        · exact Or.inr (List.mem_cons_self ..)
      · exact Or.inr (List.mem_cons_of_mem _ g3)

theorem unifyAll_some {c : TSet} {ts : List TSet} (h : unifyAll ts = some c) : (∀ t ∈ ts, c.le t) ∧ c ∈ ts := by
  cases ts with
  | nil => simp [unifyAll] at h
  | cons t ts =>
    obtain ⟨_, h2, h3⟩ := unifyLoop_some h
    refine ⟨h2, ?_⟩
    rcases h3 with rfl | h3
    · exact List.mem_cons_self ..
    · exact h3

end TSet

end Scallop.Ty
