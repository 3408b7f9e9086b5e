import Verif.Model.Provenance
import Verif.Spec.Semiring
import Verif.Spec.Collection
import Mathlib.Data.Set.Basic
import Mathlib.Order.MinMax
import Mathlib.Tactic.NormNum
import Mathlib.Tactic.Linarith
import Mathlib.Algebra.Order.Ring.Rat
import Mathlib.Data.Rat.Defs

/-!
# Property theorems C24, C25, C50: tag algebras
-/

namespace Scallop

variable {T W : Type*} {K : Type*} [Field K] [LinearOrder K] [IsStrictOrderedRing K]

/-! ### C24 -/

/-- **C24.** Min-max-prob tags in [0, 1] form a commutative semiring. -/
theorem c24_semiring : (minMaxProv K).SemiringOn (fun t => 0 ≤ t ∧ t ≤ 1) where
  zero_mem := ⟨le_refl _, zero_le_one⟩
  one_mem := ⟨zero_le_one, le_refl _⟩
  add_mem := fun _ _ ha hb => ⟨le_max_of_le_left ha.1, max_le ha.2 hb.2⟩
  mult_mem := fun _ _ ha hb => ⟨le_min ha.1 hb.1, min_le_of_left_le ha.2⟩
  add_comm := fun a b _ _ => max_comm a b
  add_assoc := fun a b d _ _ _ => max_assoc a b d
  zero_add := fun _ ha => max_eq_right ha.1
  mult_comm := fun a b _ _ => min_comm a b
  mult_assoc := fun a b d _ _ _ => min_assoc a b d
  one_mult := fun _ ha => min_eq_right ha.2
  zero_mult := fun _ ha => min_eq_left ha.1
  mult_add := fun a b d _ _ _ => min_max_distrib_left a b d

/-- C24: idempotence and absorption (a lattice). -/
theorem c24_lattice (a b : K) : (minMaxProv K).add a a = a ∧ (minMaxProv K).mult a a = a ∧
    (minMaxProv K).add a ((minMaxProv K).mult a b) = a ∧ (minMaxProv K).mult a ((minMaxProv K).add a b) = a :=
  ⟨max_self a, min_self a, max_eq_left (min_le_left a b), min_eq_left (le_max_left a b)⟩

/-- C24: negation never fails, stays in [0, 1], is an order-reversing involution, and satisfies De Morgan. -/
theorem c24_negation : ∃ neg : K → K, (∀ a, (minMaxProv K).negate a = some (neg a)) ∧ (∀ a, neg (neg a) = a) ∧
    (∀ a, 0 ≤ a ∧ a ≤ 1 → 0 ≤ neg a ∧ neg a ≤ 1) ∧ (∀ a b, a ≤ b → neg b ≤ neg a) ∧
    neg (minMaxProv K).zero = (minMaxProv K).one ∧
    (∀ a b, neg ((minMaxProv K).add a b) = (minMaxProv K).mult (neg a) (neg b)) ∧
    (∀ a b, neg ((minMaxProv K).mult a b) = (minMaxProv K).add (neg a) (neg b)) := by
  refine ⟨fun a => 1 - a, fun _ => rfl, fun a => sub_sub_cancel 1 a, fun a h => ⟨by linarith [h.2], by linarith [h.1]⟩, fun a b h => by linarith,
    by simp [minMaxProv], fun a b => ?_, fun a b => ?_⟩
  · simp only [minMaxProv]
    rcases le_total a b with h | h
    · rw [max_eq_right h, min_eq_right (by linarith)]
    · rw [max_eq_left h, min_eq_left (by linarith)]
  · simp only [minMaxProv]
    rcases le_total a b with h | h
    · rw [min_eq_left h, max_eq_left (by linarith)]
    · rw [min_eq_right h, max_eq_right (by linarith)]

example : (minMaxProv ℚ).mult (1/2) ((minMaxProv ℚ).add (1/3) (3/4)) = 1/2 := by decide +kernel

/-! ### C25 -/

/-- **C25.** Boolean tags. -/
theorem c25_boolean : boolProv.SemiringOn (fun _ => True) := by
  constructor <;> simp [boolProv, Bool.or_comm, Bool.or_assoc, Bool.and_comm, Bool.and_assoc, Bool.and_or_distrib_left]

/-- **C25.** Natural tags (no overflow). -/
theorem c25_natural : naturalProv.SemiringOn (fun _ => True) where
  zero_mem := trivial
  one_mem := trivial
  add_mem := fun _ _ _ _ => trivial
  mult_mem := fun _ _ _ _ => trivial
  add_comm := fun a b _ _ => Nat.add_comm a b
  add_assoc := fun a b d _ _ _ => Nat.add_assoc a b d
  zero_add := fun a _ => Nat.zero_add a
  mult_comm := fun a b _ _ => Nat.mul_comm a b
  mult_assoc := fun a b d _ _ _ => Nat.mul_assoc a b d
  one_mult := fun a _ => Nat.one_mul a
  zero_mult := fun a _ => Nat.zero_mul a
  mult_add := fun a b d _ _ _ => Nat.mul_add a b d

theorem NatInf.tadd_nat (a b : Nat) : NatInf.tadd (.nat a) (.nat b) = .nat (min a b) := by
  unfold NatInf.tadd NatInf.partialCmp
  rcases Nat.lt_trichotomy a b with h | h | h
  · simp [Nat.compare_eq_lt.mpr h, Nat.le_of_lt h]
  · subst h; simp
  · simp [Nat.compare_eq_gt.mpr h, Nat.le_of_lt h]

theorem NatInf.tadd_infty_left (a : NatInf) : NatInf.tadd .infty a = a := by cases a <;> rfl
theorem NatInf.tadd_infty_right (a : NatInf) : NatInf.tadd a .infty = a := by cases a <;> rfl

/-- **C25.** Tropical tags (no overflow). -/
theorem c25_tropical : tropicalProv.SemiringOn (fun _ => True) where
  zero_mem := trivial
  one_mem := trivial
  add_mem := fun _ _ _ _ => trivial
  mult_mem := fun _ _ _ _ => trivial
  add_comm := fun a b _ _ => by
    cases a <;> cases b <;> simp [tropicalProv, NatInf.tadd_nat, NatInf.tadd_infty_left, NatInf.tadd_infty_right, min_comm]
  add_assoc := fun a b d _ _ _ => by
    cases a <;> cases b <;> cases d <;>
      simp [tropicalProv, NatInf.tadd_nat, NatInf.tadd_infty_left, NatInf.tadd_infty_right, min_assoc]
  zero_add := fun a _ => NatInf.tadd_infty_left a
  mult_comm := fun a b _ _ => by cases a <;> cases b <;> simp [tropicalProv, NatInf.tmult, Nat.add_comm]
  mult_assoc := fun a b d _ _ _ => by cases a <;> cases b <;> cases d <;> simp [tropicalProv, NatInf.tmult, Nat.add_assoc]
  one_mult := fun a _ => by cases a <;> simp [tropicalProv, NatInf.tmult]
  zero_mult := fun a _ => by cases a <;> simp [tropicalProv, NatInf.tmult]
  mult_add := fun a b d _ _ _ => by
    cases a <;> cases b <;> cases d <;>
      simp [tropicalProv, NatInf.tadd_nat, NatInf.tadd_infty_left, NatInf.tadd_infty_right, NatInf.tmult, Nat.add_min_add_left]

/-- C25, the consequence a user sees: with tags in a semiring, the combined tag of a fact does not depend on the order in which its
derivations are found. -/
theorem c25_order_irrelevant (c : Prov T W) (P : T → Prop) (h : c.SemiringOn P) (l1 l2 : List T) (hp : l1.Perm l2) (hl : ∀ t ∈ l1, P t) :
    sumTags c l1 = sumTags c l2 := by
  have fold_mem : ∀ (l : List T) (a : T), P a → (∀ t ∈ l, P t) → P (l.foldl c.add a) := by
    intro l
    induction l with
    | nil => intro a ha _; exact ha
    | cons t l ih => intro a ha hl; exact ih _ (h.add_mem _ _ ha (hl t (by simp))) (fun s hs => hl s (by simp [hs]))
  have key : ∀ {l1 l2 : List T}, l1.Perm l2 → (∀ t ∈ l1, P t) → ∀ a, P a → l1.foldl c.add a = l2.foldl c.add a := by
    intro l1 l2 hp
    induction hp with
    | nil => intro _ a _; rfl
    | cons t _ ih => intro hl a ha; exact ih (fun s hs => hl s (by simp [hs])) _ (h.add_mem _ _ ha (hl t (by simp)))
    | swap x y l =>
      intro hl a ha
      have hx := hl x (by simp)
      have hy := hl y (by simp)
      simp only [List.foldl_cons]
      rw [h.add_assoc a y x ha hy hx, h.add_comm y x hy hx, ← h.add_assoc a x y ha hx hy]
    | trans h1 _ ih1 ih2 => intro hl a ha; rw [ih1 hl a ha, ih2 (fun t ht => hl t (h1.mem_iff.mpr ht)) a ha]
  cases l1 with
  | nil => rw [hp.nil_eq]
  | cons t l1 =>
    cases l2 with
    | nil => exact absurd hp.symm.nil_eq (by simp)
    | cons s l2 =>
      have e1 : ∀ (t : T) (l : List T), P t → (t :: l).foldl c.add c.zero = l.foldl c.add t := fun t l ht => by
        simp only [List.foldl_cons]; rw [h.zero_add t ht]
      have := key hp hl c.zero h.zero_mem
      rw [e1 t l1 (hl t (by simp)), e1 s l2 (hl s (hp.mem_iff.mpr (by simp)))] at this
      simp only [sumTags, this]

example : sumTags tropicalProv [.nat 5, .infty, .nat 3, .nat 7] = some (.nat 3) ∧
    sumTags tropicalProv [.nat 7, .nat 3, .infty, .nat 5] = some (.nat 3) := by decide +kernel

/-- Contrast: add-mult-prob is not a semiring even on [0, 1]: clamping breaks distributivity, so the tag of a fact depends on how its
derivations are grouped. -/
theorem c25_add_mult_prob_not_distributive : ¬ (addMultProv ℚ).SemiringOn (fun t => 0 ≤ t ∧ t ≤ 1) := by
  intro h
  have := h.mult_add (1/2) 1 1 (by norm_num) (by norm_num) (by norm_num)
  revert this
  simp only [addMultProv]
  norm_num

/-! ### C50 -/

/-- **C50.** Every tag computed with a pair of provenances is the pair of the tags computed with each. -/
theorem c50_componentwise {X T1 T2 W1 W2 : Type*} (p1 : Prov T1 W1) (p2 : Prov T2 W2) (f : X → T1 × T2) (e : TagExpr X) :
    e.eval (dualProv p1 p2) f = (e.eval p1 (fun x => (f x).1), e.eval p2 (fun x => (f x).2)) := by
  induction e with
  | input x => rfl
  | zero => rfl
  | one => rfl
  | add a b iha ihb => simp only [TagExpr.eval, iha, ihb]; rfl
  | mult a b iha ihb => simp only [TagExpr.eval, iha, ihb]; rfl

/-- C50: the pair of two semirings is a semiring. -/
theorem c50_semiring {T1 T2 W1 W2 : Type*} (p1 : Prov T1 W1) (p2 : Prov T2 W2) (P1 : T1 → Prop) (P2 : T2 → Prop)
    (h1 : p1.SemiringOn P1) (h2 : p2.SemiringOn P2) : (dualProv p1 p2).SemiringOn (fun t => P1 t.1 ∧ P2 t.2) where
  zero_mem := ⟨h1.zero_mem, h2.zero_mem⟩
  one_mem := ⟨h1.one_mem, h2.one_mem⟩
  add_mem := fun _ _ a b => ⟨h1.add_mem _ _ a.1 b.1, h2.add_mem _ _ a.2 b.2⟩
  mult_mem := fun _ _ a b => ⟨h1.mult_mem _ _ a.1 b.1, h2.mult_mem _ _ a.2 b.2⟩
  add_comm := fun _ _ a b => Prod.ext (h1.add_comm _ _ a.1 b.1) (h2.add_comm _ _ a.2 b.2)
  add_assoc := fun _ _ _ a b d => Prod.ext (h1.add_assoc _ _ _ a.1 b.1 d.1) (h2.add_assoc _ _ _ a.2 b.2 d.2)
  zero_add := fun _ a => Prod.ext (h1.zero_add _ a.1) (h2.zero_add _ a.2)
  mult_comm := fun _ _ a b => Prod.ext (h1.mult_comm _ _ a.1 b.1) (h2.mult_comm _ _ a.2 b.2)
  mult_assoc := fun _ _ _ a b d => Prod.ext (h1.mult_assoc _ _ _ a.1 b.1 d.1) (h2.mult_assoc _ _ _ a.2 b.2 d.2)
  one_mult := fun _ a => Prod.ext (h1.one_mult _ a.1) (h2.one_mult _ a.2)
  zero_mult := fun _ a => Prod.ext (h1.zero_mult _ a.1) (h2.zero_mult _ a.2)
  mult_add := fun _ _ _ a b d => Prod.ext (h1.mult_add _ _ _ a.1 b.1 d.1) (h2.mult_add _ _ _ a.2 b.2 d.2)

/-- C50: the pair keeps a fact exactly when both provenances do, and takes a tag as stable exactly when both do. -/
theorem c50_discard {T1 T2 W1 W2 : Type*} (p1 : Prov T1 W1) (p2 : Prov T2 W2) (a b : T1 × T2) :
    ((dualProv p1 p2).discard a = false ↔ p1.discard a.1 = false ∧ p2.discard a.2 = false) ∧
    ((dualProv p1 p2).saturated a b = true ↔ p1.saturated a.1 b.1 = true ∧ p2.saturated a.2 b.2 = true) := by
  simp [dualProv]

example : (TagExpr.add (.mult (.input 0) (.input 1)) (.input 2)).eval (dualProv naturalProv tropicalProv) (fun i : Nat => (i + 2, .nat i))
    = (10, .nat 1) := by decide +kernel

end Scallop
