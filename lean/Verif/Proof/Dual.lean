import Verif.Spec.Dual
import Mathlib.Tactic.Ring
import Mathlib.Tactic.Linarith
import Mathlib.Tactic.NormNum
import Mathlib.Algebra.Order.Ring.Rat
import Mathlib.Data.Rat.Defs

/-!
# Lemmas about sparse gradients
-/

namespace Scallop

variable {K : Type*} [Field K]

theorem gradValue_cons (p : Nat × K) (g : Gradient K) (j : Nat) : gradValue (p :: g) j = if j = p.1 then p.2 else gradValue g j := by
  unfold gradValue
  rw [List.lookup_cons]
  by_cases h : j = p.1
  · subst h; simp
  · rw [if_neg h, beq_false_of_ne h]

theorem gradValue_of_lt (g : Gradient K) (j : Nat) (h : ∀ p ∈ g, j < p.1) : gradValue g j = 0 := by
  induction g with
  | nil => rfl
  | cons p g ih =>
    rw [gradValue_cons, if_neg (Nat.ne_of_lt (h p (by simp)))]
    exact ih (fun q hq => h q (by simp [hq]))

theorem Gradient.add_spec : ∀ (g1 g2 : Gradient K), g1.Asc → g2.Asc →
    (Gradient.add g1 g2).Asc ∧ (∀ p ∈ Gradient.add g1 g2, (∃ q ∈ g1, q.1 = p.1) ∨ ∃ q ∈ g2, q.1 = p.1) ∧
    ∀ j, gradValue (Gradient.add g1 g2) j = gradValue g1 j + gradValue g2 j := by
  intro g1
  induction g1 with
  | nil =>
    intro g2 _ h2
    exact ⟨h2, fun p hp => Or.inr ⟨p, hp, rfl⟩, fun j => by simp [Gradient.add, gradValue]⟩
  | cons p ps ih =>
    intro g2 h1 h2
    obtain ⟨hp, hps⟩ := List.pairwise_cons.mp h1
    simp only [Gradient.add]
    induction g2 with
    | nil =>
      obtain ⟨a, b, c⟩ := ih [] hps List.Pairwise.nil
      simp only [Gradient.addFrom]
      refine ⟨List.pairwise_cons.mpr ⟨fun q hq => ?_, a⟩, ?_, ?_⟩
      · rcases b q hq with ⟨r, hr, e⟩ | ⟨r, hr, _⟩
        · rw [← e]; exact hp r hr
        · simp at hr
      · intro q hq
        rcases List.mem_cons.mp hq with rfl | hq
        · exact Or.inl ⟨q, by simp, rfl⟩
        · exact (b q hq).imp (fun ⟨r, hr, e⟩ => ⟨r, by simp [hr], e⟩) id
      · intro j
        rw [gradValue_cons, gradValue_cons, c]
        have : gradValue ([] : Gradient K) j = 0 := rfl
        split <;> simp [this]
    | cons q qs ih2 =>
      obtain ⟨hq, hqs⟩ := List.pairwise_cons.mp h2
      simp only [Gradient.addFrom]
      split
      · rename_i heq
        obtain ⟨a, b, c⟩ := ih qs hps hqs
        refine ⟨List.pairwise_cons.mpr ⟨fun r hr => ?_, a⟩, ?_, ?_⟩
        · rcases b r hr with ⟨s, hs, e⟩ | ⟨s, hs, e⟩
          · rw [← e]; exact hp s hs
          · simp only; rw [← e, heq]; exact hq s hs
        · intro r hr
          rcases List.mem_cons.mp hr with rfl | hr
          · exact Or.inl ⟨p, by simp, rfl⟩
          · rcases b r hr with ⟨s, hs, e⟩ | ⟨s, hs, e⟩
            · exact Or.inl ⟨s, by simp [hs], e⟩
            · exact Or.inr ⟨s, by simp [hs], e⟩
        · intro j
          rw [gradValue_cons, gradValue_cons, gradValue_cons, c]
          simp only [← heq]
          split <;> rfl
      · rename_i hne
        split
        · rename_i hlt
          obtain ⟨a, b, c⟩ := ih (q :: qs) hps h2
          refine ⟨List.pairwise_cons.mpr ⟨fun r hr => ?_, a⟩, ?_, ?_⟩
          · rcases b r hr with ⟨s, hs, e⟩ | ⟨s, hs, e⟩
            · rw [← e]; exact hp s hs
            · rw [← e]
              rcases List.mem_cons.mp hs with rfl | hs
              · exact hlt
              · exact hlt.trans (hq s hs)
          · intro r hr
            rcases List.mem_cons.mp hr with rfl | hr
            · exact Or.inl ⟨r, by simp, rfl⟩
            · exact (b r hr).imp (fun ⟨s, hs, e⟩ => ⟨s, by simp [hs], e⟩) id
          · intro j
            rw [gradValue_cons, gradValue_cons p, c]
            split
            · rename_i hj
              subst hj
              rw [gradValue_of_lt (q :: qs) p.1, add_zero]
              intro r hr
              rcases List.mem_cons.mp hr with rfl | hr
              · exact hlt
              · exact hlt.trans (hq r hr)
            · rfl
        · rename_i hge
          have hlt : q.1 < p.1 := by omega
          obtain ⟨a, b, c⟩ := ih2 hqs
          refine ⟨List.pairwise_cons.mpr ⟨fun r hr => ?_, a⟩, ?_, ?_⟩
          · rcases b r hr with ⟨s, hs, e⟩ | ⟨s, hs, e⟩
            · rw [← e]
              rcases List.mem_cons.mp hs with rfl | hs
              · exact hlt
              · exact hlt.trans (hp s hs)
            · rw [← e]; exact hq s hs
          · intro r hr
            rcases List.mem_cons.mp hr with rfl | hr
            · exact Or.inr ⟨r, by simp, rfl⟩
            · exact (b r hr).imp id (fun ⟨s, hs, e⟩ => ⟨s, by simp [hs], e⟩)
          · intro j
            rw [gradValue_cons, gradValue_cons q, c]
            split
            · rename_i hj
              subst hj
              rw [gradValue_of_lt (p :: ps) q.1, zero_add]
              intro r hr
              rcases List.mem_cons.mp hr with rfl | hr
              · exact hlt
              · exact hlt.trans (hp r hr)
            · rfl

theorem gradValue_map (g : Gradient K) (f : K → K) (hf : f 0 = 0) (j : Nat) : gradValue (g.map (fun p => (p.1, f p.2))) j = f (gradValue g j) := by
  induction g with
  | nil => simp [gradValue, hf]
  | cons p g ih =>
    rw [List.map_cons, gradValue_cons, gradValue_cons, ih]
    split <;> rfl

theorem Gradient.asc_map (g : Gradient K) (f : K → K) (h : g.Asc) : Gradient.Asc (g.map (fun p => (p.1, f p.2))) :=
  List.pairwise_map.mpr h

variable [LinearOrder K]

theorem dual_spec (v : Nat → K) (e : ArithExpr K) :
    (e.dual v).real = e.value v ∧ (e.dual v).gradient.Asc ∧ (∀ p ∈ (e.dual v).gradient, p.1 ∈ e.vars) ∧
    ∀ j, gradValue (e.dual v).gradient j = (MvPolynomial.pderiv j e.toPoly).eval v := by
  have hval : ∀ e : ArithExpr K, e.toPoly.eval v = e.value v := by
    intro e
    induction e <;> simp_all [ArithExpr.toPoly, ArithExpr.value]
  induction e with
  | var i =>
    refine ⟨rfl, by simp [ArithExpr.dual, DualNumber2.new, Gradient.singleton, Gradient.Asc], by
      simp [ArithExpr.dual, DualNumber2.new, Gradient.singleton, ArithExpr.vars], fun j => ?_⟩
    simp only [ArithExpr.dual, DualNumber2.new, Gradient.singleton, ArithExpr.toPoly, MvPolynomial.pderiv_X]
    rw [gradValue_cons]
    by_cases h : j = i
    · subst h; simp
    · rw [if_neg h]; simp [h, gradValue, Pi.single_apply, eq_comm]
  | const c =>
    refine ⟨rfl, by simp [ArithExpr.dual, DualNumber2.constant, Gradient.empty, Gradient.Asc], by
      simp [ArithExpr.dual, DualNumber2.constant, Gradient.empty], fun j => ?_⟩
    simp [ArithExpr.dual, DualNumber2.constant, Gradient.empty, gradValue, ArithExpr.toPoly]
  | add a b iha ihb =>
    obtain ⟨a1, a2, a3, a4⟩ := iha
    obtain ⟨b1, b2, b3, b4⟩ := ihb
    obtain ⟨h1, h2, h3⟩ := Gradient.add_spec _ _ a2 b2
    refine ⟨by simp [ArithExpr.dual, DualNumber2.add, ArithExpr.value, a1, b1], h1, ?_, fun j => ?_⟩
    · intro p hp
      simp only [ArithExpr.vars, List.mem_append]
      rcases h2 p hp with ⟨q, hq, e⟩ | ⟨q, hq, e⟩
      · rw [← e]; exact Or.inl (a3 q hq)
      · rw [← e]; exact Or.inr (b3 q hq)
    · simp only [ArithExpr.dual, DualNumber2.add, h3, a4, b4, ArithExpr.toPoly, map_add]
  | mul a b iha ihb =>
    obtain ⟨a1, a2, a3, a4⟩ := iha
    obtain ⟨b1, b2, b3, b4⟩ := ihb
    obtain ⟨h1, h2, h3⟩ := Gradient.add_spec _ _ (Gradient.asc_map _ (· * (b.dual v).real) a2) (Gradient.asc_map _ (· * (a.dual v).real) b2)
    refine ⟨by simp [ArithExpr.dual, DualNumber2.mul, ArithExpr.value, a1, b1], h1, ?_, fun j => ?_⟩
    · intro p hp
      simp only [ArithExpr.vars, List.mem_append]
      rcases h2 p hp with ⟨q, hq, e⟩ | ⟨q, hq, e⟩
      · obtain ⟨r, hr, rfl⟩ := List.mem_map.mp hq
        rw [← e]; exact Or.inl (a3 r hr)
      · obtain ⟨r, hr, rfl⟩ := List.mem_map.mp hq
        rw [← e]; exact Or.inr (b3 r hr)
    · simp only [ArithExpr.dual, DualNumber2.mul, Gradient.scale, h3, ArithExpr.toPoly]
      rw [gradValue_map _ (· * (b.dual v).real) (by simp), gradValue_map _ (· * (a.dual v).real) (by simp), a4, b4, a1, b1, Derivation.leibniz]
      simp only [smul_eq_mul, map_add, map_mul, hval]
      ring
  | compl a iha =>
    obtain ⟨a1, a2, a3, a4⟩ := iha
    refine ⟨by simp [ArithExpr.dual, DualNumber2.neg, ArithExpr.value, a1], Gradient.asc_map _ (fun x => -x) a2, ?_, fun j => ?_⟩
    · intro p hp
      obtain ⟨r, hr, rfl⟩ := List.mem_map.mp hp
      exact a3 r hr
    · simp only [ArithExpr.dual, DualNumber2.neg, Gradient.neg, ArithExpr.toPoly]
      rw [gradValue_map _ (fun x => -x) (by simp), a4]
      simp [map_sub]

end Scallop
