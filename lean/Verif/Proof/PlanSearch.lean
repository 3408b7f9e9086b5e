import Verif.Model.Plan
import Verif.Spec.Plan
import Batteries.Data.List.Perm
import Mathlib.Data.List.Nodup

/-!
# The search for an order of the atoms finds one
-/

namespace Scallop.Plan

open Scallop.Back

/-- A state in which `k` of `n` atoms have been visited. -/
structure Good1 (n k : Nat) (s : SState) : Prop where
  nodup : s.Nodup
  lt : ∀ i ∈ s, i < n
  len : s.length = k

theorem candidates_good {n k : Nat} {s : SState} (h : Good1 n k s) : ∀ s' ∈ candidates n s, Good1 n (k + 1) s' := by
  intro s' hs
  simp only [candidates, List.mem_flatMap, List.mem_filter, List.mem_range, decide_eq_true_eq] at hs
  obtain ⟨i, ⟨hi, hn⟩, hs⟩ := hs
  have := List.eq_of_mem_replicate hs
  subst this
  refine ⟨?_, ?_, by simp [h.len]⟩
  · rw [List.nodup_append]
    refine ⟨h.nodup, by simp, ?_⟩
    rintro a ha b hb rfl
    simp only [List.mem_singleton] at hb
    subst hb
    exact hn ha
  · intro j hj
    simp only [List.mem_append, List.mem_singleton] at hj
    rcases hj with hj | rfl
    · exact h.lt j hj
    · exact hi

theorem exists_unvisited {n k : Nat} {s : SState} (h : Good1 n k s) (hk : k < n) : ∃ i, i < n ∧ i ∉ s := by
  by_contra hc
  have hc : ∀ i < n, i ∈ s := fun i hi => by
    by_contra h'
    exact hc ⟨i, hi, h'⟩
  have h1 : (List.range n).Nodup := List.nodup_range
  have h2 : (List.range n).length ≤ s.length := (List.subperm_of_subset h1 (fun i hi => hc i (List.mem_range.mp hi))).length_le
  rw [List.length_range, h.len] at h2
  omega

theorem candidates_ne {n k : Nat} {s : SState} (h : Good1 n k s) (hk : k < n) : candidates n s ≠ [] := by
  obtain ⟨i, hi, hn⟩ := exists_unvisited h hk
  have : (s ++ [i]) ∈ candidates n s := by
    simp only [candidates, List.mem_flatMap, List.mem_filter, List.mem_range, decide_eq_true_eq]
    exact ⟨i, ⟨hi, hn⟩, List.mem_replicate.mpr ⟨by simp, rfl⟩⟩
  intro e
  rw [e] at this
  cases this

variable {S : Search}

theorem nextStates_spec (hS : S.Lawful) {n k beam : Nat} {s : SState} (h : Good1 n k s) (hk : k < n) (hb : 0 < beam) :
    (∀ s' ∈ nextStates S n beam s, Good1 n (k + 1) s') ∧ nextStates S n beam s ≠ [] := by
  unfold nextStates
  rw [if_neg (by rw [h.len]; omega)]
  refine ⟨fun s' hs => candidates_good h s' ((hS.sort _).mem_iff.mp (List.mem_of_mem_take hs)), ?_⟩
  intro e
  rw [List.take_eq_nil_iff] at e
  rcases e with e | e
  · omega
  · have := (hS.sort (candidates n s)).length_eq
    rw [e] at this
    exact candidates_ne h hk (List.length_eq_zero_iff.mp this.symm)

theorem expandQueue_spec (hS : S.Lawful) {n k beam : Nat} (hk : k < n) (hb : 0 < beam) : ∀ (fuel : Nat) (q : List SState) (r : List SState × List SState),
    q.length = fuel → (∀ s ∈ q, Good1 n k s) → (∀ s ∈ r.1, Good1 n n s) → (∀ s ∈ r.2, Good1 n (k + 1) s) →
    (∀ s ∈ (expandQueue S n beam fuel q r).1, Good1 n n s) ∧ (∀ s ∈ (expandQueue S n beam fuel q r).2, Good1 n (k + 1) s) ∧
      (k + 1 = n → r.2 = [] → (expandQueue S n beam fuel q r).2 = [] ∧ (r.1 ≠ [] ∨ q ≠ [] → (expandQueue S n beam fuel q r).1 ≠ [])) ∧
      (k + 1 < n → r.2 ≠ [] ∨ q ≠ [] → (expandQueue S n beam fuel q r).2 ≠ [])
  | 0, q, r, hl, hq, h1, h2 => by
    have : q = [] := List.length_eq_zero_iff.mp hl
    subst this
    refine ⟨h1, h2, fun _ h => ⟨h, ?_⟩, fun _ h => ?_⟩
    · rintro (h | h)
      · exact h
      · exact absurd rfl h
    · rcases h with h | h
      · exact h
      · exact absurd rfl h
  | fuel + 1, q, r, hl, hq, h1, h2 => by
    have hne : q ≠ [] := by rintro rfl; simp at hl
    obtain ⟨top, q', hp, hperm⟩ := hS.pop q hne
    have htop := hq top (hperm.mem_iff.mpr List.mem_cons_self)
    obtain ⟨hn1, hn2⟩ := nextStates_spec hS (n := n) (k := k) (beam := beam) htop hk hb
    have hl' : q'.length = fuel := by
      have := hperm.length_eq
      simp only [List.length_cons] at this
      omega
    have hres : expandQueue S n beam (fuel + 1) q r = expandQueue S n beam fuel q'
        (r.1 ++ (nextStates S n beam top).filter (fun s => decide (s.length = n)),
          r.2 ++ (nextStates S n beam top).filter (fun s => decide (s.length ≠ n))) := by
      rw [expandQueue, hp]
    rw [hres]
    obtain ⟨a, b, c, d⟩ := expandQueue_spec hS hk hb fuel q' (r.1 ++ (nextStates S n beam top).filter (fun s => decide (s.length = n)),
        r.2 ++ (nextStates S n beam top).filter (fun s => decide (s.length ≠ n))) hl'
      (fun s hs => hq s (hperm.mem_iff.mpr (List.mem_cons_of_mem _ hs)))
      (by
        intro s hs
        rcases List.mem_append.mp hs with hs | hs
        · exact h1 s hs
        · obtain ⟨hs, he⟩ := List.mem_filter.mp hs
          have := hn1 s hs
          exact ⟨this.nodup, this.lt, by simpa using he⟩)
      (by
        intro s hs
        rcases List.mem_append.mp hs with hs | hs
        · exact h2 s hs
        · exact hn1 s (List.mem_filter.mp hs).1)
    refine ⟨a, b, ?_, ?_⟩
    · intro hkn hr2
      have hall : ∀ s ∈ nextStates S n beam top, s.length = n := fun s hs => by rw [(hn1 s hs).len, hkn]
      have e2 : (nextStates S n beam top).filter (fun s => decide (s.length ≠ n)) = [] := by
        rw [List.filter_eq_nil_iff]
        intro s hs
        simpa using hall s hs
      have e1 : (nextStates S n beam top).filter (fun s => decide (s.length = n)) = nextStates S n beam top := by
        rw [List.filter_eq_self]
        intro s hs
        simpa using hall s hs
      obtain ⟨c1, c2⟩ := c hkn (by rw [hr2, e2]; rfl)
      refine ⟨c1, fun _ => c2 (Or.inl ?_)⟩
      intro e
      simp only [e1, List.append_eq_nil_iff] at e
      exact hn2 e.2
    · intro hkn _
      refine d hkn (Or.inl ?_)
      have e2 : (nextStates S n beam top).filter (fun s => decide (s.length ≠ n)) = nextStates S n beam top := by
        rw [List.filter_eq_self]
        intro s hs
        have := (hn1 s hs).len
        simp only [decide_eq_true_eq]
        omega
      intro e
      simp only [e2, List.append_eq_nil_iff] at e
      exact hn2 e.2

theorem popMany_mem (hS : S.Lawful) : ∀ (k : Nat) (q : List SState), (∀ s ∈ popMany S k q, s ∈ q) ∧ (0 < k → q ≠ [] → popMany S k q ≠ [])
  | 0, q => ⟨by simp [popMany], by omega⟩
  | k + 1, q => by
    by_cases hq : q = []
    · subst hq
      rw [popMany, hS.pop_nil]
      simp
    · obtain ⟨s, q', hp, hperm⟩ := hS.pop q hq
      rw [popMany, hp]
      refine ⟨?_, by simp⟩
      intro s' hs
      simp only [List.mem_cons] at hs
      rcases hs with rfl | hs
      · exact hperm.mem_iff.mpr List.mem_cons_self
      · exact hperm.mem_iff.mpr (List.mem_cons_of_mem _ ((popMany_mem hS k q').1 s' hs))

theorem searchLoop_spec (hS : S.Lawful) {n beam : Nat} (hb : 0 < beam) : ∀ (fuel k : Nat) (q finals : List SState), k + fuel = n → 0 < fuel → q ≠ [] →
    (∀ s ∈ q, Good1 n k s) → (∀ s ∈ finals, Good1 n n s) →
    ∃ r, searchLoop S n beam fuel q finals = some r ∧ r ≠ [] ∧ ∀ s ∈ r, Good1 n n s
  | 0, k, q, finals, _, h0, _, _, _ => by omega
  | fuel + 1, k, q, finals, hf, _, hne, hq, hfin => by
    obtain ⟨h1, h2, h3, h4⟩ := expandQueue_spec hS (n := n) (k := k) (beam := beam) (by omega) hb q.length q (finals, []) rfl hq hfin (by simp)
    have hres : searchLoop S n beam (fuel + 1) q finals = searchLoop S n beam fuel
        (popMany S beam (expandQueue S n beam q.length q (finals, [])).2) (expandQueue S n beam q.length q (finals, [])).1 := by
      cases q with
      | nil => exact absurd rfl hne
      | cons s q => rfl
    rw [hres]
    by_cases hkn : k + 1 = n
    · obtain ⟨h5, h6⟩ := h3 hkn rfl
      rw [h5]
      have hpm : popMany S beam [] = [] := by
        cases beam with
        | zero => rfl
        | succ b => rw [popMany, hS.pop_nil]
      rw [hpm]
      exact ⟨_, by rw [searchLoop], h6 (Or.inr hne), h1⟩
    · obtain ⟨hm, hm'⟩ := popMany_mem hS beam (expandQueue S n beam q.length q (finals, [])).2
      exact searchLoop_spec hS hb fuel (k + 1) _ _ (by omega) (by omega) (hm' hb (h4 (by omega) (Or.inr hne)))
        (fun s hs => h2 s (hm s hs)) h1

theorem atomOrder_spec (hS : S.Lawful) {n beam : Nat} (hb : 0 < beam) : ∃ order, atomOrder S n beam = some order ∧ order.Perm (List.range n) := by
  unfold atomOrder
  by_cases hn : n = 0
  · subst hn
    exact ⟨[], by simp, by simp⟩
  · rw [if_neg hn]
    obtain ⟨r, h1, h2, h3⟩ := searchLoop_spec hS (n := n) hb n 0 [[]] [] (by omega) (by omega) (by simp)
      (by intro s hs; simp only [List.mem_singleton] at hs; subst hs; exact ⟨by simp, by simp, rfl⟩) (by simp)
    obtain ⟨s, r', hp, hperm⟩ := hS.pop r h2
    have hg := h3 s (hperm.mem_iff.mpr List.mem_cons_self)
    refine ⟨s, by rw [h1, Option.bind_some, hp]; rfl, ?_⟩
    have hsub : s.Subperm (List.range n) := List.subperm_of_subset hg.nodup (fun i hi => List.mem_range.mpr (hg.lt i hi))
    exact hsub.perm_of_length_le (by rw [List.length_range, hg.len]; exact Nat.le_refl n)

end Scallop.Plan
