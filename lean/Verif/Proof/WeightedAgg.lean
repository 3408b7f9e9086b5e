import Verif.Model.WeightedAgg
import Verif.Spec.WeightedAgg
import Verif.Proof.StringJoin
import Verif.Proof.InputTags
import Mathlib.Algebra.BigOperators.Ring.Finset

/-!
# Lemmas about weighted sums and averages
-/

namespace Scallop.WAgg

open Scallop.Agg Scallop.Input

variable {V T W Ω K : Type} [Field K] [DecidableEq K]

/-! ### Sums -/

omit [DecidableEq K] in
theorem numValue_num {num : V → Option K} {inj : K → V} (hnum : ∀ x, num (inj x) = some x) (n : Nat) (p : List (Tup V) × K) (hp : p.1.length = n) :
    numValue num n (wTuple inj n p) = some p.2 := by
  by_cases hn : n = 0
  · subst hn; simp [numValue, wTuple, asNum, hnum]
  · simp only [numValue, wTuple, if_neg hn, if_pos (Nat.pos_of_ne_zero hn), Tup.at?]
    simp [asNum, hnum, ← hp]

omit [DecidableEq K] in
theorem performSum_num {num : V → Option K} {inj : K → V} (hnum : ∀ x, num (inj x) = some x) (n : Nat) (l : List (K × (List (Tup V) × K)))
    (hl : ∀ p ∈ l, p.2.1.length = n) : performSum num n (l.map (fun p => (p.1, wTuple inj n p.2))) = some (l.map (fun p => p.1 * p.2.2)).sum := by
  unfold performSum
  suffices ∀ a, (l.map (fun p => (p.1, wTuple inj n p.2))).foldlM (fun sum p => (numValue num n p.2).map (fun v => sum + p.1 * v)) a =
      some (a + (l.map (fun p => p.1 * p.2.2)).sum) by simpa using this 0
  induction l with
  | nil => intro a; simp
  | cons p l ih =>
    intro a
    rw [List.map_cons, List.foldlM_cons, numValue_num hnum n p.2 (hl p (by simp))]
    simp only [Option.map_some, Option.bind_eq_bind, Option.bind_some]
    rw [ih (fun x hx => hl x (by simp [hx]))]
    simp [add_assoc]

theorem performAvg_num {num : V → Option K} {inj : K → V} (hnum : ∀ x, num (inj x) = some x) (n : Nat) (l : List (K × (List (Tup V) × K)))
    (hl : ∀ p ∈ l, p.2.1.length = n) : performAvg num n (l.map (fun p => (p.1, wTuple inj n p.2))) =
      some (if (l.map Prod.fst).sum = 0 then none else some ((l.map (fun p => p.1 * p.2.2)).sum / (l.map Prod.fst).sum)) := by
  unfold performAvg
  suffices ∀ a b, (l.map (fun p => (p.1, wTuple inj n p.2))).foldlM (avgStep num n) (a, b) =
      some (a + (l.map (fun p => p.1 * p.2.2)).sum, b + (l.map Prod.fst).sum) by
    rw [this 0 0]; simp
  induction l with
  | nil => intro a b; simp
  | cons p l ih =>
    intro a b
    rw [List.map_cons, List.foldlM_cons, avgStep, numValue_num hnum n p.2 (hl p (by simp))]
    simp only [Option.map_some, Option.bind_eq_bind, Option.bind_some]
    rw [ih (fun x hx => hl x (by simp [hx]))]
    simp [add_assoc]

/-- What is computed of weighted numbers. -/
def sumAvgOf (isSum : Bool) (l : List (K × K)) : Option K :=
  if isSum then some (l.map (fun p => p.1 * p.2)).sum
  else if (l.map Prod.fst).sum = 0 then none else some ((l.map (fun p => p.1 * p.2)).sum / (l.map Prod.fst).sum)

theorem performSumAvg_num {num : V → Option K} {inj : K → V} (hnum : ∀ x, num (inj x) = some x) (isSum : Bool) (n : Nat) (l : List (K × (List (Tup V) × K)))
    (hl : ∀ p ∈ l, p.2.1.length = n) : performSumAvg num isSum n (l.map (fun p => (p.1, wTuple inj n p.2))) = some (sumAvgOf isSum (l.map (fun p => (p.1, p.2.2)))) := by
  cases isSum with
  | true => simp [performSumAvg, performSum_num hnum n l hl, sumAvgOf, Function.comp_def]
  | false =>
    simp only [performSumAvg, Bool.false_eq_true, if_false, performAvg_num hnum n l hl, sumAvgOf, List.map_map, Function.comp_def]

omit [Field K] [DecidableEq K] in
theorem weighed_retuple (c : Prov T K) (inj : K → V) (n : Nat) (facts : List (Elem (List (Tup V) × K) T)) :
    weighed c (retuple (wTuple inj n) facts) =
      retuple (fun p => (p.1, wTuple inj n p.2)) (facts.map (fun e => (⟨(c.weight e.tag, e.tuple), e.tag⟩ : Elem (K × (List (Tup V) × K)) T))) := by
  simp [weighed, retuple, Function.comp_def]

/-! ### Expectations -/

omit [DecidableEq K] in
theorem expectation_sum (p x : Nat → K) (V : Finset Nat) : expectation p V (fun S => ∑ i ∈ S, x i) = ∑ i ∈ V, p i * x i := by
  classical
  have h : ∀ i ∈ V, expectation p V (fun S => if i ∈ S then 1 else 0) = p i := by
    intro i hi
    have := eventProb_all p (A := {i}) (V := V) (by simpa using hi)
    rw [Finset.prod_singleton] at this
    rw [← this]
    unfold expectation eventProb
    refine Finset.sum_congr rfl (fun S _ => ?_)
    by_cases hS : i ∈ S <;> simp [hS]
  have h2 : ∀ S ∈ V.powerset, (∏ i ∈ S, p i) * (∏ i ∈ V \ S, (1 - p i)) * (∑ i ∈ S, x i) =
      ∑ i ∈ V, ((∏ i ∈ S, p i) * (∏ i ∈ V \ S, (1 - p i)) * (if i ∈ S then 1 else 0)) * x i := by
    intro S hS
    have hsub := Finset.mem_powerset.1 hS
    rw [Finset.mul_sum, ← Finset.sum_subset hsub (f := fun i => ((∏ i ∈ S, p i) * (∏ i ∈ V \ S, (1 - p i)) * (if i ∈ S then 1 else 0)) * x i)]
    · exact Finset.sum_congr rfl (fun i hi => by simp [hi])
    · intro i _ hi; simp [hi]
  unfold expectation
  rw [Finset.sum_congr rfl h2, Finset.sum_comm]
  refine Finset.sum_congr rfl (fun i hi => ?_)
  rw [← Finset.sum_mul]
  have := h i hi
  unfold expectation at this
  rw [this]

/-- The sums over the subsets as lists and as sets. -/
theorem sum_powerset (n : Nat) (f : Finset Nat → K) : ((powerset n).map (fun s => f s.toFinset)).sum = ∑ S ∈ (Finset.range n).powerset, f S := by
  classical
  rw [← List.sum_toFinset _ (powerset_nodup n)]
  refine Finset.sum_bij (fun s _ => s.toFinset) ?_ ?_ ?_ ?_
  · intro s hs
    have := mem_powerset.1 (List.mem_toFinset.1 hs)
    rw [Finset.mem_powerset]
    intro i hi
    simpa using this.subset (List.mem_toFinset.1 hi)
  · intro s hs t ht he
    have h1 := mem_powerset.1 (List.mem_toFinset.1 hs)
    have h2 := mem_powerset.1 (List.mem_toFinset.1 ht)
    have hs' := (sublist_eq_filter h1 (fun i => decide (i ∈ s))).1 (fun i _ => by simp)
    have ht' := (sublist_eq_filter h2 (fun i => decide (i ∈ t))).1 (fun i _ => by simp)
    rw [hs', ht']
    apply List.filter_congr
    intro i _
    have : i ∈ s.toFinset ↔ i ∈ t.toFinset := by rw [he]
    simpa using this
  · intro S hS
    have hsub := Finset.mem_powerset.1 hS
    refine ⟨(List.range n).filter (fun i => decide (i ∈ S)), List.mem_toFinset.2 (mem_powerset.2 List.filter_sublist), ?_⟩
    ext i
    simp only [List.mem_toFinset, List.mem_filter, List.mem_range, decide_eq_true_eq]
    exact ⟨fun h => h.2, fun h => ⟨by simpa using hsub h, h⟩⟩
  · intro s _; rfl

end Scallop.WAgg

namespace Scallop.WAgg

open Scallop.Agg Scallop.Input

variable {K : Type} [Field K] [LinearOrder K]

theorem worldTag_addMult {α : Type} (batch : List (Elem α K)) (s : List Nat) (p : Nat → K) (hp : ∀ i e, batch[i]? = some e → p i = e.tag) :
    worldTag (addMultProv K) batch s = some (∏ i ∈ Finset.range batch.length, if i ∈ s then p i else 1 - p i) := by
  unfold worldTag
  have key : ∀ (l : List (Elem α K)) (j : Nat) (a : K), (∀ i e, l[i]? = some e → p (j + i) = e.tag) →
      (l.zipIdx j).foldl (worldStep (addMultProv K) s) (some a) = some (a * ∏ i ∈ Finset.range l.length, if j + i ∈ s then p (j + i) else 1 - p (j + i)) := by
    intro l
    induction l with
    | nil => intro j a _; simp
    | cons e l ih =>
      intro j a h
      have h0 : p j = e.tag := h 0 e rfl
      rw [List.zipIdx_cons, List.foldl_cons]
      have h1 : worldStep (addMultProv K) s (some a) (e, j) = some (a * (if j ∈ s then p j else 1 - p j)) := by
        by_cases hj : j ∈ s <;> simp [worldStep, hj, addMultProv, h0]
      rw [h1, ih (j + 1) _ (fun i e' hi => by have := h (i + 1) e' (by simpa using hi); rwa [Nat.add_right_comm, Nat.add_assoc]),
        List.length_cons, Finset.prod_range_succ']
      simp only [Nat.add_zero, Nat.add_right_comm _ 1, Nat.add_assoc]
      rw [mul_assoc, mul_comm (if j ∈ s then p j else 1 - p j)]
  have := key batch 0 (addMultProv K).one (by simpa using hp)
  simpa [addMultProv] using this

theorem prod_split (V S : Finset Nat) (hS : S ⊆ V) (p : Nat → K) :
    (∏ i ∈ V, if i ∈ S then p i else 1 - p i) = (∏ i ∈ S, p i) * ∏ i ∈ V \ S, (1 - p i) := by
  classical
  rw [← Finset.prod_sdiff hS, mul_comm]
  congr 1
  · exact Finset.prod_congr rfl (fun i hi => by simp [hi])
  · exact Finset.prod_congr rfl (fun i hi => by simp [(Finset.mem_sdiff.1 hi).2])

omit [LinearOrder K] in
theorem sum_positions {α : Type} (l : List α) (f : α → K) : ∑ i ∈ Finset.range l.length, (l[i]?).elim 0 f = (l.map f).sum := by
  induction l with
  | nil => rfl
  | cons a l ih => rw [List.length_cons, Finset.sum_range_succ', List.map_cons, List.sum_cons, ← ih, add_comm]; simp

omit [LinearOrder K] in
theorem chosen_sum {α : Type} {T : Type} (batch : List (Elem α T)) (g : α → K) (x : Nat → K) (hx : ∀ i e, batch[i]? = some e → x i = g e.tuple) (s : List Nat)
    (ts : List α) (h : chosenTuples batch s = some ts) : (ts.map g).sum = (s.map x).sum := by
  induction s generalizing ts with
  | nil => obtain rfl : [] = ts := by simpa [chosenTuples] using h
           rfl
  | cons i s ih =>
    unfold chosenTuples at h
    rw [List.mapM_cons] at h
    cases hb : batch[i]? with
    | none => simp [hb] at h
    | some e =>
      simp only [hb, Option.map_some, Option.bind_eq_bind, Option.bind_some, Option.bind_eq_some_iff, Option.pure_def, Option.some.injEq] at h
      obtain ⟨ts', h1, rfl⟩ := h
      rw [List.map_cons, List.sum_cons, List.map_cons, List.sum_cons, ih ts' h1, hx i e hb]

/-- The mean of a sum over all sets of chosen facts. -/
theorem mean_worlds {α : Type} (batch : List (Elem α K)) (g : α → K) (res : List (Elem (Option K) K)) (f : List α → Option (Option K))
    (hf : ∀ ts, ts.Sublist (batch.map Elem.tuple) → f ts = some (some (ts.map g).sum)) (hr : multiWorld (addMultProv K) f batch = some res) :
    ∃ ps : List (K × K), res = ps.map (fun p => ⟨some p.2, p.1⟩) ∧ (ps.map (fun p => p.1 * p.2)).sum = (batch.map (fun e => e.tag * g e.tuple)).sum := by
  classical
  let p : Nat → K := fun i => (batch[i]?).elim 0 Elem.tag
  let x : Nat → K := fun i => (batch[i]?).elim 0 (fun e => g e.tuple)
  have hp : ∀ i e, batch[i]? = some e → p i = e.tag := fun i e h => by simp [p, h]
  have hx : ∀ i e, batch[i]? = some e → x i = g e.tuple := fun i e h => by simp [x, h]
  obtain ⟨hres, -⟩ := multiWorld_eq hr
  refine ⟨(powerset batch.length).map (fun s => (∏ i ∈ Finset.range batch.length, if i ∈ s then p i else 1 - p i, (s.map x).sum)), ?_, ?_⟩
  · rw [hres, List.map_map]
    rw [List.filterMap_congr (g := some ∘ fun s => (⟨some (s.map x).sum, ∏ i ∈ Finset.range batch.length, if i ∈ s then p i else 1 - p i⟩ : Elem (Option K) K))]
    · rw [List.filterMap_eq_map]; rfl
    · intro s hs
      obtain ⟨ts, hts⟩ := chosenTuples_some hs
      have hsub : ts.Sublist (batch.map Elem.tuple) := by
        have h1 := mem_powerset.1 hs
        have h2 : ∀ (s' : List Nat) (ts' : List α), chosenTuples batch s' = some ts' → s'.map (fun i => (batch.map Elem.tuple)[i]?) = ts'.map some := by
          intro s'
          induction s' with
          | nil => intro ts' h; obtain rfl : [] = ts' := by simpa [chosenTuples] using h
                   rfl
          | cons i s' ih =>
            intro ts' h
            unfold chosenTuples at h
            rw [List.mapM_cons] at h
            cases hb : batch[i]? with
            | none => simp [hb] at h
            | some e =>
              simp only [hb, Option.map_some, Option.bind_eq_bind, Option.bind_some, Option.bind_eq_some_iff, Option.pure_def, Option.some.injEq] at h
              obtain ⟨ts'', h1, rfl⟩ := h
              rw [List.map_cons, List.map_cons, ih ts'' h1]
              simp [hb]
        have h3 := h2 s ts hts
        have h4 : (List.range batch.length).map (fun i => (batch.map Elem.tuple)[i]?) = (batch.map Elem.tuple).map some := by
          apply List.ext_getElem
          · simp
          · intro k h1 h2; simp only [List.length_map] at h2; simp [h2]
        have h5 := h1.map (fun i => (batch.map Elem.tuple)[i]?)
        rw [h3, h4] at h5
        have h6 := h5.filterMap id
        simpa [List.filterMap_map] using h6
      unfold worldResult
      rw [hts, Option.bind_some, hf ts hsub, Option.map_some, Option.join_some, worldTag_addMult batch s p hp, chosen_sum batch g x hx s ts hts]
      rfl
  · rw [List.map_map]
    have h1 : ∀ s ∈ powerset batch.length, ((fun q : K × K => q.1 * q.2) ∘ fun s : List Nat => (∏ i ∈ Finset.range batch.length, if i ∈ s then p i else 1 - p i, (s.map x).sum)) s =
        (fun S : Finset Nat => (∏ i ∈ S, p i) * (∏ i ∈ Finset.range batch.length \ S, (1 - p i)) * ∑ i ∈ S, x i) s.toFinset := by
      intro s hs
      have hsub := mem_powerset.1 hs
      have hnd : s.Nodup := hsub.nodup List.nodup_range
      have hS : s.toFinset ⊆ Finset.range batch.length := fun i hi => by simpa using hsub.subset (List.mem_toFinset.1 hi)
      simp only [Function.comp_apply]
      rw [← prod_split _ _ hS, List.sum_toFinset _ hnd]
      simp
    rw [List.map_congr_left h1]
    refine (sum_powerset batch.length (fun S : Finset Nat => (∏ i ∈ S, p i) * (∏ i ∈ Finset.range batch.length \ S, (1 - p i)) * ∑ i ∈ S, x i)).trans ?_
    have h2 := expectation_sum p x (Finset.range batch.length)
    unfold expectation at h2
    rw [h2, ← sum_positions]
    refine Finset.sum_congr rfl (fun i _ => ?_)
    cases hb : batch[i]? <;> simp [p, x, hb]

end Scallop.WAgg
