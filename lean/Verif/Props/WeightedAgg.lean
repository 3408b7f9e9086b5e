import Verif.Proof.WeightedAgg2
import Verif.Props.Aggregate
import Verif.Model.Ram

/-!
# Property theorems C102-C104: weighted sums, normalization and disjunctions, samplers and the registry
-/

namespace Scallop.WAgg

open Scallop.Agg Scallop.Input

/-! ## C102: weighted sums and averages -/

section
variable {V T W Ω K : Type} [Field K] [DecidableEq K] {c : Prov T K} {P : T → Prop} {holds : T → Ω → Prop} {num : V → Option K} {inj : K → V}

theorem trueIn_map_weight (w : Ω) (facts : List (Elem (List (Tup V) × K) T)) :
    trueIn holds w (facts.map (fun e => (⟨(c.weight e.tag, e.tuple), e.tag⟩ : Elem (K × (List (Tup V) × K)) T))) =
      (factsIn holds w facts).map (fun e => (c.weight e.tag, e.tuple)) := by
  simp only [trueIn, factsIn, List.filter_map, List.map_map]; rfl

theorem sublist_num (hnum : ∀ x, num (inj x) = some x) (isSum : Bool) (n : Nat) (facts : List (Elem (List (Tup V) × K) T)) (hargs : ∀ e ∈ facts, e.tuple.1.length = n)
    (ts : List (K × Tup V)) (hts : ts.Sublist ((weighed c (retuple (wTuple inj n) facts)).map Elem.tuple)) :
    ∃ l : List (K × (List (Tup V) × K)), ts = l.map (fun p => (p.1, wTuple inj n p.2)) ∧
      performSumAvg num isSum n ts = some (sumAvgOf isSum (l.map (fun p => (p.1, p.2.2)))) := by
  have hts' : ts.Sublist ((facts.map (fun e => (c.weight e.tag, e.tuple))).map (fun p => (p.1, wTuple inj n p.2))) := by
    rw [weighed_retuple] at hts
    simpa [retuple, Function.comp_def] using hts
  obtain ⟨l, hl, rfl⟩ := List.sublist_map_iff.1 hts'
  refine ⟨l, rfl, performSumAvg_num hnum isSum n l ?_⟩
  intro p hp
  obtain ⟨e, he, rfl⟩ := List.mem_map.1 (hl.subset hp)
  exact hargs e he

theorem weighted_exact (h : c.ExactIn P holds) (hnum : ∀ x, num (inj x) = some x) (isSum : Bool) (n : Nat) (facts : List (Elem (List (Tup V) × K) T))
    (hb : ∀ e ∈ facts, P e.tag) (hargs : ∀ e ∈ facts, e.tuple.1.length = n) :
    ∃ res, weightedSumAvg c num isSum n false (retuple (wTuple inj n) facts) = some res ∧
      ∀ w, trueIn holds w res = [sumAvgOf isSum ((factsIn holds w facts).map (fun e => (c.weight e.tag, e.tuple.2)))] := by
  simp only [weightedSumAvg, Bool.false_eq_true, if_false]
  obtain ⟨res, hres⟩ := multiWorld_some (c := c) (f := performSumAvg num isSum n) (batch := weighed c (retuple (wTuple inj n) facts)) (by
    intro ts hts
    obtain ⟨l, _, hl⟩ := sublist_num hnum isSum n facts hargs ts hts
    exact ⟨_, hl⟩)
  refine ⟨res, hres, fun w => ?_⟩
  rw [weighed_retuple] at hres
  obtain ⟨v, hv, hw⟩ := multiWorld_exact h (retuple_mem (P := P) (by
    intro e he; obtain ⟨e', he', rfl⟩ := List.mem_map.1 he; exact hb e' he')) hres w
  rw [trueIn_retuple, trueIn_map_weight, performSumAvg_num hnum isSum n _ (by
    intro p hp; obtain ⟨e, he, rfl⟩ := List.mem_map.1 hp; exact hargs e (List.mem_filter.1 he).1)] at hv
  rw [hw, ← Option.some.inj hv, List.map_map]
  rfl

/-- **C102.** With exact tags `weighted_sum` never panics on numbers, and in every world exactly one result is true: the sum of the numbers of the facts true in that
world, each times the weight of its tag. -/
theorem c102_sum (h : c.ExactIn P holds) (hnum : ∀ x, num (inj x) = some x) (n : Nat) (facts : List (Elem (List (Tup V) × K) T))
    (hb : ∀ e ∈ facts, P e.tag) (hargs : ∀ e ∈ facts, e.tuple.1.length = n) :
    ∃ res, weightedSumAvg c num true n false (retuple (wTuple inj n) facts) = some res ∧
      ∀ w, trueIn holds w res = [some ((factsIn holds w facts).map (fun e => c.weight e.tag * e.tuple.2)).sum] := by
  obtain ⟨res, h1, h2⟩ := weighted_exact h hnum true n facts hb hargs
  exact ⟨res, h1, fun w => by rw [h2 w]; simp [sumAvgOf, Function.comp_def]⟩

/-- C102: likewise `weighted_avg`, if the weights of the facts true in a world do not add up to 0. -/
theorem c102_avg_partial (h : c.ExactIn P holds) (hnum : ∀ x, num (inj x) = some x) (n : Nat) (facts : List (Elem (List (Tup V) × K) T))
    (hb : ∀ e ∈ facts, P e.tag) (hargs : ∀ e ∈ facts, e.tuple.1.length = n) :
    ∃ res, weightedSumAvg c num false n false (retuple (wTuple inj n) facts) = some res ∧
      ∀ w, ((factsIn holds w facts).map (fun e => c.weight e.tag)).sum ≠ 0 →
        trueIn holds w res = [some (((factsIn holds w facts).map (fun e => c.weight e.tag * e.tuple.2)).sum / ((factsIn holds w facts).map (fun e => c.weight e.tag)).sum)] := by
  obtain ⟨res, h1, h2⟩ := weighted_exact h hnum false n facts hb hargs
  refine ⟨res, h1, fun w hw => ?_⟩
  rw [h2 w]
  simp only [sumAvgOf, Bool.false_eq_true, if_false, List.map_map, Function.comp_def]
  rw [if_neg hw]

/-- C102 refuted for averages: in a world in which no fact is true, the true result is not a number (0/0). -/
theorem c102_avg_false (h : c.ExactIn P holds) (hnum : ∀ x, num (inj x) = some x) (n : Nat) (facts : List (Elem (List (Tup V) × K) T))
    (hb : ∀ e ∈ facts, P e.tag) (hargs : ∀ e ∈ facts, e.tuple.1.length = n) (w : Ω) (hw : ∀ e ∈ facts, ¬ holds e.tag w) :
    ∃ res, weightedSumAvg c num false n false (retuple (wTuple inj n) facts) = some res ∧ trueIn holds w res = [none] := by
  obtain ⟨res, h1, h2⟩ := weighted_exact h hnum false n facts hb hargs
  refine ⟨res, h1, ?_⟩
  have : factsIn holds w facts = [] := by
    rw [factsIn, List.filter_eq_nil_iff]
    intro e he
    simpa using hw e he
  rw [h2 w, this]
  simp [sumAvgOf]

/-- C102: `weighted_sum!` and `weighted_avg!` are the weighted sum and average of all facts (not a number if the weights add up to 0), and always hold. -/
theorem c102_discrete (hnum : ∀ x, num (inj x) = some x) (n : Nat) (facts : List (Elem (List (Tup V) × K) T)) (hargs : ∀ e ∈ facts, e.tuple.1.length = n) :
    weightedSumAvg c num true n true (retuple (wTuple inj n) facts) = some [⟨some (facts.map (fun e => c.weight e.tag * e.tuple.2)).sum, c.one⟩] ∧
    weightedSumAvg c num false n true (retuple (wTuple inj n) facts) =
      some [⟨if (facts.map (fun e => c.weight e.tag)).sum = 0 then none
        else some ((facts.map (fun e => c.weight e.tag * e.tuple.2)).sum / (facts.map (fun e => c.weight e.tag)).sum), c.one⟩] := by
  have hm : ∀ b, performSumAvg num b n ((weighed c (retuple (wTuple inj n) facts)).map Elem.tuple) =
      some (sumAvgOf b (facts.map (fun e => (c.weight e.tag, e.tuple.2)))) := by
    intro b
    have he : (weighed c (retuple (wTuple inj n) facts)).map Elem.tuple = (facts.map (fun e => (c.weight e.tag, e.tuple))).map (fun p => (p.1, wTuple inj n p.2)) := by
      rw [weighed_retuple]; simp [retuple, Function.comp_def]
    rw [he, performSumAvg_num hnum b n _ (by intro p hp; obtain ⟨e, he, rfl⟩ := List.mem_map.1 hp; exact hargs e he), List.map_map]
    rfl
  constructor
  · simp [weightedSumAvg, hm, sumAvgOf, Function.comp_def]
  · simp only [weightedSumAvg, if_true, hm, sumAvgOf, Bool.false_eq_true, if_false, Option.map_some, List.map_map, Function.comp_def]

end

section
variable {V T : Type} {K : Type} [Field K] [LinearOrder K]

/-- C102: with weights that are not negative, a weighted average lies between the least and the greatest number. -/
theorem c102_bounds [IsStrictOrderedRing K] (l : List (K × K)) (hw : ∀ p ∈ l, 0 ≤ p.1) (lo hi : K) (hb : ∀ p ∈ l, lo ≤ p.2 ∧ p.2 ≤ hi) {num : V → Option K} {inj : K → V}
    (hnum : ∀ x, num (inj x) = some x) (r : K)
    (hr : performSumAvg num false 0 (l.map (fun p => (p.1, Tup.val (inj p.2)))) = some (some r)) : lo ≤ r ∧ r ≤ hi := by
  have h1 := performSumAvg_num hnum false 0 (l.map (fun p => (p.1, (([] : List (Tup V)), p.2)))) (by intro p hp; obtain ⟨q, _, rfl⟩ := List.mem_map.1 hp; rfl)
  rw [List.map_map] at h1
  have h2 : (fun p : K × (List (Tup V) × K) => (p.1, wTuple inj 0 p.2)) ∘ (fun p : K × K => (p.1, (([] : List (Tup V)), p.2))) = fun p => (p.1, Tup.val (inj p.2)) := by
    funext p; simp [wTuple]
  rw [h2, hr] at h1
  simp only [sumAvgOf, Bool.false_eq_true, if_false, List.map_map, Function.comp_def, Option.some.injEq] at h1
  have hpos : ∀ m : List (K × K), (∀ p ∈ m, 0 ≤ p.1) → 0 ≤ (m.map (fun p => p.1)).sum := by
    intro m hm
    apply List.sum_nonneg
    intro x hx
    obtain ⟨p, hp, rfl⟩ := List.mem_map.1 hx
    exact hm p hp
  have hmid : ∀ m : List (K × K), (∀ p ∈ m, 0 ≤ p.1) → (∀ p ∈ m, lo ≤ p.2 ∧ p.2 ≤ hi) →
      lo * (m.map (fun p => p.1)).sum ≤ (m.map (fun p => p.1 * p.2)).sum ∧ (m.map (fun p => p.1 * p.2)).sum ≤ hi * (m.map (fun p => p.1)).sum := by
    intro m
    induction m with
    | nil => intro _ _; simp
    | cons p m ih =>
      intro h3 h4
      have := ih (fun q hq => h3 q (by simp [hq])) (fun q hq => h4 q (by simp [hq]))
      have h5 := h3 p (by simp)
      have h6 := h4 p (by simp)
      simp only [List.map_cons, List.sum_cons]
      constructor
      · have := mul_le_mul_of_nonneg_left h6.1 h5
        nlinarith
      · have := mul_le_mul_of_nonneg_left h6.2 h5
        nlinarith
  split at h1
  · cases h1
  · rename_i hne
    obtain rfl := Option.some.inj h1
    have hp : 0 < (l.map (fun p => p.1)).sum := lt_of_le_of_ne (hpos l hw) (Ne.symm hne)
    have := hmid l hw hb
    exact ⟨(le_div_iff₀ hp).2 this.1, (div_le_iff₀ hp).2 this.2⟩

/-- **C102.** With independent facts whose tags are their probabilities, `weighted_sum!` is the expected sum of the numbers of the true facts. -/
theorem c102_expected {num : V → Option K} {inj : K → V} (hnum : ∀ x, num (inj x) = some x) (n : Nat) (facts : List (Elem (List (Tup V) × K) K))
    (hargs : ∀ e ∈ facts, e.tuple.1.length = n) :
    weightedSumAvg (addMultProv K) num true n true (retuple (wTuple inj n) facts) =
      some [⟨some (expectation (fun i => (facts[i]?).elim 0 Elem.tag) (Finset.range facts.length)
        (fun S => ∑ i ∈ S, (facts[i]?).elim 0 (fun e => e.tuple.2))), 1⟩] := by
  rw [(c102_discrete (c := addMultProv K) hnum n facts hargs).1, expectation_sum, ← sum_positions]
  congr 4
  refine Finset.sum_congr rfl (fun i _ => ?_)
  cases facts[i]? <;> simp [addMultProv]

/-- C102 refuted for `weighted_sum` without `!`: the mean of its results is not the expected sum: every weight counts twice, once in the tag and once in the number. -/
theorem c102_mean_false {num : V → Option K} {inj : K → V} (hnum : ∀ x, num (inj x) = some x) (n : Nat) (facts : List (Elem (List (Tup V) × K) K))
    (hargs : ∀ e ∈ facts, e.tuple.1.length = n) (res : List (Elem (Option K) K))
    (hr : weightedSumAvg (addMultProv K) num true n false (retuple (wTuple inj n) facts) = some res) :
    ∃ ps : List (K × K), res = ps.map (fun p => ⟨some p.2, p.1⟩) ∧ (ps.map (fun p => p.1 * p.2)).sum = (facts.map (fun e => e.tag ^ 2 * e.tuple.2)).sum := by
  simp only [weightedSumAvg, Bool.false_eq_true, if_false] at hr
  rw [weighed_retuple] at hr
  obtain ⟨ps, h1, h2⟩ := mean_worlds _ (fun p => p.1 * ((numValue num n p.2).elim 0 id)) res (performSumAvg num true n) (by
    intro ts hts
    rw [← weighed_retuple] at hts
    have hts' : ts.Sublist ((facts.map (fun e => ((addMultProv K).weight e.tag, e.tuple))).map (fun p => (p.1, wTuple inj n p.2))) := by
      rw [weighed_retuple] at hts
      simpa [retuple, Function.comp_def] using hts
    obtain ⟨l, hl, rfl⟩ := List.sublist_map_iff.1 hts'
    have hlen : ∀ p ∈ l, p.2.1.length = n := by
      intro p hp
      obtain ⟨e, he, rfl⟩ := List.mem_map.1 (hl.subset hp)
      exact hargs e he
    rw [performSumAvg_num hnum true n l hlen]
    simp only [sumAvgOf, if_true, List.map_map, Option.some.injEq]
    congr 1
    apply List.map_congr_left
    intro p hp
    simp [numValue_num hnum n p.2 (hlen p hp)]) hr
  refine ⟨ps, h1, ?_⟩
  rw [h2]
  simp only [retuple, List.map_map]
  congr 1
  apply List.map_congr_left
  intro e he
  simp only [Function.comp_apply, numValue_num hnum n e.tuple (hargs e he), Option.elim_some, id]
  simp only [addMultProv]
  ring

end

/-- Three numbers with fuzzy tags. -/
def exNumbers : List (Elem (List (Tup ℚ) × ℚ) ℚ) := [⟨([], 10), 9 / 10⟩, ⟨([], 20), 2 / 10⟩, ⟨([], 30), 8 / 10⟩]

example : (∀ x : ℚ, (some x : Option ℚ) = some x) ∧ (∀ e ∈ exNumbers, e.tag ≠ 1 / 2) ∧ (∀ e ∈ exNumbers, e.tuple.1.length = 0) := by
  refine ⟨fun _ => rfl, ?_, ?_⟩ <;> intro e he <;> simp only [exNumbers, List.mem_cons, List.not_mem_nil, or_false] at he <;>
    rcases he with rfl | rfl | rfl <;> norm_num
example : weightedSumAvg (minMaxProv ℚ) some false 0 true (retuple (wTuple id 0) exNumbers) = some [⟨some (370 / 19), 1⟩] := by decide +kernel
/-- A number 10 with probability 1/2 has the expected sum 5; `weighted_sum!` gives it, `weighted_sum` gives 5 with probability 1/2. -/
theorem c102_example : weightedSumAvg (addMultProv ℚ) some true 0 true (retuple (wTuple id 0) [⟨(([] : List (Tup ℚ)), 10), 1 / 2⟩]) = some [⟨some 5, 1⟩] ∧
    weightedSumAvg (addMultProv ℚ) some true 0 false (retuple (wTuple id 0) [⟨(([] : List (Tup ℚ)), 10), 1 / 2⟩]) = some [⟨some 0, 1 / 2⟩, ⟨some 5, 1 / 2⟩] := by
  decide +kernel

/-! ## C103: normalization and disjunctions -/

section
variable {V K : Type} [Field K] [DecidableEq K]

/-- **C103.** With tags that are probabilities `normalize` and `softmax` keep the facts and their order, the new probabilities add up to 1, and each is the old weight (or its
exponential) over the sum of them; they are undefined exactly if that sum is 0. -/
theorem c103_float (exp : K → K) (soft : Bool) (batch : List (Elem (Tup V) K)) (hne : batch ≠ []) :
    (normalizeFloat exp soft batch = none ↔ (batch.map (fun e => if soft then exp e.tag else e.tag)).sum = 0) ∧
    ∀ es, normalizeFloat exp soft batch = some es → es.map Elem.tuple = batch.map Elem.tuple ∧ (es.map Elem.tag).sum = 1 ∧
      es.map (fun e => e.tag * (batch.map (fun e => if soft then exp e.tag else e.tag)).sum) = batch.map (fun e => if soft then exp e.tag else e.tag) := by
  have hw := normalizedWeights_spec exp soft (batch.map Elem.tag)
  simp only [List.map_map, Function.comp_def, ne_eq, List.map_eq_nil_iff, hne, not_false_eq_true, and_true] at hw
  set tot := (batch.map (fun e => if soft then exp e.tag else e.tag)).sum with htot
  unfold normalizeFloat
  by_cases h0 : tot = 0
  · rw [if_pos h0] at hw
    rw [hw]
    simp [h0]
  · rw [if_neg h0] at hw
    rw [hw]
    refine ⟨by simp [h0], ?_⟩
    intro es hes
    simp only [Option.map_some, Option.some.injEq] at hes
    have hz : es = batch.map (fun e => ⟨e.tuple, (if soft then exp e.tag else e.tag) / tot⟩) := by
      rw [← hes]
      clear hes hw htot
      clear_value tot
      clear hne
      induction batch with
      | nil => rfl
      | cons e l ih => simp only [List.map_cons, List.zip_cons_cons, ih]
    subst hz
    refine ⟨by simp [Function.comp_def], ?_, ?_⟩
    · have := sum_div (batch.map (fun e => if soft then exp e.tag else e.tag)) tot
      rw [List.map_map] at this
      rw [List.map_map]
      refine Eq.trans this ?_
      rw [← htot, div_self h0]
    · rw [List.map_map]
      apply List.map_congr_left
      intro e _
      simp only [Function.comp_apply]
      rw [div_mul_cancel₀ _ h0]

/-- C103: `softmax` is always defined, if exponentials are positive. -/
theorem c103_softmax [LinearOrder K] [IsStrictOrderedRing K] (exp : K → K) (hexp : ∀ x, 0 < exp x) (batch : List (Elem (Tup V) K)) (hne : batch ≠ []) :
    ∃ es, normalizeFloat exp true batch = some es := by
  have h := (c103_float exp true batch hne).1
  cases hn : normalizeFloat exp true batch with
  | some es => exact ⟨es, rfl⟩
  | none =>
    exfalso
    have h1 := h.1 hn
    cases batch with
    | nil => exact hne rfl
    | cons e l =>
      have h2 : 0 ≤ (l.map (fun e => exp e.tag)).sum := by
        apply List.sum_nonneg
        intro x hx
        obtain ⟨y, _, rfl⟩ := List.mem_map.1 hx
        exact (hexp _).le
      simp only [List.map_cons, List.sum_cons, if_true] at h1
      have := hexp e.tag
      linarith

/-- C103 refuted: `normalize` has no result for facts all of weight 0 (they become not a number). -/
theorem c103_zero_false (batch : List (Elem (Tup V) K)) (hne : batch ≠ []) (hz : ∀ e ∈ batch, e.tag = 0) (exp : K → K) : normalizeFloat exp false batch = none := by
  rw [(c103_float exp false batch hne).1]
  apply List.sum_eq_zero
  intro x hx
  obtain ⟨e, he, rfl⟩ := List.mem_map.1 hx
  simpa using hz e he

end

example : normalizeFloat id false ([⟨.val "a", 1 / 2⟩, ⟨.val "b", 1 / 4⟩] : List (Elem (Tup String) ℚ)) = some [⟨.val "a", 2 / 3⟩, ⟨.val "b", 1 / 3⟩] := by decide +kernel
example : ∀ x : ℚ, 0 < x * x + 1 := fun x => by have := mul_self_nonneg x; linarith

/-- C103 refuted for all other provenances, among them all differentiable ones: `normalize` changes nothing. -/
theorem c103_default_false : (∀ batch : List (Elem (Tup String) ℚ), (normalizeDefault batch).map (fun e => (e.tuple, e.tag)) = batch.map (fun e => (e.tuple, e.tag))) ∧
    ¬ ∀ batch : List (Elem (Tup String) ℚ), batch ≠ [] → ((normalizeDefault batch).map Elem.tag).sum = 1 := by
  refine ⟨fun _ => rfl, fun h => ?_⟩
  have := h [⟨.val "a", 1 / 2⟩, ⟨.val "b", 1 / 4⟩] (by simp)
  norm_num [normalizeDefault] at this

section
variable {V K : Type} [Field K] [LinearOrder K]

/-- **C103.** With proofs as tags, after any history of facts and with a new exclusion, `normalize` does not panic and keeps the facts and their order: each becomes a new
fact, these have the new probabilities, which add up to 1, and no two of them hold together. -/
theorem c103_proofs (exp : K → K) (soft : Bool) (weight : Dnf → K) (x : Nat) (s : Reg K) (log : List (Option Nat)) (hs : History s log) (batch : List (Elem (Tup V) Dnf))
    (hne : batch ≠ []) (htot : (batch.map (fun e => if soft then exp (weight e.tag) else weight e.tag)).sum ≠ 0) :
    ∃ s' es ws, normalizeProofs exp soft weight x s batch = some (some (s', es)) ∧ es.map Elem.tuple = batch.map Elem.tuple ∧ s'.probs = s.probs ++ ws ∧ ws.sum = 1 ∧
      ws.map (fun p => p * (batch.map (fun e => if soft then exp (weight e.tag) else weight e.tag)).sum) =
        batch.map (fun e => if soft then exp (weight e.tag) else weight e.tag) ∧
      (∀ (i : Nat) e, es[i]? = some e → e.tag = [[.pos (s.probs.length + i)]]) ∧
      ∀ (k i j : Nat) e1 e2, i ≠ j → es[i]? = some e1 → es[j]? = some e2 → (DnfCtx.mk s'.prob s'.disj).topKMult k e1.tag e2.tag = [] := by
  have hw := normalizedWeights_spec exp soft (batch.map (fun e => weight e.tag))
  simp only [List.map_map, Function.comp_def, ne_eq, List.map_eq_nil_iff, hne, not_false_eq_true, and_true] at hw
  rw [if_neg htot] at hw
  set tot := (batch.map (fun e => if soft then exp (weight e.tag) else weight e.tag)).sum with htotd
  obtain ⟨s', es, h1, h2, h3, h4⟩ := registerAll_spec x ((batch.map Elem.tuple).zip (batch.map (fun e => (if soft then exp (weight e.tag) else weight e.tag) / tot))) s log hs
  have htag : ∀ (i : Nat) e, es[i]? = some e → e.tag = [[.pos (s.probs.length + i)]] := by
    intro i e he
    rw [h4, List.getElem?_map, List.getElem?_zipIdx] at he
    cases hq : ((batch.map Elem.tuple).zip (batch.map (fun e => (if soft then exp (weight e.tag) else weight e.tag) / tot)))[i]? with
    | none => simp [hq] at he
    | some q =>
      simp only [hq, Option.map_some, Option.some.injEq] at he
      rw [← he]
      simp
  have hlen : ((batch.map Elem.tuple).zip (batch.map (fun e => (if soft then exp (weight e.tag) else weight e.tag) / tot))).length = batch.length := by simp
  have heslen : es.length = batch.length := by rw [h4]; simp
  have hsl : s.probs.length = log.length := hs.inv.2
  refine ⟨s', es, batch.map (fun e => (if soft then exp (weight e.tag) else weight e.tag) / tot), ?_, ?_, ?_, ?_, ?_, htag, ?_⟩
  · rw [normalizeProofs, hw, Option.map_some, h1]
  · rw [h4, List.map_map]
    have : (Elem.tuple ∘ fun q : (Tup V × K) × Nat => (⟨q.1.1, [[.pos (s.probs.length + q.2)]]⟩ : Elem (Tup V) Dnf)) = Prod.fst ∘ Prod.fst := by funext q; rfl
    rw [this, ← List.map_map, List.zipIdx_map_fst, List.map_fst_zip (by simp)]
  · rw [h2, List.map_snd_zip (by simp)]
  · have := sum_div (batch.map (fun e => if soft then exp (weight e.tag) else weight e.tag)) tot
    rw [List.map_map] at this
    refine Eq.trans this ?_
    rw [← htotd, div_self htot]
  · rw [List.map_map]
    apply List.map_congr_left
    intro e _
    simp only [Function.comp_apply]
    rw [div_mul_cancel₀ _ htot]
  · intro k i j e1 e2 hij he1 he2
    have hi : i < batch.length := by rw [← heslen]; exact (List.getElem?_eq_some_iff.1 he1).1
    have hj : j < batch.length := by rw [← heslen]; exact (List.getElem?_eq_some_iff.1 he2).1
    rw [htag i e1 he1, htag j e2 he2]
    refine mult_exclusive h3.inv.1 k _ _ (a := s.probs.length + i) (b := s.probs.length + j) (e := x) (by omega) ?_ ?_ ?_ ?_
    · rw [hsl, List.getElem?_append_right (by omega), List.getElem?_replicate]
      rw [hlen, if_pos (by omega)]
    · rw [hsl, List.getElem?_append_right (by omega), List.getElem?_replicate]
      rw [hlen, if_pos (by omega)]
    · intro c hc
      simp only [List.mem_singleton] at hc
      subst hc
      exact ⟨List.pairwise_singleton _ _, by simp⟩
    · intro c hc
      simp only [List.mem_singleton] at hc
      subst hc
      exact ⟨List.pairwise_singleton _ _, by simp⟩

/-- C103 refuted: a normalized fact forgets what it was derived from: whatever is true of the old facts, each new fact can hold. -/
theorem c103_forgets_false (exp : K → K) (soft : Bool) (weight : Dnf → K) (x : Nat) (s s' : Reg K) (log : List (Option Nat)) (hs : History s log)
    (batch es : List (Elem (Tup V) Dnf)) (hn : normalizeProofs exp soft weight x s batch = some (some (s', es))) (e : Elem (Tup V) Dnf) (he : e ∈ es) (w : Nat → Bool) :
    ∃ w', (∀ i < s.probs.length, w' i = w i) ∧ dnfHolds w' e.tag := by
  simp only [normalizeProofs, Option.map_eq_some_iff] at hn
  obtain ⟨ws, _, h⟩ := hn
  obtain ⟨s2, es2, h1, _, _, h4⟩ := registerAll_spec x ((batch.map Elem.tuple).zip ws) s log hs
  rw [h1] at h
  obtain ⟨rfl, rfl⟩ := Prod.mk.inj (Option.some.inj h)
  rw [h4] at he
  obtain ⟨q, _, rfl⟩ := List.mem_map.1 he
  refine ⟨fun i => if i < s.probs.length then w i else true, fun i hi => by simp [hi], [.pos (s.probs.length + q.2)], by simp, ?_⟩
  intro l hl
  simp only [List.mem_singleton] at hl
  subst hl
  simp [Literal.holds]

theorem runs {α : Type} (as : List α) (xs : List Nat) (h : ∀ (i x y : Nat), xs[i]? = some x → xs[i + 1]? = some y → (x = y ↔ as[i]? = as[i + 1]?) ∧ x ≤ y) (i d x y : Nat)
    (hx : xs[i]? = some x) (hy : xs[i + d]? = some y) : (x = y ↔ ∀ m, i ≤ m → m ≤ i + d → as[m]? = as[i]?) ∧ x ≤ y := by
  induction d generalizing y with
  | zero =>
    obtain rfl : x = y := by rw [Nat.add_zero, hx] at hy; exact Option.some.inj hy
    refine ⟨⟨fun _ m h1 h2 => ?_, fun _ => rfl⟩, le_refl _⟩
    obtain rfl : m = i := by omega
    rfl
  | succ d ih =>
    have hlt : i + d < xs.length := by
      have := (List.getElem?_eq_some_iff.1 hy).1
      omega
    have hz : xs[i + d]? = some xs[i + d] := List.getElem?_eq_getElem hlt
    obtain ⟨h1, h2⟩ := ih _ hz
    obtain ⟨h3, h4⟩ := h _ _ _ hz hy
    refine ⟨⟨fun he m hm1 hm2 => ?_, fun ha => ?_⟩, le_trans h2 h4⟩
    · have e1 : x = xs[i + d] := by omega
      have e2 : xs[i + d] = y := by omega
      by_cases hm : m ≤ i + d
      · exact h1.1 e1 m hm1 hm
      · obtain rfl : m = i + d + 1 := by omega
        rw [← h3.1 e2]
        exact h1.1 e1 _ (by omega) (le_refl _)
    · have e1 : x = xs[i + d] := h1.2 (fun m hm1 hm2 => ha m hm1 (by omega))
      have e2 : xs[i + d] = y := h3.2 (by rw [ha (i + d) (by omega) (by omega), ha (i + d + 1) (by omega) (by omega)])
      omega

/-- The exclusions of `disjunct`. -/
theorem exclusions_spec [DecidableEq (Tup V)] (n next : Nat) (hn : 0 < n) (as : List (List (Tup V))) (ts : List (Tup V)) (hts : ts.map (argsOf n) = as.map some) :
    ∃ xs next', exclusions n next ts = some (xs, next') ∧ xs.length = ts.length ∧ (∀ x ∈ xs, next ≤ x ∧ x < next') ∧
      ∀ (i j x y : Nat), i ≤ j → xs[i]? = some x → xs[j]? = some y → (x = y ↔ ∀ m, i ≤ m → m ≤ j → as[m]? = as[i]?) := by
  cases ts with
  | nil => exact ⟨[], next, rfl, rfl, by simp, by simp⟩
  | cons t ts =>
    cases as with
    | nil => simp at hts
    | cons a as =>
      obtain ⟨xs, next', h1, h2, h3, h4, h5, h6⟩ := exclusionLoop_spec n (a :: as) (t :: ts) hts a next (next + 1)
      have ht : argsOf n t = some a := by
        rw [List.map_cons, List.map_cons, List.cons.injEq] at hts
        exact hts.1
      refine ⟨xs, next', ?_, h2, ?_, ?_⟩
      · simp only [exclusions, if_neg (Nat.pos_iff_ne_zero.1 hn), ht, Option.bind_some]
        exact h1
      · intro x hx
        obtain ⟨i, hi⟩ := List.mem_iff_getElem?.1 hx
        obtain ⟨h7, h8⟩ := h4 i x hi
        omega
      · intro i j x y hij hx hy
        obtain ⟨d, rfl⟩ := Nat.exists_eq_add_of_le hij
        exact (runs _ xs (fun i x y h7 h8 => h6 i x y h7 h8 (by omega)) i d x y hx hy).1

/-- What `disjunct` gives, from its exclusions. -/
theorem disjunct_of_exclusions [DecidableEq (Tup V)] (k n next next' : Nat) (s : Reg K) (log : List (Option Nat)) (hs : History s log) (batch : List (Elem (Tup V) Dnf))
    (hc : ∀ e ∈ batch, ∀ c ∈ e.tag, c.Sorted) (xs : List Nat) (hx : exclusions n next (batch.map Elem.tuple) = some (xs, next')) (hlen : xs.length = batch.length) :
    ∃ s' es, disjunct (fun r => (DnfCtx.mk r.prob r.disj).topKMult k) .exclusiveProb n next s batch = some (s', next', es) ∧
      es.map Elem.tuple = batch.map Elem.tuple ∧ s'.probs = s.probs ++ batch.map (fun _ => 1) ∧ History s' (log ++ xs.map some) ∧
      (∀ (i : Nat) e e', batch[i]? = some e → es[i]? = some e' → ∀ w, dnfHolds w e'.tag → dnfHolds w e.tag) ∧
      ∀ (k' i j x : Nat) e1 e2, i ≠ j → es[i]? = some e1 → es[j]? = some e2 → xs[i]? = some x → xs[j]? = some x →
        (DnfCtx.mk s'.prob s'.disj).topKMult k' e1.tag e2.tag = [] := by
  obtain ⟨s', es, h1, h2, h3, h4, h5⟩ := disjunctTags_spec (K := K) k (batch.zip xs) (by
    intro p hp c hpc
    exact hc p.1 (List.of_mem_zip hp).1 c hpc) s log hs
  have hm1 : (batch.zip xs).map (fun p => some p.2) = xs.map some := by
    have : (fun p : Elem (Tup V) Dnf × Nat => some p.2) = some ∘ Prod.snd := rfl
    rw [this, ← List.map_map, List.map_snd_zip (by omega)]
  have hm2 : (batch.zip xs).map (fun p => p.1.tuple) = batch.map Elem.tuple := by
    have : (fun p : Elem (Tup V) Dnf × Nat => p.1.tuple) = Elem.tuple ∘ Prod.fst := rfl
    rw [this, ← List.map_map, List.map_fst_zip (by omega)]
  have hm3 : (batch.zip xs).map (fun _ => (1 : K)) = batch.map (fun _ => 1) := by
    have : (fun _ : Elem (Tup V) Dnf × Nat => (1 : K)) = (fun _ => 1) ∘ Prod.fst := rfl
    rw [this, ← List.map_map, List.map_fst_zip (by omega)]
  have hzip : ∀ (i : Nat) e x, batch[i]? = some e → xs[i]? = some x → (batch.zip xs)[i]? = some (e, x) := by
    intro i e x he hx
    rw [List.getElem?_zip_eq_some]
    exact ⟨he, hx⟩
  have hes : es.length = batch.length := by
    have := congrArg List.length h4
    simpa [hm2, hlen] using this
  have hb : ∀ (i : Nat) e', es[i]? = some e' → ∃ e x, batch[i]? = some e ∧ xs[i]? = some x := by
    intro i e' h
    have hi := (List.getElem?_eq_some_iff.1 h).1
    exact ⟨batch[i], xs[i], List.getElem?_eq_getElem (by omega), List.getElem?_eq_getElem (by omega)⟩
  have hsl := hs.inv.2
  rw [hm1] at h2
  refine ⟨s', es, ?_, h4.trans hm2, h3.trans (by rw [hm3]), h2, ?_, ?_⟩
  · rw [disjunct, hx, Option.bind_some, h1, Option.map_some]
  · intro i e e' he he'
    obtain ⟨_, x, _, hx⟩ := hb i e' he'
    exact (h5 i e' (e, x) he' (hzip i e x he hx)).2
  · intro k' i j x e1 e2 hij he1 he2 hx1 hx2
    obtain ⟨b1, _, hb1, _⟩ := hb i e1 he1
    obtain ⟨b2, _, hb2, _⟩ := hb j e2 he2
    refine mult_exclusive h2.inv.1 k' _ _ (a := s.probs.length + i) (b := s.probs.length + j) (e := x) (by omega) ?_ ?_ (h5 i e1 _ he1 (hzip i b1 x hb1 hx1)).1
      (h5 j e2 _ he2 (hzip j b2 x hb2 hx2)).1
    · rw [hsl, List.getElem?_append_right (by omega), List.getElem?_map]
      simp [hx1]
    · rw [hsl, List.getElem?_append_right (by omega), List.getElem?_map]
      simp [hx2]

/-- **C103.** Without arguments, `disjunct` keeps the facts and their order, no new tag holds where the old one does not, and no two of the new facts hold together. -/
theorem c103_disjunct [DecidableEq (Tup V)] (k next : Nat) (s : Reg K) (log : List (Option Nat)) (hs : History s log) (batch : List (Elem (Tup V) Dnf)) (hne : batch ≠ [])
    (hc : ∀ e ∈ batch, ∀ c ∈ e.tag, c.Sorted) :
    ∃ s' es, disjunct (fun r => (DnfCtx.mk r.prob r.disj).topKMult k) .exclusiveProb 0 next s batch = some (s', next + 1, es) ∧
      es.map Elem.tuple = batch.map Elem.tuple ∧ s'.probs = s.probs ++ batch.map (fun _ => 1) ∧ History s' (log ++ batch.map (fun _ => some next)) ∧
      (∀ (i : Nat) e e', batch[i]? = some e → es[i]? = some e' → ∀ w, dnfHolds w e'.tag → dnfHolds w e.tag) ∧
      ∀ (k' i j : Nat) e1 e2, i ≠ j → es[i]? = some e1 → es[j]? = some e2 → (DnfCtx.mk s'.prob s'.disj).topKMult k' e1.tag e2.tag = [] := by
  have hx : exclusions 0 next (batch.map Elem.tuple) = some (batch.map (fun _ => next), next + 1) := by
    cases batch with
    | nil => exact absurd rfl hne
    | cons e l => simp [exclusions, Function.comp_def]
  obtain ⟨s', es, h1, h2, h3, h4, h5, h6⟩ := disjunct_of_exclusions k 0 next (next + 1) s log hs batch hc _ hx (by simp)
  have hes : es.length = batch.length := by simpa using congrArg List.length h2
  refine ⟨s', es, h1, h2, h3, by simpa [Function.comp_def] using h4, h5, ?_⟩
  intro k' i j e1 e2 hij he1 he2
  have hi := (List.getElem?_eq_some_iff.1 he1).1
  have hj := (List.getElem?_eq_some_iff.1 he2).1
  refine h6 k' i j next e1 e2 hij he1 he2 ?_ ?_
  · rw [List.getElem?_map, List.getElem?_eq_getElem (show i < batch.length by omega)]; rfl
  · rw [List.getElem?_map, List.getElem?_eq_getElem (show j < batch.length by omega)]; rfl

/-- **C103.** With arguments, the facts of one run of equal arguments exclude each other, and facts have the same exclusion only in such a run; the exclusions are new. -/
theorem c103_disjunct_args [DecidableEq (Tup V)] (k n next : Nat) (hn : 0 < n) (s : Reg K) (log : List (Option Nat)) (hs : History s log) (batch : List (Elem (Tup V) Dnf))
    (as : List (List (Tup V))) (has : batch.map (fun e => argsOf n e.tuple) = as.map some) (hc : ∀ e ∈ batch, ∀ c ∈ e.tag, c.Sorted) :
    ∃ (s' : Reg K) (next' : Nat) (es : List (Elem (Tup V) Dnf)) (xs : List Nat), disjunct (fun r => (DnfCtx.mk r.prob r.disj).topKMult k) .exclusiveProb n next s batch = some (s', next', es) ∧
      es.map Elem.tuple = batch.map Elem.tuple ∧ s'.probs = s.probs ++ batch.map (fun _ => 1) ∧ xs.length = batch.length ∧ History s' (log ++ xs.map some) ∧
      (∀ x ∈ xs, next ≤ x ∧ x < next') ∧
      (∀ (i j x y : Nat), i ≤ j → xs[i]? = some x → xs[j]? = some y → (x = y ↔ ∀ m, i ≤ m → m ≤ j → as[m]? = as[i]?)) ∧
      (∀ (i : Nat) e e', batch[i]? = some e → es[i]? = some e' → ∀ w, dnfHolds w e'.tag → dnfHolds w e.tag) ∧
      ∀ (k' i j : Nat) e1 e2, i < j → (∀ m, i ≤ m → m ≤ j → as[m]? = as[i]?) → es[i]? = some e1 → es[j]? = some e2 →
        (DnfCtx.mk s'.prob s'.disj).topKMult k' e1.tag e2.tag = [] := by
  obtain ⟨xs, next', h1, h2, h3, h4⟩ := exclusions_spec n next hn as (batch.map Elem.tuple) (by rw [List.map_map]; exact has)
  rw [List.length_map] at h2
  obtain ⟨s', es, g1, g2, g3, g4, g5, g6⟩ := disjunct_of_exclusions k n next next' s log hs batch hc xs h1 h2
  have hes : es.length = batch.length := by simpa using congrArg List.length g2
  refine ⟨s', next', es, xs, g1, g2, g3, h2, g4, h3, h4, g5, ?_⟩
  intro k' i j e1 e2 hij hrun he1 he2
  have hi := (List.getElem?_eq_some_iff.1 he1).1
  have hj := (List.getElem?_eq_some_iff.1 he2).1
  have hx1 : xs[i]? = some (xs[i]'(by omega)) := List.getElem?_eq_getElem (by omega)
  have hx2 : xs[j]? = some (xs[j]'(by omega)) := List.getElem?_eq_getElem (by omega)
  have he := (h4 i j _ _ (by omega) hx1 hx2).2 hrun
  exact g6 k' i j _ e1 e2 (by omega) he1 he2 hx1 (by rw [hx2, he])

end

/-- Three facts in two groups. -/
def exGroups : List (Elem (Tup String) Dnf) :=
  [⟨.tup [.val "a", .val "x"], [[.pos 0]]⟩, ⟨.tup [.val "a", .val "y"], [[.pos 1]]⟩, ⟨.tup [.val "b", .val "x"], [[.pos 0]]⟩]

example : History (⟨[1 / 2, 1 / 3], Disjunctions.new⟩ : Reg ℚ) [none, none] :=
  .register (e := none) (t := [[.pos 1]]) (p := 1 / 3) (.register (e := none) (t := [[.pos 0]]) (p := 1 / 2) .new rfl) rfl
example : exGroups.map (fun e => argsOf 1 e.tuple) = [[.val "a"], [.val "a"], [.val "b"]].map some ∧ ∀ e ∈ exGroups, ∀ c ∈ e.tag, c.Sorted := by
  refine ⟨by decide +kernel, ?_⟩
  intro e he c hc
  simp only [exGroups, List.mem_cons, List.not_mem_nil, or_false] at he
  rcases he with rfl | rfl | rfl <;> (simp only [List.mem_singleton] at hc; subst hc; exact List.pairwise_singleton _ _)
example : exclusions 1 5 (exGroups.map Elem.tuple) = some ([5, 5, 6], 7) := by decide +kernel

/-- C103 refuted on an example: fact 0 is false, the fact derived from it is false, its normalized version is true. -/
theorem c103_forgets_example : ∃ s', normalizeProofs id false (fun _ => (1 / 2 : ℚ)) 0 ⟨[1 / 2], Disjunctions.new⟩ [⟨Tup.val "a", [[.pos 0]]⟩] =
      some (some (s', [⟨Tup.val "a", [[.pos 1]]⟩])) ∧ ¬ dnfHolds (fun i => i = 1) [[.pos 0]] ∧ dnfHolds (fun i => i = 1) [[.pos 1]] := by
  have hh : History (⟨[1 / 2], Disjunctions.new⟩ : Reg ℚ) [none] := .register (e := none) (t := [[.pos 0]]) (p := 1 / 2) .new rfl
  obtain ⟨s', es, ws, h1, h2, _, _, _, h6, _⟩ := c103_proofs id false (fun _ => (1 / 2 : ℚ)) 0 _ _ hh [⟨Tup.val "a", [[.pos 0]]⟩] (by simp) (by norm_num)
  have : es = [⟨Tup.val "a", [[.pos 1]]⟩] := by
    cases es with
    | nil => simp at h2
    | cons e l =>
      cases l with
      | nil =>
        have h7 := h6 0 e rfl
        obtain ⟨t, g⟩ := e
        simp only [List.map_cons, List.map_nil, List.cons.injEq, and_true] at h2
        simp only [List.length_singleton] at h7
        rw [h2, h7]
      | cons _ _ => simp at h2
  subst this
  refine ⟨s', h1, ?_, ?_⟩ <;> simp [dnfHolds, Clause.holds, Literal.holds]

/-! ## C104: samplers and the registry of aggregates -/

section
variable {α T K : Type}

theorem sampled_spec (batch : List (Elem α T)) : ∀ idx : List Nat, (∀ i ∈ idx, i < batch.length) →
    ∃ es, sampled batch idx = some es ∧ es.map some = idx.map (fun i => batch[i]?)
  | [], _ => ⟨[], rfl, rfl⟩
  | i :: idx, h => by
    obtain ⟨es, h1, h2⟩ := sampled_spec batch idx (fun j hj => h j (by simp [hj]))
    have hi := h i (by simp)
    refine ⟨batch[i] :: es, ?_, ?_⟩
    · rw [sampled] at h1
      rw [sampled, List.mapM_cons, h1, List.getElem?_eq_getElem hi]
      rfl
    · rw [List.map_cons, List.map_cons, h2, List.getElem?_eq_getElem hi]

theorem set_length {draws out : List Nat} (h : IsSetOf draws out) : out.length ≤ draws.length :=
  (List.Nodup.subperm h.1 (fun i hi => (h.2 i).1 hi)).length_le

/-- **C104.** A uniform sample never panics; it consists of facts at different places of the batch, with their tags; it is the whole batch if that has at most `k` facts, and
otherwise has at most `k` facts, at least one if `0 < k`. -/
theorem c104_uniform (k : Nat) (batch : List (Elem α T)) (out : List Nat) (h : UniformSample k batch.length out) :
    ∃ es, sampled batch out = some es ∧ es.map some = out.map (fun i => batch[i]?) ∧ out.Nodup ∧ (∀ i ∈ out, i < batch.length) ∧ es.length ≤ k ∧
      (0 < k → batch ≠ [] → es ≠ []) ∧ (batch.length ≤ k → es = batch) := by
  unfold UniformSample at h
  have key : out.Nodup ∧ (∀ i ∈ out, i < batch.length) ∧ out.length ≤ k ∧ (0 < k → batch ≠ [] → out ≠ []) := by
    split at h
    · subst h
      refine ⟨List.nodup_range, fun i hi => List.mem_range.1 hi, by simpa, fun _ hb he => hb ?_⟩
      simpa using he
    · obtain ⟨draws, h1, h2, h3⟩ := h
      refine ⟨h3.1, fun i hi => h2 i ((h3.2 i).1 hi), h1 ▸ set_length h3, fun hk _ he => ?_⟩
      cases draws with
      | nil => simp at h1; omega
      | cons d l => have := (h3.2 d).2 (by simp); rw [he] at this; cases this
  obtain ⟨k1, k2, k3, k4⟩ := key
  obtain ⟨es, h1, h2⟩ := sampled_spec batch out k2
  have hl : es.length = out.length := by simpa using congrArg List.length h2
  refine ⟨es, h1, h2, k1, k2, by omega, fun hk hb he => k4 hk hb ?_, fun hle => ?_⟩
  · subst he; exact List.length_eq_zero_iff.1 hl.symm
  · rw [if_pos hle] at h
    subst h
    apply List.map_injective_iff.2 (Option.some_injective _)
    rw [h2]
    apply List.ext_getElem?
    intro i
    rw [List.getElem?_map, List.getElem?_map]
    by_cases hi : i < batch.length
    · rw [List.getElem?_range hi, List.getElem?_eq_getElem hi]; simp [hi]
    · rw [List.getElem?_eq_none (by simpa using hi), List.getElem?_eq_none (by simpa using hi)]; rfl

/-- C104: every fact, and every set of at most `k` of them but the empty one, can be the sample of a batch with more than `k` facts. -/
theorem c104_uniform_all (k n : Nat) (hk : k < n) (out : List Nat) (hne : out ≠ []) (hnd : out.Nodup) (hlt : ∀ i ∈ out, i < n) (hlen : out.length ≤ k) : UniformSample k n out := by
  unfold UniformSample
  rw [if_neg (by omega)]
  cases out with
  | nil => exact absurd rfl hne
  | cons a l =>
    refine ⟨(a :: l) ++ List.replicate (k - (a :: l).length) a, ?_, ?_, hnd, ?_⟩
    · simp only [List.length_append, List.length_replicate]; omega
    · intro i hi
      rcases List.mem_append.1 hi with h | h
      · exact hlt i h
      · rw [(List.mem_replicate.1 h).2]; exact hlt a (by simp)
    · intro i
      simp only [List.mem_append, List.mem_replicate]
      constructor
      · exact fun h => .inl h
      · rintro (h | ⟨_, rfl⟩)
        · exact h
        · simp

/-- C104 refuted: a sample of `k` of more than `k` facts can have fewer than `k` facts: they are drawn with replacement. -/
theorem c104_fewer_false (k n : Nat) (hk : 1 < k) (hn : k < n) : ∃ out, UniformSample k n out ∧ out.length < k :=
  ⟨[0], c104_uniform_all k n hn [0] (by simp) (by simp) (by simp; omega) (by simp; omega), by simpa using hk⟩

end

section
variable {α T K : Type} [Field K] [LinearOrder K]

/-- **C104.** A categorical sample of a batch with at most `k` facts is the batch. Otherwise it is a panic if a weight is negative or all are zero; if not it has at most `k` facts,
at different places and of positive weight. -/
theorem c104_categorical [IsStrictOrderedRing K] (k : Nat) (weight : T → K) (batch : List (Elem α T)) (out : Option (List Nat))
    (h : CategoricalSample k (batch.map (fun e => weight e.tag)) out) :
    (batch.length ≤ k → out = some (List.range batch.length)) ∧
    (k < batch.length → (out = none ↔ (∃ e ∈ batch, weight e.tag < 0) ∨ ∀ e ∈ batch, weight e.tag = 0) ∧
      ∀ r, out = some r → r.Nodup ∧ r.length ≤ k ∧ (0 < k → r ≠ []) ∧ ∃ es, sampled batch r = some es ∧ es.map some = r.map (fun i => batch[i]?) ∧ ∀ e ∈ es, 0 < weight e.tag) := by
  unfold CategoricalSample at h
  rw [List.length_map] at h
  constructor
  · intro hle
    rwa [if_pos hle] at h
  · intro hlt
    rw [if_neg (by omega)] at h
    have hcond : (batch.map (fun e => weight e.tag) = [] ∨ (∃ w ∈ batch.map (fun e => weight e.tag), w < 0) ∨ (batch.map (fun e => weight e.tag)).sum = 0) ↔
        ((∃ e ∈ batch, weight e.tag < 0) ∨ ∀ e ∈ batch, weight e.tag = 0) := by
      constructor
      · rintro (h1 | ⟨w, hw, h1⟩ | h1)
        · rw [List.map_eq_nil_iff] at h1
          subst h1
          simp at hlt
        · obtain ⟨e, he, rfl⟩ := List.mem_map.1 hw
          exact .inl ⟨e, he, h1⟩
        · by_cases hn : ∃ e ∈ batch, weight e.tag < 0
          · exact .inl hn
          · push Not at hn
            right
            clear h hlt
            induction batch with
            | nil => simp
            | cons e l ih =>
              rw [List.map_cons, List.sum_cons] at h1
              have h2 := hn e (by simp)
              have h3 : 0 ≤ (l.map (fun e => weight e.tag)).sum := by
                apply List.sum_nonneg
                intro x hx
                obtain ⟨y, hy, rfl⟩ := List.mem_map.1 hx
                exact hn y (by simp [hy])
              intro e' he'
              rcases List.mem_cons.1 he' with rfl | he'
              · linarith
              · exact ih (by linarith) (fun y hy => hn y (by simp [hy])) e' he'
      · rintro (⟨e, he, h1⟩ | h1)
        · exact .inr (.inl ⟨_, List.mem_map.2 ⟨e, he, rfl⟩, h1⟩)
        · right; right
          apply List.sum_eq_zero
          intro x hx
          obtain ⟨e, he, rfl⟩ := List.mem_map.1 hx
          exact h1 e he
    by_cases hc : (batch.map (fun e => weight e.tag) = [] ∨ (∃ w ∈ batch.map (fun e => weight e.tag), w < 0) ∨ (batch.map (fun e => weight e.tag)).sum = 0)
    · rw [if_pos hc] at h
      subst h
      exact ⟨⟨fun _ => hcond.1 hc, fun _ => rfl⟩, by simp⟩
    · rw [if_neg hc] at h
      obtain ⟨draws, r, h1, h2, h3, rfl⟩ := h
      refine ⟨⟨by simp, fun h4 => absurd (hcond.2 h4) hc⟩, ?_⟩
      intro r' hr'
      obtain rfl := Option.some.inj hr'
      have hw : ∀ i ∈ r, ∃ e, batch[i]? = some e ∧ 0 < weight e.tag := by
        intro i hi
        obtain ⟨w, hw1, hw2⟩ := h2 i ((h3.2 i).1 hi)
        rw [List.getElem?_map, Option.map_eq_some_iff] at hw1
        obtain ⟨e, he, rfl⟩ := hw1
        exact ⟨e, he, hw2⟩
      obtain ⟨es, e1, e2⟩ := sampled_spec batch r (fun i hi => by
        obtain ⟨e, he, _⟩ := hw i hi
        exact (List.getElem?_eq_some_iff.1 he).1)
      refine ⟨h3.1, h1 ▸ set_length h3, ?_, es, e1, e2, ?_⟩
      · intro hk he
        cases draws with
        | nil => simp at h1; omega
        | cons d l => have := (h3.2 d).2 (by simp); rw [he] at this; cases this
      · intro e he
        have : some e ∈ r.map (fun i => batch[i]?) := e2 ▸ List.mem_map.2 ⟨e, he, rfl⟩
        obtain ⟨i, hi, hie⟩ := List.mem_map.1 this
        obtain ⟨e', he', hpos⟩ := hw i hi
        rw [he'] at hie
        exact Option.some.inj hie ▸ hpos

end

example : UniformSample 2 5 [3, 1] := c104_uniform_all 2 5 (by omega) [3, 1] (by simp) (by simp) (by simp) (by simp)
example : CategoricalSample 1 ([0, 1 / 2, 0] : List ℚ) (some [1]) := by
  unfold CategoricalSample
  rw [if_neg (by simp), if_neg (by rintro (h | ⟨w, hw, h⟩ | h) <;> simp at * <;> rcases hw with rfl | rfl | rfl <;> norm_num at h)]
  exact ⟨[1], [1], rfl, by simp, ⟨by simp, by simp⟩, rfl⟩

/-- **C104.** Every name of an aggregate of the standard library but `uniform` finds the aggregate of that name. -/
theorem c104_registry (a : AggKind) (ha : a ≠ .uniform) : stdRegistry.lookup a.name = some a := by
  cases a <;> first | decide +kernel | exact absurd rfl ha

/-- C104: other names find nothing. -/
theorem c104_registry_only (name : String) (a : AggKind) (h : stdRegistry.lookup name = some a) : name = a.name := by
  have hr : stdRegistry = (stdOrder.dropLast).map (fun a => (a.name, a)) := by decide +kernel
  have hg : ∀ l : List AggKind, (l.map (fun a => (a.name, a))).lookup name = some a → name = a.name := by
    intro l
    induction l with
    | nil => simp
    | cons b l ih =>
      rw [List.map_cons, List.lookup_cons]
      split
      · rename_i hb
        intro h
        rw [← Option.some.inj h]
        simpa using hb
      · exact ih
  rw [hr] at h
  exact hg _ h

/-- C104 refuted: `uniform` is the categorical sampler, `categorical` is unknown, and nothing finds the uniform sampler. -/
theorem c104_uniform_false : stdRegistry.lookup "uniform" = some .categorical ∧ stdRegistry.lookup "categorical" = none ∧ ∀ name, stdRegistry.lookup name ≠ some .uniform := by
  refine ⟨by decide +kernel, by decide +kernel, fun name h => ?_⟩
  obtain rfl := c104_registry_only name _ h
  revert h
  decide +kernel

end Scallop.WAgg
