import Verif.Proof.Aggregate4
import Verif.Proof.Group
import Verif.Proof.Proofs
import Mathlib.Tactic.NormNum
import Mathlib.Algebra.Order.Ring.Rat
import Mathlib.Data.Rat.Defs

/-!
# Property theorems C37-C41, C56-C59: aggregates
-/

namespace Scallop.Agg

open DnfCtx (HeapElem)

variable {V T W Ω α β : Type*} {c : Prov T W} {P : T → Prop} {holds : T → Ω → Prop} {K : Type*} [Field K] [LinearOrder K]

theorem trueIn_retuple (g : α → β) (w : Ω) (l : List (Elem α T)) : trueIn holds w (retuple g l) = (trueIn holds w l).map g := by
  simp only [trueIn, retuple, List.filter_map, List.map_map]; rfl

theorem retuple_mem {g : α → β} {l : List (Elem α T)} (h : ∀ e ∈ l, P e.tag) : ∀ e ∈ retuple g l, P e.tag := by
  intro e he; obtain ⟨x, hx, rfl⟩ := List.mem_map.1 he; exact h x hx

theorem not_better_iff {κ : Type*} [LinearOrder κ] (isMin : Bool) (a b : κ) : better isMin b a = false ↔ AsExtreme isMin a b := by
  cases isMin <;> simp [better, AsExtreme]

/-! ### Provenances to which the theorems apply -/

/-- Top-k proofs never make a tag true in a world in which it should be false; their negation is always defined. -/
theorem topK_soundIn (x : DnfCtx K) (hds : ∀ d ∈ x.disj.disjunctions, Asc d) (pop : List (HeapElem K) → Option (HeapElem K × List (HeapElem K)))
    (hpop : IsPop pop) (k : Nat) :
    (topKProv x pop k).SoundIn (fun t => ∀ c ∈ t, c.Sorted) (fun t w => dnfHolds w t) ∧ ∀ t, ∃ n, (topKProv x pop k).negate t = some n := by
  have hneg : ∀ t n, x.topKNegate pop t k = some n → (∀ c ∈ n, c.Sorted) ∧ ∀ w, dnfHolds w n → ¬ dnfHolds w t := by
    intro t n h
    obtain ⟨r, hr, _, hc, _⟩ := cnf2dnfK_spec x hds pop hpop (t.map (fun c => c.map Literal.negate)) k
    rw [DnfCtx.topKNegate, hr] at h
    obtain rfl := Option.some.inj h
    refine ⟨fun c hc' => (hc c hc').1, ?_⟩
    rintro w ⟨c, hcr, hw⟩
    exact (cnfHolds_negate w t).mp ((hc c hcr).2.2.2 w hw)
  refine ⟨⟨?_, ?_, ?_, ?_, ?_, ?_, ?_⟩, ?_⟩
  · intro c hc; simp only [topKProv, List.mem_singleton] at hc; subst hc; exact List.Pairwise.nil
  · intro a b ha hb c hc
    rcases (topKAdd_spec x k a b).2.2.1 c hc with h | h
    · exact ha c h
    · exact hb c h
  · intro a b ha hb c hc
    obtain ⟨⟨c1, h1, c2, h2, hm⟩, _⟩ := (topKMult_spec x k a b).2.2.1 c hc
    exact ((Clause.merge_spec c1 c2 (ha c1 h1) (hb c2 h2)).1 c hm).1
  · intro a n _ h; exact (hneg a n h).1
  · intro a b w _ _ h; exact topKAdd_sound x k a b w h
  · intro a b w ha hb h; exact topKMult_sound x k a b ha hb w h
  · intro a n w _ h hw; exact (hneg a n h).2 w hw
  · intro t
    obtain ⟨r, hr, _⟩ := cnf2dnfK_spec x hds pop hpop (t.map (fun c => c.map Literal.negate)) k
    exact ⟨r, hr⟩

/-- Fuzzy tags other than one half have exact truth values: true when greater than one half. -/
theorem minMax_exactIn [IsStrictOrderedRing K] : (minMaxProv K).ExactIn (fun t => t ≠ 1 / 2) (fun t (_ : Unit) => 1 / 2 < t) := by
  have two : (0 : K) < 2 := by norm_num
  have h1 : (1 : K) / 2 < 1 := by norm_num
  have hneg : ∀ a : K, 1 / 2 < 1 - a ↔ a < 1 / 2 := by
    intro a
    have : (1 : K) / 2 + 1 / 2 = 1 := by norm_num
    constructor <;> intro h <;> linarith
  refine ⟨⟨?_, ?_, ?_, ?_, ?_, ?_, ?_⟩, ?_, ?_, ?_, ?_, ?_⟩
  · exact ne_of_gt h1
  · intro a b ha hb; simp only [minMaxProv]; rcases max_choice a b with h | h <;> rw [h] <;> assumption
  · intro a b ha hb; simp only [minMaxProv]; rcases min_choice a b with h | h <;> rw [h] <;> assumption
  · intro a n ha h
    obtain rfl := Option.some.inj h
    intro he; apply ha
    have : (1 : K) / 2 + 1 / 2 = 1 := by norm_num
    linarith
  · intro a b w _ _ h; exact lt_max_iff.1 h
  · intro a b w _ _ h; exact lt_min_iff.1 h
  · intro a n w _ h hw
    obtain rfl := Option.some.inj h
    exact not_lt.2 ((hneg a).1 hw).le
  · intro _; exact h1
  · intro a b w _ _ h; exact lt_max_iff.2 h
  · intro a b w _ _ h h'; exact lt_min_iff.2 ⟨h, h'⟩
  · intro a _; exact ⟨_, rfl⟩
  · intro a n w ha h hw
    obtain rfl := Option.some.inj h
    exact (hneg a).2 (lt_of_le_of_ne (not_lt.1 hw) ha)

/-- Tags that are zero or one have exact truth values when probabilities are added and multiplied. -/
theorem addMult_exactIn [IsStrictOrderedRing K] : (addMultProv K).ExactIn (fun t => t = 0 ∨ t = 1) (fun t (_ : Unit) => t = 1) := by
  have h01 : (0 : K) ≠ 1 := zero_ne_one
  have hle : (0 : K) ≤ 1 := zero_le_one
  refine ⟨⟨Or.inr rfl, ?_, ?_, ?_, ?_, ?_, ?_⟩, fun _ => rfl, ?_, ?_, fun _ => ⟨_, rfl⟩, ?_⟩
  · rintro a b (rfl | rfl) (rfl | rfl) <;> simp [addMultProv]
  · rintro a b (rfl | rfl) (rfl | rfl) <;> simp [addMultProv]
  · rintro a n (rfl | rfl) h <;> obtain rfl := Option.some.inj h <;> simp
  · rintro a b w (rfl | rfl) (rfl | rfl) <;> simp [addMultProv]
  · rintro a b w (rfl | rfl) (rfl | rfl) <;> simp [addMultProv]
  · rintro a n w (rfl | rfl) h <;> obtain rfl := Option.some.inj h <;> simp
  · rintro a b w (rfl | rfl) (rfl | rfl) <;> simp [addMultProv]
  · rintro a b w (rfl | rfl) (rfl | rfl) <;> simp [addMultProv]
  · rintro a n w (rfl | rfl) h <;> obtain rfl := Option.some.inj h <;> simp

/-! ### C37 -/

/-- **C37**, count: with exact tags, in every world exactly one result is true, the number of facts true in that world. -/
theorem c37_count (h : c.ExactIn P holds) (batch : List (Elem α T)) (hb : ∀ e ∈ batch, P e.tag) (w : Ω) :
    trueIn holds w (count c false batch) = [(trueIn holds w batch).length] := count_exact h hb w

/-- C37, count: with tags that are only sound (as top-k proofs), a result true in a world is the right one. -/
theorem c37_count_sound (h : c.SoundIn P holds) (batch : List (Elem α T)) (hb : ∀ e ∈ batch, P e.tag) (w : Ω) (n : Nat)
    (hn : n ∈ trueIn holds w (count c false batch)) : n = (trueIn holds w batch).length := by
  obtain ⟨e, he, hw, rfl⟩ := mem_trueIn.1 hn
  exact count_sound h hb w e he hw

/-- The numbers aggregated are those behind the arguments. -/
theorem performSumProd_num (ty : IntTy) (isSum : Bool) (n : Nat) (l : List (List (Tup Int) × Int)) (hl : ∀ p ∈ l, p.1.length = n) :
    performSumProd ty isSum n (l.map (numTuple n)) = (if isSum then ty.sum else ty.prod) (l.map Prod.snd) := by
  have hm : (l.map (numTuple n)).mapM (aggValue n) = some (l.map Prod.snd) := by
    clear isSum
    induction l with
    | nil => rfl
    | cons p l ih =>
      rw [List.map_cons, List.mapM_cons, ih (fun x hx => hl x (by simp [hx]))]
      have : aggValue n (numTuple n p) = some p.2 := by
        have hp := hl p (by simp)
        by_cases hn : n = 0
        · subst hn; simp [aggValue, numTuple, asInt]
        · rw [aggValue, if_pos (by omega), numTuple, if_neg hn]
          simp [Tup.at?, ← hp, asInt]
      rw [this]; rfl
  rw [performSumProd, hm, Option.bind_some]

/-- **C37**, sum and product of integers: with exact tags, in every world exactly one result is true, the sum (or product) of the numbers
behind the facts true in that world. -/
theorem c37_sum_prod (h : c.ExactIn P holds) (ty : IntTy) (isSum : Bool) (n : Nat) (facts : List (Elem (List (Tup Int) × Int) T))
    (hb : ∀ e ∈ facts, P e.tag) (hargs : ∀ e ∈ facts, e.tuple.1.length = n) (res : List (Elem Int T))
    (hr : sumProd c ty isSum n false (retuple (numTuple n) facts) = some res) (w : Ω) :
    trueIn holds w res = [if isSum then ((trueIn holds w facts).map Prod.snd).sum else ((trueIn holds w facts).map Prod.snd).prod] := by
  rw [sumProd, if_neg (by simp)] at hr
  obtain ⟨v, hv, hres⟩ := multiWorld_exact h (retuple_mem hb) hr w
  rw [trueIn_retuple, performSumProd_num _ _ _ _ (by
    intro p hp; obtain ⟨e, he, _, rfl⟩ := mem_trueIn.1 hp; exact hargs e he)] at hv
  rw [hres]
  cases isSum with
  | true => rw [sum_some hv]; rfl
  | false => rw [prod_some hv]; rfl

/-- C37: with sound tags, a result true in a world is the right one. -/
theorem c37_sum_prod_sound (h : c.SoundIn P holds) (ty : IntTy) (isSum : Bool) (n : Nat) (facts : List (Elem (List (Tup Int) × Int) T))
    (hb : ∀ e ∈ facts, P e.tag) (hargs : ∀ e ∈ facts, e.tuple.1.length = n) (res : List (Elem Int T))
    (hr : sumProd c ty isSum n false (retuple (numTuple n) facts) = some res) (w : Ω) (v : Int) (hv : v ∈ trueIn holds w res) :
    v = if isSum then ((trueIn holds w facts).map Prod.snd).sum else ((trueIn holds w facts).map Prod.snd).prod := by
  rw [sumProd, if_neg (by simp)] at hr
  obtain ⟨e, he, hw, rfl⟩ := mem_trueIn.1 hv
  have hf := multiWorld_sound h (retuple_mem hb) hr w e he hw
  rw [trueIn_retuple, performSumProd_num _ _ _ _ (by
    intro p hp; obtain ⟨e, he, _, rfl⟩ := mem_trueIn.1 hp; exact hargs e he)] at hf
  cases isSum with
  | true => rw [sum_some hf]; rfl
  | false => rw [prod_some hf]; rfl

/-- C37: there is no overflow when the sum (product) of no choice of facts leaves the type. -/
theorem c37_no_panic (c : Prov T W) (ty : IntTy) (isSum : Bool) (n : Nat) (facts : List (Elem (List (Tup Int) × Int) T))
    (hargs : ∀ e ∈ facts, e.tuple.1.length = n)
    (hfit : ∀ s : List Int, s.Sublist (facts.map (fun e => e.tuple.2)) →
      ty.lo ≤ (if isSum then s.sum else s.prod) ∧ (if isSum then s.sum else s.prod) ≤ ty.hi) :
    ∃ res, sumProd c ty isSum n false (retuple (numTuple n) facts) = some res := by
  rw [sumProd, if_neg (by simp)]
  apply multiWorld_some
  intro ts hts
  have hts' : ts.Sublist ((facts.map Elem.tuple).map (numTuple n)) := by simpa [retuple, Function.comp_def] using hts
  obtain ⟨l, hl, rfl⟩ := List.sublist_map_iff.1 hts'
  rw [performSumProd_num _ _ _ _ (by
    intro p hp; obtain ⟨e, he, rfl⟩ := List.mem_map.1 (hl.subset hp); exact hargs e he)]
  have hsub : ∀ m, ((l.map Prod.snd).take m).Sublist (facts.map (fun e => e.tuple.2)) := by
    intro m
    refine (List.take_sublist _ _).trans ?_
    have := hl.map Prod.snd
    simpa [Function.comp_def] using this
  cases isSum with
  | true => exact sumFold_defined _ 0 (fun m _ _ => by have := hfit _ (hsub m); simpa using this)
  | false => exact prodFold_defined _ 1 (fun m _ _ => by have := hfit _ (hsub m); simpa using this)

/-- C37: the variants for boolean tags and the discrete variants (`count!`, `sum!`) are the aggregates of the true facts, and of all facts. -/
theorem c37_discrete (batch : List (Elem α Bool)) (l : List (Elem α T)) :
    countBool batch = [⟨(batch.filter Elem.tag).length, true⟩] ∧ count c true l = [⟨l.length, c.one⟩] ∧
    (∀ u : List (Elem α Unit), countUnit u = [⟨u.length, ()⟩]) := by
  refine ⟨?_, rfl, fun u => rfl⟩
  have : ∀ (b : List (Elem α Bool)) (n : Nat), b.foldl (fun n e => if e.tag then n + 1 else n) n = n + (b.filter Elem.tag).length := by
    intro b
    induction b with
    | nil => intro n; rfl
    | cons e b ih =>
      intro n
      rw [List.foldl_cons, ih, List.filter_cons]
      cases e.tag <;> simp <;> omega
  rw [countBool, this]; simp

/-- C37: sums and products with boolean tags are over the true facts. -/
theorem c37_sum_prod_bool (ty : IntTy) (isSum : Bool) (n : Nat) (facts : List (Elem (List (Tup Int) × Int) Bool))
    (hargs : ∀ e ∈ facts, e.tuple.1.length = n) (res : List (Elem Int Bool))
    (hr : sumProdBool ty isSum n (retuple (numTuple n) facts) = some res) :
    res = [⟨if isSum then ((facts.filter Elem.tag).map (fun e => e.tuple.2)).sum else ((facts.filter Elem.tag).map (fun e => e.tuple.2)).prod, true⟩] := by
  rw [sumProdBool, Option.map_eq_some_iff] at hr
  obtain ⟨v, hv, rfl⟩ := hr
  have he : ((retuple (numTuple n) facts).filter Elem.tag).map Elem.tuple = ((facts.filter Elem.tag).map Elem.tuple).map (numTuple n) := by
    simp only [retuple, List.filter_map, List.map_map]; rfl
  rw [he, performSumProd_num _ _ _ _ (by
    intro p hp
    obtain ⟨e, he, rfl⟩ := List.mem_map.1 hp
    exact hargs e (List.mem_filter.1 he).1)] at hv
  cases isSum with
  | true => rw [sum_some hv]; simp [Function.comp_def]
  | false => rw [prod_some hv]; simp [Function.comp_def]

/-- Three facts, with fuzzy tags 0.9, 0.2 and 0.7. -/
def exFacts : List (Elem (List (Tup Int) × Int) ℚ) := [⟨([], 3), 9/10⟩, ⟨([], 5), 2/10⟩, ⟨([], 8), 7/10⟩]
/-- `i8`. -/
def exI8 : IntTy := ⟨-128, 127⟩

example : (∀ e ∈ exFacts, e.tag ≠ 1 / 2) ∧ (∀ e ∈ exFacts, e.tuple.1.length = 0) := by
  constructor <;> intro e he <;> simp only [exFacts, List.mem_cons, List.not_mem_nil, or_false] at he <;>
    rcases he with rfl | rfl | rfl <;> norm_num
example : (sumProd (minMaxProv ℚ) exI8 true 0 false (retuple (numTuple 0) exFacts)).map (List.map (fun e => (e.tuple, e.tag))) =
    some [(0, 1/10), (3, 3/10), (5, 1/10), (8, 1/10), (8, 2/10), (11, 7/10), (13, 1/10), (16, 2/10)] := by decide +kernel
example : trueIn (fun t (_ : Unit) => (1 / 2 : ℚ) < t) () (count (minMaxProv ℚ) false exFacts) = [2] := by
  rw [c37_count minMax_exactIn exFacts (by
    intro e he; simp only [exFacts, List.mem_cons, List.not_mem_nil, or_false] at he
    rcases he with rfl | rfl | rfl <;> norm_num) ()]
  simp [trueIn, exFacts]; norm_num

/-! ### C38 -/

/-- **C38.** With exact tags, in every world exactly one outcome of `exists` is true, the right one. -/
theorem c38_exists (h : c.ExactIn P holds) (batch : List (Elem α T)) (hb : ∀ e ∈ batch, P e.tag) (w : Ω) :
    trueIn holds w («exists» c false batch) = [!(trueIn holds w batch).isEmpty] := exists_exact h hb w

/-- C38: with sound tags, an outcome true in a world is the right one. -/
theorem c38_exists_sound (h : c.SoundIn P holds) (batch : List (Elem α T)) (hb : ∀ e ∈ batch, P e.tag) (w : Ω) (b : Bool)
    (hbt : b ∈ trueIn holds w («exists» c false batch)) : b = true ↔ trueIn holds w batch ≠ [] := by
  obtain ⟨e, he, hw, rfl⟩ := mem_trueIn.1 hbt
  exact exists_sound h hb w e he hw

/-- C38: the variant for boolean tags and the discrete variant. -/
theorem c38_discrete (batch : List (Elem α Bool)) (l : List (Elem α T)) :
    existsBool batch = [⟨decide (∃ e ∈ batch, e.tag = true), true⟩] ∧ «exists» c true l = [⟨decide (l ≠ []), c.one⟩] := by
  constructor
  · rw [existsBool]
    have : batch.any Elem.tag = decide (∃ e ∈ batch, e.tag = true) := by
      rw [Bool.eq_iff_iff]; simp
    rw [this]
  · cases l <;> simp [«exists»]

example : («exists» (minMaxProv ℚ) false exFacts).map (fun e => (e.tuple, e.tag)) = [(true, 9/10), (false, 1/10)] := by decide +kernel

/-! ### C39 -/

section
variable [LinearOrder V]

/-- **C39**, min and max without arguments: with exact tags and a sorted batch (as every stored relation is), in every world the results that
are true are the extremal elements among the facts true in that world. -/
theorem c39_min_max (h : c.ExactIn P holds) (isMin : Bool) (batch : List (Elem (Tup V) T)) (hb : ∀ e ∈ batch, P e.tag)
    (hs : (batch.map Elem.tuple).Pairwise (· < ·)) :
    ∃ res, minMax c isMin false 0 false batch = some res ∧ ∀ w t, t ∈ trueIn holds w res ↔
      t ∈ trueIn holds w batch ∧ ∀ u ∈ trueIn holds w batch, AsExtreme isMin t u := by
  refine ⟨_, plainMinMax_eq isMin batch, fun w t => ?_⟩
  obtain ⟨res, h1, h2⟩ := plainMinMax_exact h isMin hb hs w
  rw [plainMinMax_eq] at h1
  rw [Option.some.inj h1, h2, List.mem_filter]
  simp only [List.all_eq_true, Bool.not_eq_eq_eq_not, Bool.not_true, not_better_iff]

/-- C39 without arguments: with sound tags whose negation is defined, every result true in a world is an extremal element. -/
theorem c39_min_max_sound (h : c.SoundIn P holds) (htot : ∀ a, P a → ∃ n, c.negate a = some n) (isMin : Bool) (batch : List (Elem (Tup V) T))
    (hb : ∀ e ∈ batch, P e.tag) (hs : (batch.map Elem.tuple).Pairwise (· < ·)) :
    ∃ res, minMax c isMin false 0 false batch = some res ∧ ∀ w t, t ∈ trueIn holds w res →
      t ∈ trueIn holds w batch ∧ ∀ u ∈ trueIn holds w batch, AsExtreme isMin t u := by
  refine ⟨_, plainMinMax_eq isMin batch, fun w t ht => ?_⟩
  obtain ⟨h1, h2⟩ := plainMinMax_sound h htot isMin hb hs (plainMinMax_eq isMin batch) w t ht
  exact ⟨h1, fun u hu => (not_better_iff _ _ _).1 (h2 u hu)⟩

theorem sliceFrom_arg {n : Nat} {p : List (Tup V) × List (Tup V)} (h : p.1.length = n) : sliceFrom n (argTuple p) = some p.2 := by
  rw [argTuple, sliceFrom, if_pos (by simp; omega), ← h, List.drop_left]

theorem postProcess_arg {argOnly : Bool} {n : Nat} {p : List (Tup V) × List (Tup V)} (h : p.1.length = n) :
    postProcess argOnly n (argTuple p) = some (argOut argOnly p) := by
  rw [postProcess, argOut]
  cases argOnly with
  | false => rfl
  | true =>
    simp only [if_true]
    obtain ⟨a, k⟩ := p
    simp only at h
    match a, h with
    | [], h => subst h; rfl
    | [x], h => subst h; rfl
    | x :: y :: l, h =>
      rw [if_neg (by simp at h; omega), argTuple, sliceTo, if_pos (by simp at h ⊢; omega), ← h, List.take_left]; rfl

/-- C39 with arguments (`argmin`, `argmax`, and `min`, `max` that keep them): with sound tags, every result true in a world comes from a fact
true in that world whose value is extremal among the facts true in it. -/
theorem c39_arg_sound (h : c.SoundIn P holds) (isMin argOnly : Bool) (n : Nat) (hn : 0 < n)
    (facts : List (Elem (List (Tup V) × List (Tup V)) T)) (hb : ∀ e ∈ facts, P e.tag) (hargs : ∀ e ∈ facts, e.tuple.1.length = n) :
    ∃ res, minMax c isMin argOnly n false (retuple argTuple facts) = some res ∧ ∀ w t, t ∈ trueIn holds w res →
      ∃ p ∈ trueIn holds w facts, t = argOut argOnly p ∧ ∀ q ∈ trueIn holds w facts, AsExtreme isMin p.2 q.2 := by
  obtain ⟨res, hr⟩ := argMinMax_defined (c := c) (isMin := isMin) (argOnly := argOnly) hn (batch := retuple argTuple facts) (by
    intro e he
    obtain ⟨x, hx, rfl⟩ := List.mem_map.1 he
    exact ⟨x.tuple.1 ++ x.tuple.2, rfl, by have := hargs x hx; simp; omega⟩)
  refine ⟨res, by rw [minMax, if_neg (by simp)]; exact hr, fun w t ht => ?_⟩
  obtain ⟨x, hx, k, hxw, hp, hk, hext⟩ := argMinMax_sound h hn (retuple_mem hb) hr ht
  obtain ⟨y, hy, rfl⟩ := List.mem_map.1 hx
  simp only at hp hk hxw
  rw [postProcess_arg (hargs y hy)] at hp
  rw [sliceFrom_arg (hargs y hy)] at hk
  obtain rfl := Option.some.inj hk
  refine ⟨y.tuple, mem_trueIn.2 ⟨y, hy, hxw, rfl⟩, (Option.some.inj hp).symm, fun q hq => ?_⟩
  obtain ⟨z, hz, hzw, rfl⟩ := mem_trueIn.1 hq
  exact (not_better_iff _ _ _).1 (hext ⟨argTuple z.tuple, z.tag⟩ (List.mem_map_of_mem (f := fun e : Elem (List (Tup V) × List (Tup V)) T =>
    (⟨argTuple e.tuple, e.tag⟩ : Elem (Tup V) T)) hz) hzw _ (sliceFrom_arg (hargs z hz)))

/-- **C39** with arguments, the part that holds: with exact tags, in every world with a true fact some extremal one is reported, and all of them
are when their common value is the smallest of the whole batch. Missing: other ties (`c39_ties_lost`). -/
theorem c39_arg_partial (h : c.ExactIn P holds) (isMin argOnly : Bool) (n : Nat) (hn : 0 < n)
    (facts : List (Elem (List (Tup V) × List (Tup V)) T)) (hb : ∀ e ∈ facts, P e.tag) (hargs : ∀ e ∈ facts, e.tuple.1.length = n) :
    ∃ res, minMax c isMin argOnly n false (retuple argTuple facts) = some res ∧ ∀ w,
      (∀ t ∈ trueIn holds w res, ∃ p ∈ trueIn holds w facts, t = argOut argOnly p ∧ ∀ q ∈ trueIn holds w facts, AsExtreme isMin p.2 q.2) ∧
      (trueIn holds w facts ≠ [] → trueIn holds w res ≠ []) ∧
      (∀ p ∈ trueIn holds w facts, (∀ q ∈ trueIn holds w facts, AsExtreme isMin p.2 q.2) → (∀ e ∈ facts, p.2 ≤ e.tuple.2) →
        argOut argOnly p ∈ trueIn holds w res) := by
  obtain ⟨res, hr, hsound⟩ := c39_arg_sound h.toSoundIn isMin argOnly n hn facts hb hargs
  refine ⟨res, hr, fun w => ⟨hsound w, ?_, ?_⟩⟩
  · rw [minMax, if_neg (by simp)] at hr
    intro hne
    refine argMinMax_some h hn (retuple_mem hb) hr ?_
    rw [trueIn_retuple]; simpa using hne
  · rw [minMax, if_neg (by simp)] at hr
    intro p hp hext hmin
    obtain ⟨y, hy, hyw, rfl⟩ := mem_trueIn.1 hp
    obtain ⟨t, ht, hpp⟩ := argMinMax_ties h hn (retuple_mem hb) hr (x := ⟨argTuple y.tuple, y.tag⟩)
      (List.mem_map_of_mem (f := fun e : Elem (List (Tup V) × List (Tup V)) T => (⟨argTuple e.tuple, e.tag⟩ : Elem (Tup V) T)) hy) hyw
      (sliceFrom_arg (hargs y hy)) (by
        intro z hz k' hk'
        obtain ⟨z', hz', rfl⟩ := List.mem_map.1 hz
        simp only at hk'
        rw [sliceFrom_arg (hargs z' hz')] at hk'
        obtain rfl := Option.some.inj hk'
        exact hmin z' hz') (by
        intro z hz hzw k' hk'
        obtain ⟨z', hz', rfl⟩ := List.mem_map.1 hz
        simp only at hk' hzw
        rw [sliceFrom_arg (hargs z' hz')] at hk'
        obtain rfl := Option.some.inj hk'
        exact (not_better_iff _ _ _).2 (hext z'.tuple (mem_trueIn.2 ⟨z', hz', hzw, rfl⟩)))
    simp only at hpp
    rw [postProcess_arg (hargs y hy)] at hpp
    rw [Option.some.inj hpp]; exact ht

/-- C39: the discrete variants (`min!`, `argmin!`, unit tags) report exactly the extremal elements, ties included. -/
theorem c39_discrete (isMin argOnly : Bool) (n : Nat) (facts : List (Elem (List (Tup V) × List (Tup V)) T)) (hn : 0 < n)
    (hargs : ∀ e ∈ facts, e.tuple.1.length = n) (res : List (Elem (Tup V) T))
    (hr : minMax c isMin argOnly n true (retuple argTuple facts) = some res) :
    (∀ e ∈ res, e.tag = c.one) ∧ ∀ t, (∃ e ∈ res, e.tuple = t) ↔
      ∃ x ∈ facts, t = argOut argOnly x.tuple ∧ ∀ y ∈ facts, AsExtreme isMin x.tuple.2 y.tuple.2 := by
  rw [minMax, if_pos rfl] at hr
  obtain ⟨h1, h2⟩ := discreteArg_exact hn hr
  refine ⟨h1, fun t => (h2 t).trans ?_⟩
  have hm : (retuple argTuple facts).map Elem.tuple = facts.map (fun e => argTuple e.tuple) := by simp [retuple, Function.comp_def]
  rw [hm]
  constructor
  · rintro ⟨x, hx, k, hp, hk, hext⟩
    obtain ⟨e, he, rfl⟩ := List.mem_map.1 hx
    rw [postProcess_arg (hargs e he)] at hp
    rw [sliceFrom_arg (hargs e he)] at hk
    obtain rfl := Option.some.inj hk
    exact ⟨e, he, (Option.some.inj hp).symm, fun y hy =>
      (not_better_iff _ _ _).1 (hext _ (List.mem_map_of_mem (f := fun e : Elem (List (Tup V) × List (Tup V)) T => argTuple e.tuple) hy) _ (sliceFrom_arg (hargs y hy)))⟩
  · rintro ⟨e, he, rfl, hext⟩
    refine ⟨_, List.mem_map_of_mem (f := fun e : Elem (List (Tup V) × List (Tup V)) T => argTuple e.tuple) he, _, postProcess_arg (hargs e he), sliceFrom_arg (hargs e he), fun y hy k' hk' => ?_⟩
    obtain ⟨z, hz, rfl⟩ := List.mem_map.1 hy
    rw [sliceFrom_arg (hargs z hz)] at hk'
    obtain rfl := Option.some.inj hk'
    exact (not_better_iff _ _ _).2 (hext z hz)

/-- C39: the discrete variants without arguments. -/
theorem c39_discrete_plain (isMin : Bool) (batch : List (Elem (Tup V) T)) :
    ∃ res, minMax c isMin false 0 true batch = some res ∧ (∀ e ∈ res, e.tag = c.one) ∧
      ∀ t, (∃ e ∈ res, e.tuple = t) ↔ (∃ e ∈ batch, e.tuple = t) ∧ ∀ e ∈ batch, AsExtreme isMin t e.tuple := by
  obtain ⟨res, h1, h2, h3⟩ := discrete_exact (c := c) (isMin := isMin) (ts := batch.map Elem.tuple)
  refine ⟨res, by rw [minMax, if_pos rfl]; exact h1, h2, fun t => ?_⟩
  have : (∃ e ∈ res, e.tuple = t) ↔ t ∈ res.map Elem.tuple := by simp
  rw [this, h3, List.mem_filter]
  simp only [List.mem_map, List.all_map, List.all_eq_true, Function.comp, Bool.not_eq_eq_eq_not, Bool.not_true, not_better_iff]

/-- C39: with boolean tags exactly the extremal elements among the true facts are reported. -/
theorem c39_bool (isMin : Bool) (batch : List (Elem (Tup V) Bool)) :
    ∃ res, minMaxBool isMin false 0 batch = some res ∧ (∀ e ∈ res, e.tag = true) ∧
      ∀ t, (∃ e ∈ res, e.tuple = t) ↔ (∃ e ∈ batch, e.tag = true ∧ e.tuple = t) ∧ ∀ e ∈ batch, e.tag = true → AsExtreme isMin t e.tuple := by
  obtain ⟨res, h1, h2, h3⟩ := discrete_exact (c := boolProv) (isMin := isMin) (ts := (batch.filter Elem.tag).map Elem.tuple)
  refine ⟨res, h1, h2, fun t => ?_⟩
  have : (∃ e ∈ res, e.tuple = t) ↔ t ∈ res.map Elem.tuple := by simp
  rw [this, h3, List.mem_filter]
  simp only [List.mem_map, List.mem_filter, List.all_map, List.all_eq_true, Function.comp, Bool.not_eq_eq_eq_not, Bool.not_true, not_better_iff,
    and_assoc, and_imp]

end

/-- Facts with values 0, 1 and 1; the first is false in the world of interest. -/
def exTies : List (Elem (List (Tup Nat) × List (Tup Nat)) ℚ) :=
  [⟨([.val 10], [.val 0]), 1/10⟩, ⟨([.val 11], [.val 1]), 9/10⟩, ⟨([.val 12], [.val 1]), 9/10⟩]

/-- **C39 does not hold of the code** for ties other than those of the smallest value: `argmin` over values 0, 1 and 1, where the fact with
value 0 is false, reports only one of the two minimal facts. (`min_max.rs` 218-230 never moves on from the first value.) -/
theorem c39_ties_lost : ∃ res, minMax (minMaxProv ℚ) true true 1 false (retuple argTuple exTies) = some res ∧
    (Tup.val 12 : Tup Nat) ∉ trueIn (fun t (_ : Unit) => (1 / 2 : ℚ) < t) () res ∧
    (([.val 12], [.val 1]) : List (Tup Nat) × List (Tup Nat)) ∈ trueIn (fun t (_ : Unit) => (1 / 2 : ℚ) < t) () exTies ∧
    ∀ q ∈ trueIn (fun t (_ : Unit) => (1 / 2 : ℚ) < t) () exTies, AsExtreme true [(Tup.val 1 : Tup Nat)] q.2 := by
  refine ⟨[⟨.val 10, 1/10⟩, ⟨.val 11, 9/10⟩, ⟨.val 12, 1/10⟩], by decide +kernel, ?_, ?_, ?_⟩
  · simp [trueIn, List.filter_cons]; norm_num
  · simp [trueIn, exTies, List.filter_cons]; norm_num
  · intro q hq
    obtain ⟨e, he, hw, rfl⟩ := mem_trueIn.1 hq
    simp only [exTies, List.mem_cons, List.not_mem_nil, or_false] at he
    rcases he with rfl | rfl | rfl
    · norm_num at hw
    · simp [AsExtreme]
    · simp [AsExtreme]

/-- C39: the hypothesis that negation is defined is needed: where it is not (natural numbers as tags), `min` reports all facts. -/
theorem c39_no_negation : minMax naturalProv true false 0 false [⟨(.val 1 : Tup Nat), 1⟩, ⟨.val 2, 1⟩] =
    some [⟨.val 1, 1⟩, ⟨.val 2, 1⟩] := by decide +kernel

example : (∀ e ∈ exTies, e.tag ≠ 1 / 2) ∧ (∀ e ∈ exTies, e.tuple.1.length = 1) := by
  constructor <;> intro e he <;> simp only [exTies, List.mem_cons, List.not_mem_nil, or_false] at he <;>
    rcases he with rfl | rfl | rfl <;> norm_num
example : ([⟨.val 1, 9/10⟩, ⟨.val 2, 2/10⟩, ⟨.val 4, 7/10⟩] : List (Elem (Tup Nat) ℚ)).map Elem.tuple = [.val 1, .val 2, .val 4] ∧
    minMax (minMaxProv ℚ) false false 0 false [⟨(.val 1 : Tup Nat), (9/10 : ℚ)⟩, ⟨.val 2, 2/10⟩, ⟨.val 4, 7/10⟩] =
      some [⟨.val 4, 7/10⟩, ⟨.val 2, 2/10⟩, ⟨.val 1, 3/10⟩] := by decide +kernel
/-- The hypotheses of the sound variants are met by top-k proofs. -/
example (x : DnfCtx ℚ) (hx : x.disj = Disjunctions.new) :
    (topKProv x DnfCtx.popMax 3).SoundIn (fun t => ∀ c ∈ t, c.Sorted) (fun t w => dnfHolds w t) :=
  (topK_soundIn x (by rw [hx]; simp [Disjunctions.new]) _ popMax_isPop 3).1

/-! ### C40 -/

/-- **C40.** Top-k selection returns `min k n` different elements, and no element left out is heavier than one returned. It never panics. -/
theorem c40_top_k {K : Type*} [LinearOrder K] (pop : List (TopElem K) → Option (TopElem K × List (TopElem K))) (hpop : IsPopMin pop)
    (k : Nat) (weights : List K) :
    ∃ ids, topK pop weights.length k (fun i => weights[i]?) = some ids ∧ ids.Nodup ∧ ids.length = min k weights.length ∧
      (∀ i ∈ ids, i < weights.length) ∧
      ∀ i ∈ ids, ∀ j < weights.length, j ∉ ids → ∀ x y, weights[i]? = some x → weights[j]? = some y → y ≤ x :=
  topK_spec hpop _ _ _ (fun i hi => ⟨weights[i], List.getElem?_eq_getElem hi⟩)

/-- C40: the aggregate returns the selected facts with their tags. -/
theorem c40_aggregate {K : Type*} [LinearOrder K] (pop : List (TopElem K) → Option (TopElem K × List (TopElem K))) (hpop : IsPopMin pop)
    (c : Prov T K) (k : Nat) (batch : List (Elem α T)) :
    ∃ (ids : List Nat) (res : List (Elem α T)), topKAggregate pop c k batch = some res ∧ ids.Nodup ∧ ids.length = min k batch.length ∧ ids.mapM (fun i => batch[i]?) = some res ∧
      ∀ i ∈ ids, ∀ j : Nat, j ∉ ids → ∀ a b : Elem α T, batch[i]? = some a → batch[j]? = some b → c.weight b.tag ≤ c.weight a.tag := by
  obtain ⟨ids, h1, h2, h3, h4, h5⟩ := topK_spec hpop batch.length k (fun i => (batch[i]?).map (fun e => c.weight e.tag))
    (fun i hi => ⟨_, by rw [List.getElem?_eq_getElem hi]; rfl⟩)
  obtain ⟨res, hres⟩ := mapM_isSome (f := fun i => batch[i]?) (l := ids) (fun i hi => ⟨_, List.getElem?_eq_getElem (h4 i hi)⟩)
  refine ⟨ids, res, by rw [topKAggregate, h1]; exact hres, h2, h3, hres, fun i hi j hj a b ha hb => ?_⟩
  exact h5 i hi j (List.getElem?_eq_some_iff.1 hb).1 hj _ _ (by rw [ha]; rfl) (by rw [hb]; rfl)

/-- A heap in which `pop` removes the first element of least weight. -/
def popMin {K : Type*} [LinearOrder K] : List (TopElem K) → Option (TopElem K × List (TopElem K))
  | [] => none
  | e :: h =>
    match popMin h with
    | none => some (e, [])
    | some (m, rest) => if e.2 ≤ m.2 then some (e, h) else some (m, e :: rest)

theorem popMin_isPop {K : Type*} [LinearOrder K] : IsPopMin (popMin (K := K)) := by
  have key : ∀ h : List (TopElem K), (popMin h = none → h = []) ∧ ∀ e rest, popMin h = some (e, rest) → h.Perm (e :: rest) ∧ ∀ x ∈ h, e.2 ≤ x.2 := by
    intro h
    induction h with
    | nil => exact ⟨fun _ => rfl, fun e rest h => by cases h⟩
    | cons a h ih =>
      obtain ⟨i1, i2⟩ := ih
      rw [popMin]
      cases hp : popMin h with
      | none =>
        have := i1 hp; subst this
        exact ⟨fun h => by simp at h, fun e rest h => by simp at h; obtain ⟨rfl, rfl⟩ := h; simp⟩
      | some mr =>
        obtain ⟨m, r⟩ := mr
        obtain ⟨hperm, hmin⟩ := i2 m r hp
        refine ⟨fun h => by (simp only at h; split at h <;> simp at h), fun e rest h => ?_⟩
        simp only at h
        split at h
        · rename_i hle
          have h' := Option.some.inj h
          obtain ⟨rfl, rfl⟩ := Prod.mk.inj h'
          exact ⟨List.Perm.refl _, fun x hx => by
            rcases List.mem_cons.1 hx with rfl | hx
            · exact le_refl _
            · exact hle.trans (hmin x hx)⟩
        · rename_i hle
          have h' := Option.some.inj h
          obtain ⟨rfl, rfl⟩ := Prod.mk.inj h'
          exact ⟨(hperm.cons a).trans (List.Perm.swap _ _ _), fun x hx => by
            rcases List.mem_cons.1 hx with rfl | hx
            · exact (not_le.1 hle).le
            · exact hmin x hx⟩
  exact ⟨fun h => (key h).1, fun h e rest => (key h).2 e rest⟩

example : topK popMin 5 2 (fun i => ([3, 9, 1, 7, 8] : List Nat)[i]?) = some [4, 1] := by decide +kernel

/-! ### C41 -/

/-- **C41.** `range(b, e, i)` yields the integers with `b ≤ i < e`, ascending, without overflow, for all bounds of the type. -/
theorem c41_range (ty : IntTy) (b e : Int) (hb : ty.lo ≤ b) (he : e ≤ ty.hi) :
    ∃ l, range ty (some b) (some e) = some l ∧ l.Pairwise (· < ·) ∧ ∀ i, i ∈ l ↔ b ≤ i ∧ i < e := range_spec hb he

example : range exI8 (some (-2)) (some 3) = some [-2, -1, 0, 1, 2] ∧ range exI8 (some 125) (some 127) = some [125, 126] ∧
    range exI8 (some 3) (some 3) = some [] := by decide

/-! ### C56 -/

/-- **C56** (the part that holds): where `avg!` of integers returns, the group is not empty and the result is the quotient of the sum and the
number of facts, rounded towards zero. Missing: `avg` itself (`c56_avg_panics`). -/
theorem c56_avg_partial (ty : IntTy) (facts : List (Elem Int T)) (res : List (Elem Int T))
    (hr : avg c ty 0 true (retuple Tup.val facts) = some res) :
    facts ≠ [] ∧ res = [⟨((facts.map Elem.tuple).sum).tdiv facts.length, c.one⟩] := by
  rw [avg, if_pos rfl, Option.map_eq_some_iff] at hr
  obtain ⟨v, hv, rfl⟩ := hr
  have hm : ((retuple Tup.val facts).map Elem.tuple).mapM (aggValue 0) = some (facts.map Elem.tuple) := by
    clear hv
    induction facts with
    | nil => rfl
    | cons e l ih =>
      simp only [retuple, List.map_cons, List.mapM_cons] at ih ⊢
      rw [ih]; rfl
  rw [performAvg, hm, Option.bind_some] at hv
  obtain ⟨h1, h2⟩ := avg_some hv
  refine ⟨by simpa using h1, ?_⟩
  rw [h2]; simp

/-- **C56 does not hold of the code**: without `!` the average of integers always panics, whatever the facts and the provenance: the first
chosen set is empty, and its average divides by zero. -/
theorem c56_avg_panics (c : Prov T W) (ty : IntTy) (n : Nat) (batch : List (Elem (Tup Int) T)) : avg c ty n false batch = none :=
  avg_multiWorld ty n batch

/-- C56: `avg!` over facts of a narrow type panics when there are more of them than the type can count, although every sum is zero. -/
theorem c56_avg_count_overflow : avg unitProv exI8 0 true (List.replicate 128 ⟨.val 0, ()⟩) = none := by decide +kernel

example : avg unitProv exI8 0 true [⟨.val 3, ()⟩, ⟨.val (-8), ()⟩] = some [⟨-2, ()⟩] := by decide

/-! ### C57 -/

/-- **C57.** With fuzzy tags, the tag of count `n` is the greatest degree with which some choice of `n` facts is the set of true facts: it is
at least `q` exactly when the facts can be split into `n` of degree at least `q` and others whose negation has degree at least `q`. -/
theorem c57_count_min_max [IsStrictOrderedRing K] (batch : List (Elem α K)) (hne : batch ≠ []) (n : Nat) (p : K) :
    (⟨n, p⟩ : Elem Nat K) ∈ countMinMax false batch ↔ n ≤ batch.length ∧
      ∀ q, q ≤ p ↔ ∃ s r : List (Elem α K), (s ++ r).Perm batch ∧ s.length = n ∧ (∀ e ∈ s, q ≤ e.tag) ∧ ∀ e ∈ r, q ≤ 1 - e.tag :=
  countMinMax_spec hne n p

/-- C57: there is exactly one result for each count from zero to the number of facts. -/
theorem c57_counts (batch : List (Elem α K)) : (countMinMax false batch).map Elem.tuple = List.range (batch.length + 1) := by
  rw [countMinMax, if_neg (by simp)]
  by_cases hb : batch = []
  · subst hb; rfl
  rw [if_neg (by simpa using hb)]
  have hdef : ∀ k, ∃ p, maxMinProbOfKCount (batch.insertionSort (fun a b => b.tag ≤ a.tag)) k = some p := by
    intro k
    have hne' : (batch.insertionSort (fun a b => b.tag ≤ a.tag)).zipIdx.map (kCountTag k) ≠ [] := by
      intro h
      have := congrArg List.length h
      simp at this; exact hb this
    rw [maxMinProbOfKCount]
    obtain ⟨x, xs, hx⟩ := List.exists_cons_of_ne_nil hne'
    rw [hx]; exact ⟨_, rfl⟩
  rw [List.map_filterMap]
  conv_rhs => rw [← List.filterMap_some (l := List.range (batch.length + 1))]
  congr 1
  funext k
  obtain ⟨p, hp⟩ := hdef k
  rw [hp]; rfl

example : (countMinMax false exFacts).map (fun e => (e.tuple, e.tag)) = [(0, 1/10), (1, 3/10), (2, 7/10), (3, 2/10)] := by decide +kernel

/-! ### C58 -/

section
variable [LinearOrder V]

/-- **C58**, `where`-less grouping: over a batch in ascending order of keys, each key occurring in it is aggregated exactly once, in ascending
order, over all the facts with that key. -/
theorem c58_implicit (agg : Aggregator V T) (facts : List (Elem (Tup V × Tup V) T)) (hs : (facts.map (fun e => e.tuple.1)).Pairwise (· ≤ ·))
    (hne : facts ≠ []) (rest : List (List (Elem (Tup V) T))) :
    ∃ keys : List (Tup V), keys.Pairwise (· < ·) ∧ (∀ k, k ∈ keys ↔ ∃ e ∈ facts, e.tuple.1 = k) ∧
      implicitGroup agg (retuple keyTuple facts :: rest) =
        (keys.mapM (fun k => (agg (factsOf k facts)).map (List.map (fun r => (⟨.tup [k, r.tuple], r.tag⟩ : Elem (Tup V) T))))).map
          (fun rs => [rs.flatten]) := by
  set l : List (Tup V × Elem (Tup V) T) := facts.map (fun e => (e.tuple.1, ⟨e.tuple.2, e.tag⟩)) with hl
  have hre : retuple keyTuple facts = l.map (fun p => (⟨.tup [p.1, p.2.tuple], p.2.tag⟩ : Elem (Tup V) T)) := by
    simp [retuple, hl, keyTuple, Function.comp_def]
  have hg : ∀ k, groupOf k l = factsOf k facts := by
    intro k; rw [groupOf, hl, List.filter_map, List.map_map, factsOf]; rfl
  obtain ⟨⟨k, e⟩, tl, hcons⟩ := List.exists_cons_of_ne_nil (show l ≠ [] by simpa [hl] using hne)
  have hs' : (l.map Prod.fst).Pairwise (· ≤ ·) := by simpa [hl, Function.comp_def] using hs
  rw [hcons, List.map_cons, List.pairwise_cons] at hs'
  obtain ⟨keys, h1, h2, h3⟩ := implicitLoop_spec agg tl k [e] hs'.2 (fun p hp => hs'.1 p.1 (List.mem_map_of_mem hp))
  have hall : [e].map (fun e => (k, e)) ++ tl = l := by rw [hcons]; rfl
  refine ⟨keys, h1, fun x => ?_, ?_⟩
  · rw [h2]
    have : (∃ f ∈ facts, f.tuple.1 = x) ↔ ∃ p ∈ l, p.1 = x := by simp [hl]
    rw [this, hcons]; simp [eq_comm]
  · rw [implicitGroup, hre, splitKey_mapM, Option.bind_some, hcons]
    simp only
    rw [h3, hall, flatM]
    simp only [hg, consolidate]
    rw [Option.map_map]; rfl

/-- **C58**, grouping with `where`: every fact of the group-by relation is paired with the aggregate over all facts with its key, which may be
none; so empty groups are reported, each with the tag of the group-by fact. -/
theorem c58_join (c : Prov T W) (agg : Aggregator V T) (groups facts : List (Elem (Tup V × Tup V) T))
    (hs1 : (groups.map (fun e => e.tuple.1)).Pairwise (· ≤ ·)) (hs2 : (facts.map (fun e => e.tuple.1)).Pairwise (· ≤ ·))
    (rest1 rest2 : List (List (Elem (Tup V) T))) :
    joinGroup c agg (retuple keyTuple groups :: rest1) (retuple keyTuple facts :: rest2) =
      (groups.mapM (fun g => (agg (factsOf g.tuple.1 facts)).map (List.map (fun r =>
        (⟨.tup [g.tuple.1, g.tuple.2, r.tuple], c.mult g.tag r.tag⟩ : Elem (Tup V) T))))).map (fun rs => [rs.flatten]) := by
  have hre : ∀ fs : List (Elem (Tup V × Tup V) T), retuple keyTuple fs =
      (fs.map (fun e => (e.tuple.1, (⟨e.tuple.2, e.tag⟩ : Elem (Tup V) T)))).map (fun p => (⟨.tup [p.1, p.2.tuple], p.2.tag⟩ : Elem (Tup V) T)) := by
    intro fs; simp [retuple, keyTuple, Function.comp_def]
  have hg : ∀ k, groupOf k (facts.map (fun e => (e.tuple.1, (⟨e.tuple.2, e.tag⟩ : Elem (Tup V) T)))) = factsOf k facts := by
    intro k; rw [groupOf, List.filter_map, List.map_map, factsOf]; rfl
  obtain ⟨gs, h1, h2⟩ := collectGroups_spec c agg
    ((groups.map (fun e => (e.tuple.1, (⟨e.tuple.2, e.tag⟩ : Elem (Tup V) T)))).length +
      (facts.map (fun e => (e.tuple.1, (⟨e.tuple.2, e.tag⟩ : Elem (Tup V) T)))).length + 1)
    (groups.map (fun e => (e.tuple.1, ⟨e.tuple.2, e.tag⟩))) (facts.map (fun e => (e.tuple.1, ⟨e.tuple.2, e.tag⟩))) (by omega)
    (by simpa [Function.comp_def] using hs1) (by simpa [Function.comp_def] using hs2)
  rw [joinGroup, hre, hre, splitKey_mapM, splitKey_mapM, Option.bind_some, Option.bind_some, h1, Option.bind_some]
  have h3 : (gs.mapM (joinGroupResult c agg)).map (fun r => [r.flatten]) = (flatM (joinGroupResult c agg) gs).map (fun r => [r]) := by
    rw [flatM, Option.map_map]; rfl
  have h4 : ∀ l : List (Elem (Tup V × Tup V) T), flatM (joinOne c agg (facts.map (fun e => (e.tuple.1, (⟨e.tuple.2, e.tag⟩ : Elem (Tup V) T)))))
      (l.map (fun e => (e.tuple.1, ⟨e.tuple.2, e.tag⟩))) = flatM (fun g => (agg (factsOf g.tuple.1 facts)).map (List.map (fun r =>
        (⟨.tup [g.tuple.1, g.tuple.2, r.tuple], c.mult g.tag r.tag⟩ : Elem (Tup V) T)))) l := by
    intro l
    induction l with
    | nil => rfl
    | cons g l ih => rw [List.map_cons, flatM_cons, flatM_cons, ih, joinOne, hg]
  rw [h3, h2, h4, flatM, Option.map_map]; rfl

omit [LinearOrder V] in
/-- C58: without grouping the whole first batch is one group. -/
theorem c58_single (agg : Aggregator V T) (b : List (Elem (Tup V) T)) (rest : List (List (Elem (Tup V) T))) :
    singleGroup agg (b :: rest) = (agg b).map (fun r => [r]) := rfl

end

/-- Count the facts of a group. -/
def exCount : Aggregator Nat Unit := fun l => some [⟨.val l.length, ()⟩]

example : implicitGroup exCount [retuple keyTuple [⟨(.val 1, .val 7), ()⟩, ⟨(.val 1, .val 8), ()⟩, ⟨(.val 3, .val 7), ()⟩]] =
    some [[⟨.tup [.val 1, .val 2], ()⟩, ⟨.tup [.val 3, .val 1], ()⟩]] := by decide +kernel
example : joinGroup unitProv exCount [retuple keyTuple [⟨(.val 0, .val 5), ()⟩, ⟨(.val 1, .val 5), ()⟩, ⟨(.val 1, .val 6), ()⟩, ⟨(.val 4, .val 5), ()⟩]]
    [retuple keyTuple [⟨(.val 1, .val 7), ()⟩, ⟨(.val 1, .val 8), ()⟩, ⟨(.val 3, .val 7), ()⟩]] =
    some [[⟨.tup [.val 0, .val 5, .val 0], ()⟩, ⟨.tup [.val 1, .val 5, .val 2], ()⟩, ⟨.tup [.val 1, .val 6, .val 2], ()⟩,
      ⟨.tup [.val 4, .val 5, .val 0], ()⟩]] := by decide +kernel

/-! ### C59 -/

/-- **C59**, `enumerate`: the facts are numbered 0, 1, … in order, with their tags. -/
theorem c59_enumerate (batch : List (Elem α T)) :
    (enumerate batch).map (fun e => e.tuple.1) = List.range batch.length ∧
    (enumerate batch).map (fun e => (⟨e.tuple.2, e.tag⟩ : Elem α T)) = batch := enumerate_spec batch

/-- **C59**, `rank`: the same facts, numbered 0, 1, … in an order in which weights never increase (never decrease for an ascending ranking). -/
theorem c59_rank {K : Type*} [LinearOrder K] (c : Prov T K) (ascending : Bool) (batch : List (Elem α T)) :
    (rank c ascending batch).map (fun e => e.tuple.1) = List.range batch.length ∧
    ((rank c ascending batch).map (fun e => (⟨e.tuple.2, e.tag⟩ : Elem α T))).Perm batch ∧
    (rank c ascending batch).Pairwise (fun a b => if ascending then c.weight a.tag ≤ c.weight b.tag else c.weight b.tag ≤ c.weight a.tag) := by
  set S := batch.insertionSort (fun a b => if ascending then c.weight a.tag ≤ c.weight b.tag else c.weight b.tag ≤ c.weight a.tag) with hS
  have hp : S.Perm batch := List.perm_insertionSort _ _
  obtain ⟨h1, h2⟩ := enumerate_spec S
  have hs : S.Pairwise (fun a b => if ascending then c.weight a.tag ≤ c.weight b.tag else c.weight b.tag ≤ c.weight a.tag) := by
    have : Std.Total (fun a b : Elem α T => if ascending then c.weight a.tag ≤ c.weight b.tag else c.weight b.tag ≤ c.weight a.tag) :=
      ⟨fun a b => by cases ascending <;> exact le_total _ _⟩
    have : IsTrans _ (fun a b : Elem α T => if ascending then c.weight a.tag ≤ c.weight b.tag else c.weight b.tag ≤ c.weight a.tag) :=
      ⟨fun a b d h1 h2 => by cases ascending with
        | true => exact le_trans h1 h2
        | false => exact le_trans h2 h1⟩
    exact List.pairwise_insertionSort _ _
  refine ⟨by rw [rank, ← hS, h1, hp.length_eq], by rw [rank, ← hS, h2]; exact hp, ?_⟩
  have : (rank c ascending batch).map (fun e => (⟨e.tuple.2, e.tag⟩ : Elem α T)) = S := h2
  rw [← this, List.pairwise_map] at hs
  exact hs

/-- **C59**, `sort`: the same facts, numbered 0, 1, … in the order of what follows their arguments. -/
theorem c59_sort [LinearOrder V] (n : Nat) (ascending : Bool) (facts : List (Elem (List (Tup V) × List (Tup V)) T))
    (hargs : ∀ e ∈ facts, e.tuple.1.length = n) :
    ∃ res sorted, sortAgg n ascending (retuple argTuple facts) = some res ∧ sorted.Perm facts ∧
      sorted.Pairwise (fun a b => if ascending then a.tuple.2 ≤ b.tuple.2 else b.tuple.2 ≤ a.tuple.2) ∧
      res.map (fun e => e.tuple.1) = List.range facts.length ∧
      res.map (fun e => (⟨e.tuple.2, e.tag⟩ : Elem (Tup V) T)) = retuple argTuple sorted := by
  set r : Elem (List (Tup V) × List (Tup V)) T → Elem (List (Tup V) × List (Tup V)) T → Prop :=
    fun a b => if ascending then a.tuple.2 ≤ b.tuple.2 else b.tuple.2 ≤ a.tuple.2 with hr
  have hdec : DecidableRel r := fun a b => by rw [hr]; infer_instance
  have hk : (retuple argTuple facts).mapM (fun e => (sortAggKey n e.tuple).map (fun k => (k, e))) =
      some (facts.map (fun e => (e.tuple.2, (⟨argTuple e.tuple, e.tag⟩ : Elem (Tup V) T)))) := by
    induction facts with
    | nil => rfl
    | cons e l ih =>
      simp only [retuple, List.map_cons, List.mapM_cons] at ih ⊢
      rw [ih (fun x hx => hargs x (by simp [hx]))]
      have hl := hargs e (by simp)
      have : sortAggKey n (argTuple e.tuple) = some e.tuple.2 := by
        rw [argTuple, sortAggKey, if_pos (by simp; omega), ← hl, List.drop_left]
      rw [this]; rfl
  have hp : (facts.insertionSort r).Perm facts := List.perm_insertionSort _ _
  have htot : Std.Total r := ⟨fun a b => by rw [hr]; cases ascending <;> exact le_total _ _⟩
  have htr : IsTrans _ r := ⟨fun a b d h1 h2 => by
    rw [hr] at h1 h2 ⊢
    cases ascending with
    | true => exact le_trans (α := List (Tup V)) h1 h2
    | false => exact le_trans (α := List (Tup V)) h2 h1⟩
  have hmap : ((facts.map (fun e => (e.tuple.2, (⟨argTuple e.tuple, e.tag⟩ : Elem (Tup V) T)))).insertionSort
      (fun a b => if ascending then a.1 ≤ b.1 else b.1 ≤ a.1)).map Prod.snd = retuple argTuple (facts.insertionSort r) := by
    rw [← List.map_insertionSort (r := r) (s := fun a b => if ascending then a.1 ≤ b.1 else b.1 ≤ a.1)
      (fun e : Elem (List (Tup V) × List (Tup V)) T => (e.tuple.2, (⟨argTuple e.tuple, e.tag⟩ : Elem (Tup V) T))) facts (fun a _ b _ => Iff.rfl)]
    rw [List.map_map]; rfl
  obtain ⟨h1, h2⟩ := enumerate_spec (retuple argTuple (facts.insertionSort r))
  refine ⟨enumerate (retuple argTuple (facts.insertionSort r)), facts.insertionSort r, ?_, hp, List.pairwise_insertionSort _ _, ?_, h2⟩
  · rw [sortAgg, hk, Option.map_some, hmap]
  · rw [h1]; simp [retuple]

example : (rank (minMaxProv ℚ) false exFacts).map (fun e => (e.tuple.1, e.tuple.2.2)) = [(0, 3), (1, 8), (2, 5)] := by decide +kernel

end Scallop.Agg
