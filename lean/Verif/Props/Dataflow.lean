import Verif.Proof.Dataflow
import Verif.Props.Collections

/-!
# Property theorems C10-C15 and C46: dataflow operators

The specifications (`joinSpec`, `intersectSpec`, ...) are list comprehensions in `Verif/Spec/Dataflow.lean`.
-/

namespace Scallop

variable {V T W ι κ : Type*} [LinearOrder V]

/-- **C10.** Joining two sorted batches of key/value tuples does not panic and yields, for each pair of a left `(k, a)` and a right
`(k, b)`, the tuple `(k, a, b)` with the product of the tags, once per pair and nothing else. -/
theorem c10_join (c : Prov T W) (b1 b2 : Batch V T) (h1 : SortedLe b1.elems) (h2 : SortedLe b2.elems)
    (p1 : Pairs b1.elems) (p2 : Pairs b2.elems) :
    ∃ b, joinBatch c b1 b2 = some b ∧ b.elems = joinSpec c b1.elems b2.elems := by
  obtain ⟨l, hl⟩ := joinLoop_isSome c (b1.elems.length + b2.elems.length) b1.elems b2.elems p1 p2
  have : joinBatch c b1 b2 = some ⟨l, false⟩ := by unfold joinBatch; rw [hl]; rfl
  exact ⟨_, this, joinBatch_elems h1 h2 this⟩

/-- A key/value tuple. -/
def kv (k a : Nat) : Tup Nat := .tup [.val k, .val a]

/-- The hypotheses of C10 are met with duplicate keys on both sides, and the result has all pairs. -/
example : SortedLe [(⟨kv 1 1, 2⟩ : Elem (Tup Nat) Nat), ⟨kv 1 2, 3⟩, ⟨kv 2 0, 5⟩] ∧
    Pairs [(⟨kv 1 1, 2⟩ : Elem (Tup Nat) Nat), ⟨kv 1 2, 3⟩, ⟨kv 2 0, 5⟩] := by
  constructor
  · unfold SortedLe; decide +kernel
  · intro e he
    simp only [List.mem_cons, List.not_mem_nil, or_false] at he
    rcases he with rfl | rfl | rfl <;> exact ⟨_, _, rfl, rfl⟩

example : (joinBatch natProv ⟨[⟨kv 1 1, 2⟩, ⟨kv 1 2, 3⟩, ⟨kv 2 0, 5⟩], true⟩ ⟨[⟨kv 0 7, 1⟩, ⟨kv 1 8, 10⟩, ⟨kv 1 9, 100⟩], true⟩).map Batch.elems =
    some [⟨.tup [.val 1, .val 1, .val 8], 20⟩, ⟨.tup [.val 1, .val 1, .val 9], 200⟩,
          ⟨.tup [.val 1, .val 2, .val 8], 30⟩, ⟨.tup [.val 1, .val 2, .val 9], 300⟩] := by decide +kernel

/-- **C11.** Intersecting two collections (strictly ascending batches) yields exactly the common tuples with the product of their
tags, also when the search for the next candidate gallops. -/
theorem c11_intersect (c : Prov T W) (b1 b2 : Batch V T) (h1 : Sorted b1.elems) (h2 : Sorted b2.elems) :
    (intersectBatch c b1 b2).elems = intersectSpec c b1.elems b2.elems :=
  intersectBatch_elems c h1 h2

example : (intersectBatch natProv ⟨[⟨kv 1 1, 2⟩, ⟨kv 1 2, 3⟩, ⟨kv 1 3, 4⟩, ⟨kv 2 0, 5⟩], true⟩ ⟨[⟨kv 1 3, 10⟩, ⟨kv 2 0, 100⟩], false⟩).elems =
    [⟨kv 1 3, 40⟩, ⟨kv 2 0, 500⟩] := by decide +kernel

/-- When an operand repeats a tuple (possible for operands sorted in place, `sorted.rs`, which keeps duplicates), the intersection
pairs the duplicates off and loses contributions: it returns 1 × 10, the specification also has 2 × 10. -/
theorem c11_duplicates_lost :
    ∃ A B : List (Elem (Tup Nat) Nat), SortedLe A ∧ Sorted B ∧
      ¬ (intersectBatch natProv (sortedBatch ⟨A, false⟩) ⟨B, true⟩).elems.Perm (intersectSpec natProv A B) := by
  refine ⟨[⟨kv 1 1, 1⟩, ⟨kv 1 1, 2⟩], [⟨kv 1 1, 10⟩], ?_, ?_, ?_⟩
  · unfold SortedLe; decide +kernel
  · unfold Sorted; decide +kernel
  · intro h
    have := h.length_eq
    revert this
    decide +kernel

/-- **C12.** The product yields each pair exactly once with the product of the tags, for all batches (also empty ones). -/
theorem c12_product (c : Prov T W) (b1 b2 : Batch V T) :
    (productBatch c b1 b2).elems = productSpec c b1.elems b2.elems :=
  productBatch_elems c b1 b2

example : (productBatch natProv ⟨[⟨.val 1, 2⟩, ⟨.val 2, 3⟩], false⟩ ⟨[⟨.val 8, 10⟩, ⟨.val 9, 100⟩], true⟩).elems =
    [⟨kv 1 8, 20⟩, ⟨kv 1 9, 200⟩, ⟨kv 2 8, 30⟩, ⟨kv 2 9, 300⟩] := by decide +kernel

/-- **C13.** The difference keeps the left tuples absent from the right with their tag; a tuple on both sides gets the provenance
subtraction of its tags, and is dropped when that is undefined. -/
theorem c13_difference (c : Prov T W) (b1 b2 : Batch V T) (h1 : Sorted b1.elems) (h2 : SortedLe b2.elems) :
    (differenceBatch c b1 b2).elems = differenceSpec c b1.elems b2.elems :=
  differenceBatch_elems c h1 h2

/-- C13 per tuple: what becomes of a left element. -/
theorem c13_difference_mem (c : Prov T W) (b1 b2 : Batch V T) (h1 : Sorted b1.elems) (h2 : Sorted b2.elems) (x : Elem (Tup V) T) :
    x ∈ (differenceBatch c b1 b2).elems ↔
      ∃ e ∈ b1.elems, e.tuple = x.tuple ∧
        ((x.tuple ∉ tuples b2.elems ∧ x.tag = e.tag) ∨
         ∃ y ∈ b2.elems, y.tuple = x.tuple ∧ c.minus e.tag y.tag = some x.tag) := by
  rw [c13_difference c b1 b2 h1 h2.le]
  unfold differenceSpec minusBy
  simp only [List.mem_filterMap]
  constructor
  · rintro ⟨e, he, hx⟩
    refine ⟨e, he, ?_⟩
    cases hf : b2.elems.find? (fun y => some y.tuple = some e.tuple) with
    | none =>
      rw [hf] at hx
      cases hx
      refine ⟨rfl, Or.inl ⟨?_, rfl⟩⟩
      rintro ⟨y, hy, hyx⟩
      have := List.find?_eq_none.mp hf y hy
      simp [hyx] at this
    | some y =>
      rw [hf] at hx
      simp only [Option.map_eq_some_iff] at hx
      obtain ⟨t, ht, rfl⟩ := hx
      have hy := List.mem_of_find?_eq_some hf
      have hye := List.find?_some hf
      simp only [Option.some.injEq, decide_eq_true_eq] at hye
      exact ⟨rfl, Or.inr ⟨y, hy, hye, ht⟩⟩
  · rintro ⟨e, he, hex, h⟩
    refine ⟨e, he, ?_⟩
    rcases h with ⟨hn, ht⟩ | ⟨y, hy, hyx, ht⟩
    · have : b2.elems.find? (fun y => some y.tuple = some e.tuple) = none := by
        rw [List.find?_eq_none]
        intro y hy h
        simp only [Option.some.injEq, decide_eq_true_eq] at h
        exact hn ⟨y, hy, by rw [h, hex]⟩
      rw [this]
      cases x; cases e; simp_all
    · cases hf : b2.elems.find? (fun y => some y.tuple = some e.tuple) with
      | none =>
        have := List.find?_eq_none.mp hf y hy
        simp [hyx, hex] at this
      | some z =>
        have hz := List.mem_of_find?_eq_some hf
        have hze := List.find?_some hf
        simp only [Option.some.injEq, decide_eq_true_eq] at hze
        have : z = y := by
          have hzy : z.tuple = y.tuple := by rw [hze, hex, hyx]
          by_contra hne
          rcases List.pairwise_iff_getElem.mp h2 |> fun hp => (show z.tuple < y.tuple ∨ y.tuple < z.tuple from by
            obtain ⟨i, hi, rfl⟩ := List.getElem_of_mem hz
            obtain ⟨j, hj, rfl⟩ := List.getElem_of_mem hy
            rcases lt_trichotomy i j with h | h | h
            · exact Or.inl (hp i j hi hj h)
            · subst h; exact absurd rfl hne
            · exact Or.inr (hp j i hj hi h)) with h | h
          · rw [hzy] at h; exact lt_irrefl _ h
          · rw [hzy] at h; exact lt_irrefl _ h
        subst this
        simp only [ht, Option.map_some]
        cases x; cases e; simp_all

example : (differenceBatch maxMinProv ⟨[⟨kv 1 1, 700⟩, ⟨kv 1 2, 300⟩, ⟨kv 2 0, 500⟩], true⟩ ⟨[⟨kv 0 0, 1⟩, ⟨kv 1 2, 900⟩], true⟩).elems =
    [⟨kv 1 1, 700⟩, ⟨kv 1 2, 100⟩, ⟨kv 2 0, 500⟩] := by decide +kernel
example : (differenceBatch natProv ⟨[⟨kv 1 1, 7⟩, ⟨kv 1 2, 3⟩], true⟩ ⟨[⟨kv 1 2, 9⟩], true⟩).elems = [⟨kv 1 1, 7⟩] := by decide +kernel

/-- **C14.** The anti-join of key/value tuples with keys does not panic, keeps the left tuples whose key is absent on the right with
their tag, and gives the provenance subtraction (dropping when undefined) for the others. -/
theorem c14_antijoin (c : Prov T W) (b1 b2 : Batch V T) (h1 : SortedLe b1.elems) (h2 : SortedLe b2.elems) (p1 : Keyed b1.elems) :
    ∃ b, antijoinBatch c b1 b2 = some b ∧ b.elems = antijoinSpec c b1.elems b2.elems := by
  obtain ⟨l, hl⟩ := antijoinLoop_isSome c b2.gallop (b1.elems.length + b2.elems.length) b1.elems b2.elems p1
  have : antijoinBatch c b1 b2 = some ⟨l, false⟩ := by unfold antijoinBatch; rw [hl]; rfl
  exact ⟨_, this, antijoinBatch_elems h1 h2 this⟩

/-- C14 for provenances without negation (unit, natural, proofs, ...): exactly the left elements with no matching key remain. -/
theorem c14_antijoin_no_negation (c : Prov T W) (hneg : ∀ a t, c.minus a t = none) (b1 b2 : Batch V T) (h1 : SortedLe b1.elems)
    (h2 : SortedLe b2.elems) (p1 : Keyed b1.elems) :
    ∃ b, antijoinBatch c b1 b2 = some b ∧
      ∀ x, x ∈ b.elems ↔ x ∈ b1.elems ∧ ∀ y ∈ b2.elems, x.tuple.at? 0 ≠ some y.tuple := by
  obtain ⟨b, hb, he⟩ := c14_antijoin c b1 b2 h1 h2 p1
  refine ⟨b, hb, ?_⟩
  intro x
  rw [he]
  unfold antijoinSpec minusBy
  simp only [List.mem_filterMap, hneg, Option.map_none]
  constructor
  · rintro ⟨e, hm, h⟩
    split at h
    · rename_i hf
      cases h
      refine ⟨hm, fun y hy hxy => ?_⟩
      have := List.find?_eq_none.mp hf y hy
      simp [hxy] at this
    · cases h
  · rintro ⟨hm, h⟩
    refine ⟨x, hm, ?_⟩
    have : b2.elems.find? (fun y => some y.tuple = x.tuple.at? 0) = none := by
      rw [List.find?_eq_none]
      intro y hy he
      simp only [decide_eq_true_eq] at he
      exact h y hy he.symm
    rw [this]

example : (antijoinBatch natProv ⟨[⟨kv 1 1, 7⟩, ⟨kv 1 2, 3⟩, ⟨kv 2 2, 4⟩, ⟨kv 4 2, 5⟩], true⟩
    ⟨[⟨.val 0, 1⟩, ⟨.val 1, 9⟩, ⟨.val 3, 9⟩], true⟩).map Batch.elems = some [⟨kv 2 2, 4⟩, ⟨kv 4 2, 5⟩] := by decide +kernel

/-- **C46.** Looking up a constant key in a sorted batch of key/value tuples does not panic and returns exactly the elements with
that key, in order. -/
theorem c46_find (k : Tup V) (l : List (Elem (Tup V) T)) (h : SortedLe l) (hp : Keyed l) :
    findLoop k l = some (l.filter (fun e => e.tuple.at? 0 = some k)) := by
  obtain ⟨o, ho⟩ := findLoop_isSome k l hp
  rw [ho, findLoop_spec k l o h ho]; rfl

example : findLoop (.val 1) [(⟨kv 0 1, 7⟩ : Elem (Tup Nat) Nat), ⟨kv 1 2, 3⟩, ⟨kv 1 3, 4⟩, ⟨kv 4 2, 5⟩] = some [⟨kv 1 2, 3⟩, ⟨kv 1 3, 4⟩] := by
  decide +kernel

/-- **C15** (operators). For join, intersection and product: the naive result over the stable leaves together with what `iter_recent`
returns is, as a bag with tags, the naive result over everything (stable and recent). This covers every dataflow nested from
union, projection, selection, lookup, sorting, join, intersection and product. -/
theorem c15_semi_naive (c : Prov T W) (env : Env V T ι κ) (hw : env.Wf) (d : DF V ι κ) (hs : d.wellSorted) (hp : d.positive)
    (S R : List (Batch V T)) (hS : d.stable c env = some S) (hR : d.recent c env = some R) :
    (elemsOf S).Perm (d.bag c (env.stableSrc c)) ∧ (elemsOf S ++ elemsOf R).Perm (d.bag c (env.allSrc c)) := by
  have h1 := DF.stable_positive c hw d hs hp S hS
  exact ⟨h1, (h1.append_right _).trans (DF.recent_positive c hw d hs hp R hR)⟩

/-- C15 with negation of lower strata: for dataflows of the shape the compiler emits (differences and anti-joins above the positive
part, subtracting one input collection), the first iteration returns the whole naive result, and every later one returns what the
naive result gained over the one on the stable leaves. -/
theorem c15_semi_naive_negation (c : Prov T W) (env : Env V T ι κ) (hw : env.Wf) (d : DF V ι κ) (hs : d.wellSorted) (hp : d.stratified)
    (R : List (Batch V T)) (hR : d.recent c env = some R) :
    ((if env.first then [] else d.bag c (env.stableSrc c)) ++ elemsOf R).Perm (d.bag c (env.allSrc c)) :=
  DF.recent_stratified c hw d hs hp R hR

/-- A dataflow that joins a relation with an input collection. -/
def exJoin : DF Nat Unit Unit := .join (.rel ()) (.input ())

/-- A state with one stable and one recent batch. -/
def exEnv : Env Nat Nat Unit Unit where
  rel := fun _ => ⟨[[⟨kv 1 1, 1⟩, ⟨kv 2 2, 1⟩]], [⟨kv 1 5, 1⟩], [], []⟩
  input := fun _ => [⟨kv 1 8, 10⟩, ⟨kv 2 9, 100⟩]
  first := false

/-- The hypotheses of C15 are met by a concrete state, with a non-empty delta. -/
example : exEnv.Wf ∧ exJoin.wellSorted ∧ exJoin.positive ∧
    (exJoin.recent natProv exEnv).map elemsOf = some [⟨.tup [.val 1, .val 5, .val 8], 10⟩] ∧
    (exJoin.stable natProv exEnv).map elemsOf = some [⟨.tup [.val 1, .val 1, .val 8], 10⟩, ⟨.tup [.val 2, .val 2, .val 9], 100⟩] := by
  refine ⟨⟨fun _ => ⟨?_, ?_, ?_⟩, fun _ => ?_, ?_⟩, by simp [exJoin, DF.wellSorted, DF.outSortedLe], by simp [exJoin, DF.positive],
    by decide +kernel, by decide +kernel⟩
  · simp only [exEnv, List.mem_singleton, forall_eq]; unfold Sorted; decide +kernel
  · simp [exEnv, Sorted]
  · simp [exEnv]
  · simp only [exEnv]; unfold Sorted; decide +kernel
  · intro h; cases h

instance [DecidableEq T] : DecidableEq (Batch V T) := fun a b =>
  decidable_of_iff (a.elems = b.elems ∧ a.gallop = b.gallop) (by cases a; cases b; simp)

/-- Differences are only complete at the top: they return no stable batches (`difference.rs` 19-29), so a join over a difference
misses pairs. Here the difference has the stable tuple `(1, 1)`, the right side the recent tuple `(1, 8)`, and the join's
`iter_recent` does not return `(1, 1, 8)` although its naive evaluation has gained it. -/
theorem c15_join_over_difference_incomplete :
    ∃ (env : Env Nat Nat Bool Unit) (d : DF Nat Bool Unit) (R : List (Batch Nat Nat)), env.Wf ∧ d.wellSorted ∧
      d.recent natProv env = some R ∧ ¬ (d.bag natProv (env.stableSrc natProv) ++ elemsOf R).Perm (d.bag natProv (env.allSrc natProv)) := by
  refine ⟨⟨fun i => if i then ⟨[[⟨kv 1 1, 1⟩]], [], [], []⟩ else ⟨[], [⟨kv 1 8, 1⟩], [], []⟩, fun _ => [], false⟩,
    .join (.difference (.rel true) (.input ())) (.rel false), [⟨[], false⟩], ?_, ?_, by decide +kernel, ?_⟩
  · refine ⟨fun i => ?_, fun _ => List.Pairwise.nil, fun h => by cases h⟩
    cases i
    · exact ⟨by simp, by simp [Sorted], by simp⟩
    · exact ⟨by simp [Sorted], by simp [Sorted], by simp⟩
  · simp [DF.wellSorted, DF.outSortedLe, DF.outSorted]
  · intro h
    have := h.length_eq
    revert this
    decide +kernel

end Scallop
