import Verif.Proof.Insert

/-!
# Property theorems C01-C05: sorted collections and galloping search
-/

namespace Scallop
variable {α T W : Type*} [LinearOrder α]

/-- A provenance used in the examples: natural numbers with addition and multiplication, no negation, saturated when the tag
does not change. (The code's natural provenance saturates always; see `Verif/Model/Provenance.lean` for it.) -/
def natProv : Prov Nat Nat where
  zero := 0
  one := 1
  add := (· + ·)
  mult := (· * ·)
  negate := fun _ => none
  saturated := fun a b => a == b
  discard := fun a => a == 0
  weight := id

/-- The min-max provenance on naturals in place of probabilities (`probabilistic/min_max_prob.rs`), used in examples. -/
def maxMinProv : Prov Nat Nat where
  zero := 0
  one := 1000
  add := max
  mult := min
  negate := fun t => some (1000 - t)
  saturated := fun a b => a == b
  discard := fun a => a == 0
  weight := id

/-- **C01.** `from_vec` does not panic; its result is strictly ascending, and for every tuple it stores exactly one tag, the
left-to-right sum of the tags of all occurrences of the tuple in the input (none when the tuple does not occur). -/
theorem c01_from_vec (c : Prov T W) (v : List (Elem α T)) :
    ∃ r, fromVec? c v = some r ∧ Sorted r ∧ ∀ x, tagsOf r x = (sumTags c (tagsOf v x)).toList :=
  ⟨_, fromVec?_eq c v, fromVec_sorted c v, tagsOf_fromVec c v⟩

/-- C01, set level: same tuples as the input. -/
theorem c01_from_vec_tuples (c : Prov T W) (v : List (Elem α T)) :
    ∃ r, fromVec? c v = some r ∧ tuples r = tuples v :=
  ⟨_, fromVec?_eq c v, tuples_fromVec c v⟩

example : fromVec? natProv [⟨5, 1⟩, ⟨3, 10⟩, ⟨5, 100⟩, ⟨7, 2⟩, ⟨3, 20⟩] = some [⟨3, 30⟩, ⟨5, 101⟩, ⟨7, 2⟩] := by decide

/-- **C02.** Merging two sorted collections, for a commutative tag addition: the result is sorted and the tag of every tuple is
the sum of its tags on the two sides. -/
theorem c02_merge (c : Prov T W) (hcomm : ∀ a b, c.add a b = c.add b a)
    (l1 l2 : List (Elem α T)) (h1 : Sorted l1) (h2 : Sorted l2) :
    Sorted (merge c l1 l2) ∧ ∀ x, tagsOf (merge c l1 l2) x = (sumTags c (tagsOf l1 x ++ tagsOf l2 x)).toList := by
  obtain ⟨hs, h⟩ := merge_spec c l1 l2 h1 h2
  refine ⟨hs, ?_⟩
  rcases h with h | h
  · exact h
  · intro x
    rw [h]
    have e1 := sumTags_sorted c h1 x
    have e2 := sumTags_sorted c h2 x
    generalize tagsOf l1 x = a at *
    generalize tagsOf l2 x = b at *
    match a, b with
    | [], b => simp
    | a, [] => simp
    | [s], [t] => simp [sumTags, hcomm]
    | s :: s' :: a, b => simp [sumTags] at e1
    | a, t :: t' :: b => simp [sumTags] at e2

/-- C02 for any tag addition: the tags are combined in one of the two orders, the same for all tuples. -/
theorem c02_merge_any (c : Prov T W) (l1 l2 : List (Elem α T)) (h1 : Sorted l1) (h2 : Sorted l2) :
    Sorted (merge c l1 l2) ∧
      ((∀ x, tagsOf (merge c l1 l2) x = (sumTags c (tagsOf l1 x ++ tagsOf l2 x)).toList) ∨
       (∀ x, tagsOf (merge c l1 l2) x = (sumTags c (tagsOf l2 x ++ tagsOf l1 x)).toList)) :=
  merge_spec c l1 l2 h1 h2

example : Sorted [(⟨1, 5⟩ : Elem Nat Nat), ⟨4, 6⟩] ∧ Sorted [(⟨0, 1⟩ : Elem Nat Nat), ⟨4, 1⟩, ⟨9, 1⟩] ∧
    merge natProv [⟨1, 5⟩, ⟨4, 6⟩] [⟨0, 1⟩, ⟨4, 1⟩, ⟨9, 1⟩] = [⟨0, 1⟩, ⟨1, 5⟩, ⟨4, 7⟩, ⟨9, 1⟩] := by
  refine ⟨?_, ?_, by decide⟩ <;> simp [Sorted]

/-- **C03.** Inserting into a sorted collection does not panic; the result is sorted, the inserted tuple carries the sum of its
new and old tag, every other tuple is as before. -/
theorem c03_insert (c : Prov T W) (els : List (Elem α T)) (e : Elem α T) (h : Sorted els) :
    ∃ r, insert? c els e = some r ∧ Sorted r ∧
      ∀ x, tagsOf r x = if x = e.tuple then (sumTags c (e.tag :: tagsOf els x)).toList else tagsOf els x :=
  insert?_spec c els e h

/-- C03 for `insert_unchecked`, whose contract is that the tuple is not yet present. -/
theorem c03_insert_unchecked (els : List (Elem α T)) (e : Elem α T) (h : Sorted els) (hnew : e.tuple ∉ tuples els) :
    ∃ r, insertUnchecked? els e = some r ∧ Sorted r ∧
      ∀ x, tagsOf r x = if x = e.tuple then [e.tag] else tagsOf els x :=
  insertUnchecked?_spec els e h hnew

example : Sorted [(⟨1, 5⟩ : Elem Nat Nat), ⟨4, 6⟩] ∧
    insert? natProv [⟨1, 5⟩, ⟨4, 6⟩] ⟨4, 3⟩ = some [⟨1, 5⟩, ⟨4, 9⟩] ∧
    insert? natProv [⟨1, 5⟩, ⟨4, 6⟩] ⟨3, 3⟩ = some [⟨1, 5⟩, ⟨3, 3⟩, ⟨4, 6⟩] := by
  refine ⟨by simp [Sorted], by decide, by decide⟩

/-- **C04.** `retain` does not panic and keeps exactly the selected elements (selected by original index and value) in order. -/
theorem c04_retain {β : Type*} (f : Nat → β → Bool) (els : List β) :
    retain? f els = some ((els.zipIdx.filter (fun p => f p.2 p.1)).map Prod.fst) :=
  retain?_eq f els

example : retain? (fun i e => i % 2 == 0 || e == 7) [5, 6, 3, 7, 8, 1] = some [5, 3, 7, 8] := by decide

/-- **C05** for the start positions for which the code is right: position 0, or a start element satisfying the predicate, or a
predicate false from the beginning. Missing for the full C05: arbitrary start positions, refuted below. -/
theorem c05_gallop_index_partial {β : Type*} (s : List β) (p : β → Bool) (b : Nat) (hd : DownClosed s p)
    (hb : b = 0 ∨ (∃ x, s[b]? = some x ∧ p x = true) ∨ (∀ x, s[0]? = some x → p x = false)) :
    IsBoundary s p b (gallopIndex s b p) := by
  refine gallopIndex_boundary s p b hd ?_
  rcases hb with h | h | h
  · exact Or.inl h
  · exact Or.inr (Or.inl (cmpAt_iff.mpr h))
  · refine Or.inr (Or.inr ?_)
    unfold cmpAt
    split
    · rename_i x hx; exact h x hx
    · rfl

example : DownClosed [1, 2, 2, 5, 8, 9, 12] (fun x => decide (x < 9)) ∧
    gallopIndex [1, 2, 2, 5, 8, 9, 12] 0 (fun x => decide (x < 9)) = 5 := by
  refine ⟨?_, by decide⟩
  have h : ([1, 2, 2, 5, 8, 9, 12] : List Nat).Pairwise (· ≤ ·) := by decide
  intro i j x y hij hx hy hp
  rcases Nat.lt_or_eq_of_le hij with hlt | rfl
  · obtain ⟨hi, rfl⟩ := List.getElem?_eq_some_iff.mp hx
    obtain ⟨hj, rfl⟩ := List.getElem?_eq_some_iff.mp hy
    have := List.pairwise_iff_getElem.mp h i j hi hj hlt
    simp only [decide_eq_true_eq] at *
    omega
  · rw [hx] at hy; cases hy; exact hp

/-- **C05 fails in general**: with a start position greater than 0 the search looks at `slice[0]` instead of `slice[begin]` and
skips the element at the start position even if it is the boundary. The schedulers call it this way. -/
theorem c05_gallop_index_false : ¬ ∀ (s : List Nat) (b k : Nat), s.Pairwise (· < ·) → b ≤ s.length →
    IsBoundary s (fun x => decide (x < k)) b (gallopIndex s b (fun x => decide (x < k))) := by
  intro h
  have := (h [1, 10, 11] 1 10 (by decide) (by decide)).2.1 1 (by decide) (by decide)
  revert this
  simp

end Scallop
