import Verif.Model.Aggregate

/-!
# What is assumed of the priority queue of the top-k sampler
-/

namespace Scallop.Agg

/-- What is assumed of `BinaryHeap::pop` with reversed weights: it returns an element of least weight, and the heap without it. -/
structure IsPopMin {K : Type*} [LinearOrder K] (pop : List (TopElem K) → Option (TopElem K × List (TopElem K))) : Prop where
  none : ∀ h, pop h = none → h = []
  some : ∀ h e rest, pop h = some (e, rest) → h.Perm (e :: rest) ∧ ∀ x ∈ h, e.2 ≤ x.2

end Scallop.Agg
