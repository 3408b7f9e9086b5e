import Verif.Model.Dnf

/-!
# What is assumed of the priority queue
-/

namespace Scallop

open DnfCtx (HeapElem)

variable {K : Type*} [Field K] [LinearOrder K]

/-- What is assumed of `BinaryHeap::pop`: it returns an element of greatest probability, and the heap without it. -/
structure IsPop (pop : List (HeapElem K) → Option (HeapElem K × List (HeapElem K))) : Prop where
  none : ∀ h, pop h = none → h = []
  some : ∀ h e rest, pop h = some (e, rest) → h.Perm (e :: rest) ∧ ∀ x ∈ h, x.prob ≤ e.prob

end Scallop
