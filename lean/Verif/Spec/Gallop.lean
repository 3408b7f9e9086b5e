/-!
# Specification of searching for a boundary in a slice
-/

namespace Scallop

/-- The predicate is downward closed along the slice: if an element satisfies it, all earlier ones do. (On a sorted slice the
predicate "smaller than `k`" is downward closed.) -/
def DownClosed {β : Type _} (s : List β) (p : β → Bool) : Prop :=
  ∀ (i j : Nat) (x y : β), i ≤ j → s[i]? = some x → s[j]? = some y → p y = true → p x = true

/-- `r` is the first position at or after `b` whose element does not satisfy `p` (or the end of the slice). -/
def IsBoundary {β : Type _} (s : List β) (p : β → Bool) (b r : Nat) : Prop :=
  b ≤ r ∧ (∀ i, b ≤ i → i < r → ∃ x, s[i]? = some x ∧ p x = true) ∧ (∀ x, s[r]? = some x → p x = false)

end Scallop
