import Verif.Model.ListFacts

/-!
# What disjunctions of a list of facts mean
-/

namespace Scallop.ListFacts

/-- The fact with number `i` is in the disjunction with number `j`. -/
def InDisj (ds : List (List Nat)) (i j : Nat) : Prop := ∃ d, ds[j]? = some d ∧ i ∈ d

/-- The disjunctions are of existing facts, and no fact is in two of them. -/
def Proper (n : Nat) (ds : List (List Nat)) : Prop :=
  (∀ i j, InDisj ds i j → i < n) ∧ ∀ i j k, InDisj ds i j → InDisj ds i k → j = k

/-- The result has the tuple of the fact with number `i` at place `o`, and the bindings read its probability and, if the fact is in a
disjunction, the number of that one, counted from `c`, and none otherwise. -/
def ReadsAs (facts : List (P × τ)) (ds : List (List Nat)) (c : Nat) (out : List (PyTag P × τ)) (o i : Nat) : Prop :=
  ∃ p t tag, facts[i]? = some (p, t) ∧ out[o]? = some (tag, t) ∧ (∀ j, InDisj ds i j → readTag tag = some (p, some (c + j))) ∧
    ((∀ j, ¬ InDisj ds i j) → readTag tag = some (p, none))

/-- A strict order in which any two elements are comparable up to equivalence. -/
def WeakOrder (lt : P → P → Bool) : Prop :=
  (∀ a b, lt a b = true → lt b a = false) ∧ ∀ a b c, lt a b = false → lt b c = false → lt a c = false

end Scallop.ListFacts
