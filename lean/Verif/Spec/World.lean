import Verif.Model.Clause

/-!
# Possible worlds

A world says for each fact whether it is true. Conjunctions and disjunctions of literals have the usual truth value.
-/

namespace Scallop

/-- A literal is true in a world. -/
def Literal.holds (w : Nat → Bool) : Literal → Prop
  | .pos f => w f = true
  | .neg f => w f = false

/-- A conjunction is true. -/
def Clause.holds (w : Nat → Bool) (c : Clause) : Prop := ∀ l ∈ c, l.holds w

/-- A disjunction of conjunctions is true. -/
def dnfHolds (w : Nat → Bool) (f : List Clause) : Prop := ∃ c ∈ f, Clause.holds w c

/-- A conjunction of disjunctions is true. -/
def cnfHolds (w : Nat → Bool) (f : List Clause) : Prop := ∀ c ∈ f, ∃ l ∈ c, l.holds w

/-- In each group of mutually exclusive facts at most one is true. -/
def consistent (w : Nat → Bool) (groups : List (List Nat)) : Prop :=
  ∀ g ∈ groups, ∀ a ∈ g, ∀ b ∈ g, w a = true → w b = true → a = b

/-- The literals of a conjunction are in ascending order of facts, one literal for each fact. -/
def Clause.Sorted (c : Clause) : Prop := c.Pairwise (fun a b => a.factId < b.factId)

/-- An ascending list without repetition (a `BTreeSet`). -/
def Asc {α : Type*} [LT α] (l : List α) : Prop := l.Pairwise (· < ·)

end Scallop
