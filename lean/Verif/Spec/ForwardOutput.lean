import Verif.Model.ForwardOutput

/-!
# What the outputs of a forward function are to be
-/

namespace Scallop.ForwardOut

variable {R τ : Type}

/-- The probability of a tuple in a collection; zero if it is not there. -/
def IsProb [Zero R] (coll : List (Tag R × τ)) (t : τ) (p : R) : Prop :=
  (∃ tag, (tag, t) ∈ coll ∧ p = tag.prob) ∨ ((∀ tag, (tag, t) ∉ coll) ∧ p = 0)

/-- A matrix with a row for each item and a column for each tuple, of the probabilities. -/
def Table [Zero R] (colls : List (List (Tag R × τ))) (ts : List τ) (m : List (List R)) : Prop :=
  m.length = colls.length ∧ ∀ (b : Nat) (coll : List (Tag R × τ)), colls[b]? = some coll → ∃ row : List R, m[b]? = some row ∧ row.length = ts.length ∧
    ∀ (k : Nat) (t : τ), ts[k]? = some t → ∃ p, row[k]? = some p ∧ IsProb coll t p

/-- The right result for a relation, whose collections for the items are given: with a list of tuples, their matrix; with a single tuple, the vector of its
probabilities; without a mapping, the tuples found for any item, once each, and their matrix. -/
def Right [Zero R] (colls : List (List (Tag R × τ))) : Option (Mapping τ) → Res R τ → Prop
  | some (false, ts), .mat m => Table colls ts m
  | some (true, [t]), .vec l => l.length = colls.length ∧ ∀ (b : Nat) (coll : List (Tag R × τ)), colls[b]? = some coll → ∃ p, l[b]? = some p ∧ IsProb coll t p
  | none, .found ts m => ts.Nodup ∧ (∀ t, t ∈ ts ↔ ∃ coll ∈ colls, ∃ tag, (tag, t) ∈ coll) ∧ Table colls ts m
  | _, _ => False

/-- A mapping that has tuples: a list, or a single tuple. -/
def Proper : Option (Mapping τ) → Prop
  | some (false, ts) => ts ≠ []
  | some (true, ts) => ∃ t, ts = [t]
  | none => True

/-- The mapping of a relation: the one of the call, or else that of the function. -/
def IsMapping (mappings : List (String × Option (Mapping τ))) (given : List (String × Mapping τ)) (n : String) (m : Option (Mapping τ)) : Prop :=
  (∃ g, m = some g ∧ (n, g) ∈ given) ∨ (n ∉ given.map Prod.fst ∧ (n, m) ∈ mappings)

/-- The derivative of an output by an input: what the tag says, zero if it says nothing. -/
def IsDeriv [Zero R] (o : Option (Tag R)) (j : Nat) (w : R) : Prop :=
  (∃ t, o = some t ∧ (j, w) ∈ t.deriv) ∨ ((∀ t, o = some t → ∀ v, (j, v) ∉ t.deriv) ∧ w = 0)

/-- The derivatives of a tag are by distinct inputs below `n`. -/
def GoodTag (n : Nat) (t : Tag R) : Prop := (t.deriv.map Prod.fst).Nodup ∧ ∀ e ∈ t.deriv, e.1 < n

/-- The chain rule: the gradient of input `j` is the sum over the outputs of their gradients times their derivatives by `j`. -/
def Chain [CommSemiring R] (outs : List (Option (Tag R))) (gs : List R) (j : Nat) (x : R) : Prop :=
  ∃ ws : List R, ws.length = outs.length ∧ (∀ (k : Nat) (o : Option (Tag R)) (w : R), outs[k]? = some o → ws[k]? = some w → IsDeriv o j w) ∧
    x = (List.zipWith (fun w g => w * g) ws gs).sum

end Scallop.ForwardOut
