import Verif.Model.Ram

/-!
# Specification of running a stratum

A stratum runs in rounds: in every round each relation is updated with the outputs of its dataflows on the states of the relations before
the round. What a state is, what the operators do and how a relation takes up new tuples is left open, so that the statements hold for any
of them (in particular for batches of tagged tuples and any provenance); the only thing fixed is that they do not look at names.
-/

namespace Scallop.Ram

variable {F S R : Type}

/-- The meaning of operators: `S` are the states of relations, `R` the outputs of dataflows. -/
structure Sem (F S R : Type) where
  /-- unit, untagged vectors, foreign predicates: anything that reads no relation -/
  source : Leaf F → R
  rel : S → R
  reduce : String → S → Option S → Bool → R
  project : Expr F → R → R
  un : Un F → R → R
  joinVec : S → R → R
  bin : Bin → R → R → R
  update : S → List R → S

/-- The output of a leaf in state `ρ`. -/
def Sem.leaf (m : Sem F S R) (ρ : String → S) : Leaf F → R
  | .rel r => m.rel (ρ r)
  | .reduce a p .none => m.reduce a (ρ p) none false
  | .reduce a p .implicit => m.reduce a (ρ p) none true
  | .reduce a p (.join r) => m.reduce a (ρ p) (some (ρ r)) false
  | l => m.source l

/-- The output of a dataflow in state `ρ`. -/
def Sem.out (m : Sem F S R) (ρ : String → S) : Dataflow F → R
  | .leaf l => m.leaf ρ l
  | .un (.joinIndexedVec r) d => m.joinVec (ρ r) (m.out ρ d)
  | .un o d => m.un o (m.out ρ d)
  | .bin o d1 d2 => m.bin o (m.out ρ d1) (m.out ρ d2)
  | .project d e => m.project e (m.out ρ d)

/-- One round. -/
def Sem.round (m : Sem F S R) (us : List (Update F)) (ρ : String → S) : String → S :=
  fun r => m.update (ρ r) ((us.filter (·.target = r)).map (fun u => m.out ρ u.flow))

/-- The states after `n` rounds. -/
def Sem.run (m : Sem F S R) (us : List (Update F)) (init : String → S) : Nat → String → S
  | 0 => init
  | n + 1 => m.round us (m.run us init n)

/-- Temporary relations are defined by one rule at most. -/
def SingleTemps (s : Stratum F) : Prop := ∀ r, isTemp r = true → (s.updates.filter (·.target = r)).length ≤ 1

/-- Every target of an update is a relation of the stratum. -/
def Targets (s : Stratum F) : Prop := ∀ u ∈ s.updates, u.target ∈ s.relations

end Scallop.Ram
