import Verif.Spec.World
import Verif.Model.Proofs

/-!
# Specification of tagging histories

The exclusion identifier each fact was tagged with, and the truth value every tag of a history should have in a possible world.
-/

namespace Scallop

/-- The exclusions given when tagging, in order: entry `i` belongs to the `i`-th fact. -/
def exclusions (ops : List TagOp) : List (Option Nat) :=
  ops.filterMap (fun op => match op with | .tag e => some e | _ => none)

/-- Facts `a` and `b` were tagged as members of the same mutual exclusion. -/
def sameExclusion (ops : List TagOp) (a b : Nat) : Prop :=
  ∃ e, (exclusions ops)[a]? = some (some e) ∧ (exclusions ops)[b]? = some (some e)

/-- A world in which no two facts of the same mutual exclusion are true. -/
def worldOk (ops : List TagOp) (w : Nat → Bool) : Prop := ∀ a b, sameExclusion ops a b → w a = true → w b = true → a = b

/-- Truth values of the tags of a history in a world: number of facts so far, and one value for each tag. -/
def evalStep (w : Nat → Bool) (s : Nat × List Bool) : TagOp → Option (Nat × List Bool)
  | .tag _ => some (s.1 + 1, s.2 ++ [w s.1])
  | .zero => some (s.1, s.2 ++ [false])
  | .one => some (s.1, s.2 ++ [true])
  | .add i j => do let a ← s.2[i]?; let b ← s.2[j]?; some (s.1, s.2 ++ [a || b])
  | .mult i j => do let a ← s.2[i]?; let b ← s.2[j]?; some (s.1, s.2 ++ [a && b])
  | .negate i => do let a ← s.2[i]?; some (s.1, s.2 ++ [!a])

/-- Truth values of all tags of a history. -/
def evalWorld (w : Nat → Bool) (ops : List TagOp) : Option (Nat × List Bool) := ops.foldlM (evalStep w) (0, [])

/-- A set of proofs is true in a world: all facts of one of them are. -/
def Proofs.holds (w : Nat → Bool) (t : Proofs) : Prop := ∃ p ∈ t, ∀ f ∈ p, w f = true

/-- No negation in a history. -/
def negationFree (ops : List TagOp) : Prop := ∀ op ∈ ops, ∀ i, op ≠ .negate i

end Scallop
