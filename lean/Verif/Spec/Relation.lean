import Verif.Spec.Collection
import Verif.Model.Relation

/-!
# Specification vocabulary for batches of collections and relations
-/

namespace Scallop

/-- The tuples occurring in some batch. -/
def tuplesB {α T : Type*} (bs : List (List (Elem α T))) : Set α := { x | ∃ b ∈ bs, x ∈ tuples b }

/-- All tags a tuple has in a list of batches. -/
def tagsOfB {α T : Type*} [DecidableEq α] (bs : List (List (Elem α T))) (x : α) : List T := bs.flatMap (tagsOf · x)

/-- Well-formed relations: every batch is sorted. -/
structure Relation.Wf {α T : Type*} [LT α] (r : Relation α T) : Prop where
  stable : ∀ b ∈ r.stable, Sorted b
  recent : Sorted r.recent
  toAdd : ∀ b ∈ r.toAdd, Sorted b

/-- What a relation shows to the rules: stable and recent tuples. -/
def Relation.visible {α T : Type*} (r : Relation α T) : Set α := tuplesB r.stable ∪ tuples r.recent

/-- The tuples waiting to be added. -/
def Relation.pending {α T : Type*} (r : Relation α T) : Set α := tuplesB r.toAdd

/-- Oldest batch first: every batch is non-empty and more than twice as long as each newer one. -/
def Geometric {α T : Type*} (bs : List (List (Elem α T))) : Prop :=
  (∀ b ∈ bs, b ≠ []) ∧ bs.Pairwise (fun b d => 2 * d.length < b.length)

/-- No tuple is in two batches. -/
def DisjointB {α T : Type*} (bs : List (List (Elem α T))) : Prop :=
  bs.Pairwise (fun b d => ∀ x, x ∈ tuples b → x ∉ tuples d)

/-- The relation states reachable from the empty relation by any history of insertions and iteration steps. -/
inductive Relation.Reach {α T W : Type*} [LinearOrder α] [LinearOrder W] (c : Prov T W) (s : Scheduler) : Relation α T → Prop
  | new : Reach c s Relation.new
  | insertTagged {r : Relation α T} (data : List (Elem α T)) : Reach c s r → Reach c s (r.insertTagged c data)
  | insertBatches {r : Relation α T} (ed : Bool) (bs : List (List (Elem α T))) : Reach c s r → Reach c s (r.insertBatches c ed bs)
  | changed {r r' : Relation α T} {b : Bool} : Reach c s r → r.changed c s = some (r', b) → Reach c s r'

end Scallop
