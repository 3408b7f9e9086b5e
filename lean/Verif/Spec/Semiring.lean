import Verif.Model.Base

/-!
# Specification of tag algebras
-/

namespace Scallop

variable {T W : Type*}

/-- The commutative semiring laws on the tags satisfying `P`, which the operations do not leave. -/
structure Prov.SemiringOn (c : Prov T W) (P : T → Prop) : Prop where
  zero_mem : P c.zero
  one_mem : P c.one
  add_mem : ∀ a b, P a → P b → P (c.add a b)
  mult_mem : ∀ a b, P a → P b → P (c.mult a b)
  add_comm : ∀ a b, P a → P b → c.add a b = c.add b a
  add_assoc : ∀ a b d, P a → P b → P d → c.add (c.add a b) d = c.add a (c.add b d)
  zero_add : ∀ a, P a → c.add c.zero a = a
  mult_comm : ∀ a b, P a → P b → c.mult a b = c.mult b a
  mult_assoc : ∀ a b d, P a → P b → P d → c.mult (c.mult a b) d = c.mult a (c.mult b d)
  one_mult : ∀ a, P a → c.mult c.one a = a
  zero_mult : ∀ a, P a → c.mult c.zero a = c.zero
  mult_add : ∀ a b d, P a → P b → P d → c.mult a (c.add b d) = c.add (c.mult a b) (c.mult a d)

/-- How a tag is computed from input tags: a history of provenance operations. -/
inductive TagExpr (X : Type*) where
  | input (x : X)
  | zero
  | one
  | add (a b : TagExpr X)
  | mult (a b : TagExpr X)

/-- The tag of a history. -/
def TagExpr.eval {X : Type*} (c : Prov T W) (f : X → T) : TagExpr X → T
  | .input x => f x
  | .zero => c.zero
  | .one => c.one
  | .add a b => c.add (a.eval c f) (b.eval c f)
  | .mult a b => c.mult (a.eval c f) (b.eval c f)

end Scallop
