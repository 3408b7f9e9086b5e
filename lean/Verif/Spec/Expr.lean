import Verif.Model.Expr
import Verif.Model.Base

/-!
# Specification of dataflows with projections

The meaning of a dataflow as a list of tagged tuples, for any meaning of the leaves and of the operators other than projection.
-/

namespace Scallop

variable {F L O₁ O₂ T : Type}

/-- A meaning for leaves and operators; `none` is a panic. -/
structure FlowSem (F L O₁ O₂ T : Type) where
  leaf : L → Option (List (Elem (Tup (Val F)) T))
  un : O₁ → List (Elem (Tup (Val F)) T) → Option (List (Elem (Tup (Val F)) T))
  bin : O₂ → List (Elem (Tup (Val F)) T) → List (Elem (Tup (Val F)) T) → Option (List (Elem (Tup (Val F)) T))

/-- Projection: each tuple is mapped, tuples on which the expression is undefined are left out, a panic is a panic. -/
def projectAll (f : Tup (Val F) → Outcome (Tup (Val F))) : List (Elem (Tup (Val F)) T) → Option (List (Elem (Tup (Val F)) T))
  | [] => some []
  | e :: l =>
    match f e.tuple with
    | .ok u => (projectAll f l).map (⟨u, e.tag⟩ :: ·)
    | .undef => projectAll f l
    | .panic => none

/-- The results of a dataflow. -/
def Flow.results (X : Ext F) (S : FlowSem F L O₁ O₂ T) : Flow F L O₁ O₂ → Option (List (Elem (Tup (Val F)) T))
  | .leaf l => S.leaf l
  | .un o d => (d.results X S).bind (S.un o)
  | .bin o d1 d2 => (d1.results X S).bind (fun a => (d2.results X S).bind (S.bin o a))
  | .project d e => (d.results X S).bind (projectAll (e.eval X))

mutual
/-- All tuple accesses in an expression. -/
def Expr.accesses : Expr F → List (List Nat)
  | .tuple es => Expr.accessesList es
  | .access a => [a]
  | .const _ => []
  | .bin _ a b => a.accesses ++ b.accesses
  | .un _ a => a.accesses
  | .ite c t e => c.accesses ++ t.accesses ++ e.accesses
  | .call _ args => Expr.accessesList args
  | .new _ args => Expr.accessesList args
/-- All tuple accesses in a list of expressions. -/
def Expr.accessesList : List (Expr F) → List (List Nat)
  | [] => []
  | e :: es => e.accesses ++ Expr.accessesList es
end

/-- The expression only reads whole components of its tuple (or the tuple itself). -/
def Expr.Shallow (e : Expr F) : Prop := ∀ a ∈ e.accesses, a.length ≤ 1

/-- The expression is a sequence of expressions. -/
def Expr.IsTuple : Expr F → Prop
  | .tuple _ => True
  | _ => False

/-- The dataflow is a projection. -/
def Flow.IsProject : Flow F L O₁ O₂ → Prop
  | .project _ _ => True
  | _ => False

/-- What has to hold of a projection with expression `p` on top of `d`, if `d` is a projection itself: `p` only reads whole
components, the inner projection is never undefined, and if there is yet another one below, the same holds of the inner one and it builds
a tuple. -/
def Flow.FusableUnder (X : Ext F) (p : Expr F) : Flow F L O₁ O₂ → Prop
  | .project d q => (q.IsTuple → p.Shallow) ∧ (∀ t, q.eval X t ≠ .undef) ∧ (d.IsProject → q.IsTuple ∧ q.Shallow)
  | _ => True

/-- `FusableUnder` for every projection in a dataflow. -/
def Flow.Fusable (X : Ext F) : Flow F L O₁ O₂ → Prop
  | .leaf _ => True
  | .un _ d => d.Fusable X
  | .bin _ d1 d2 => d1.Fusable X ∧ d2.Fusable X
  | .project d p => d.Fusable X ∧ d.FusableUnder X p

/-- No projection is applied to a projection. -/
def Flow.Fused : Flow F L O₁ O₂ → Prop
  | .leaf _ => True
  | .un _ d => d.Fused
  | .bin _ d1 d2 => d1.Fused ∧ d2.Fused
  | .project d _ => d.Fused ∧ ¬ d.IsProject

end Scallop
