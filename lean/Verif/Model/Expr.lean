import Verif.Model.Value
import Verif.Model.Tuple

/-!
# Expressions over tuples, their composition and the fusion of projections

Models `/repo/core/src/common/expr.rs`, `/repo/core/src/common/tuple_access.rs`, `eval` in
`/repo/core/src/runtime/env/environment.rs` (276-762) and `/repo/core/src/compiler/ram/optimizations/project_cascade.rs`.

A tuple accessor (three indices and a length, `tuple_access.rs` 1-7) is the list of its first `len` indices. That an
expression with `new` also registers the entity (`environment.rs` 752-757) is not modelled here.
-/

namespace Scallop

variable {F : Type}

/-- Models `enum Expr` (`expr.rs` 8-18). -/
inductive Expr (F : Type) where
  | tuple (es : List (Expr F))
  | access (a : List Nat)
  | const (c : Val F)
  | bin (op : BinOp) (a b : Expr F)
  | un (op : UnOp) (a : Expr F)
  | ite (c t e : Expr F)
  | call (f : String) (args : List (Expr F))
  | new (f : String) (args : List (Expr F))

mutual
/-- Models the derived `PartialEq` of `Expr` (`expr.rs` 8). -/
def Expr.beq [DecidableEq F] : Expr F → Expr F → Bool
  | .tuple x, .tuple y => Expr.beqList x y
  | .access a, .access b => decide (a = b)
  | .const a, .const b => decide (a = b)
  | .bin o a b, .bin o' a' b' => decide (o = o') && a.beq a' && b.beq b'
  | .un o a, .un o' a' => decide (o = o') && a.beq a'
  | .ite a b c, .ite a' b' c' => a.beq a' && b.beq b' && c.beq c'
  | .call f x, .call g y => decide (f = g) && Expr.beqList x y
  | .new f x, .new g y => decide (f = g) && Expr.beqList x y
  | _, _ => false
/-- Equality of lists of expressions. -/
def Expr.beqList [DecidableEq F] : List (Expr F) → List (Expr F) → Bool
  | [], [] => true
  | a :: x, b :: y => a.beq b && Expr.beqList x y
  | _, _ => false
end

mutual
theorem Expr.beq_iff [DecidableEq F] : ∀ a b : Expr F, a.beq b = true ↔ a = b
  | .tuple x, b => by cases b <;> simp [Expr.beq, Expr.beqList_iff x]
  | .access a, b => by cases b <;> simp [Expr.beq]
  | .const a, b => by cases b <;> simp [Expr.beq]
  | .bin o a c, b => by cases b <;> simp [Expr.beq, Expr.beq_iff a, Expr.beq_iff c, and_assoc]
  | .un o a, b => by cases b <;> simp [Expr.beq, Expr.beq_iff a]
  | .ite a c d, b => by cases b <;> simp [Expr.beq, Expr.beq_iff a, Expr.beq_iff c, Expr.beq_iff d, and_assoc]
  | .call f x, b => by cases b <;> simp [Expr.beq, Expr.beqList_iff x]
  | .new f x, b => by cases b <;> simp [Expr.beq, Expr.beqList_iff x]
theorem Expr.beqList_iff [DecidableEq F] : ∀ x y : List (Expr F), Expr.beqList x y = true ↔ x = y
  | [], y => by cases y <;> simp [Expr.beqList]
  | a :: x, y => by cases y <;> simp [Expr.beqList, Expr.beq_iff a, Expr.beqList_iff x]
end

instance [DecidableEq F] : DecidableEq (Expr F) := fun a b => decidable_of_iff _ (Expr.beq_iff a b)

/-- Models `TUPLE_ACCESSOR_DEPTH` (`tuple_access.rs` 1). -/
def accessorDepth : Nat := 3

/-- Models `TupleAccessor::join` (`tuple_access.rs` 47-61): writing past the third index panics. -/
def joinAccessor (a b : List Nat) : Option (List Nat) :=
  if a.length + b.length ≤ accessorDepth then some (a ++ b) else none

/-- Models `Index<&TupleAccessor>` (`generic_tuple.rs` 115-125); `none` is a panic. -/
def _root_.Scallop.Tup.atPath {V : Type} : Tup V → List Nat → Option (Tup V)
  | t, [] => some t
  | t, i :: a => (t.at? i).bind (fun u => u.atPath a)

/-- Models `as_value` (`generic_tuple.rs` 31-39): a panic on a sequence. -/
def asValue : Tup (Val F) → Outcome (Val F)
  | .val v => .ok v
  | .tup _ => .panic

mutual
/-- Models `eval` (`environment.rs` 276-289) with `eval_binary` (291-300), `eval_unary` (574-580), `eval_if_then_else` (712-718),
`eval_call` (720-738) and `eval_new` (740-762). -/
def Expr.eval (X : Ext F) : Expr F → Tup (Val F) → Outcome (Tup (Val F))
  | .tuple es, t => (Expr.evalList X es t).bind (fun ts => .ok (.tup ts))
  | .access a, t =>
    match t.atPath a with
    | some u => .ok u
    | none => .panic
  | .const c, _ => .ok (.val c)
  | .bin op a b, t =>
    (a.eval X t).bind (fun u => (b.eval X t).bind (fun w =>
      (asValue u).bind (fun x => (asValue w).bind (fun y => (evalBin X .run op x y).bind (fun r => .ok (.val r))))))
  | .un op a, t => (a.eval X t).bind (fun u => (asValue u).bind (fun x => (evalUn X .run op x).bind (fun r => .ok (.val r))))
  | .ite c th el, t =>
    (c.eval X t).bind (fun u => (asValue u).bind (fun x =>
      match x.asBool? with
      | some true => th.eval X t
      | some false => el.eval X t
      | none => .panic))
  | .call f args, t =>
    (Expr.evalList X args t).bind (fun ts => (asValues ts).bind (fun vs => (X.call f vs).bind (fun r => .ok (.val r))))
  | .new f args, t =>
    (Expr.evalList X args t).bind (fun ts => (asValues ts).bind (fun vs => .ok (.val (.entity (X.encode f vs)))))
/-- Evaluation of a sequence of expressions, in order (`environment.rs` 278-280, 724-728, 742-746). -/
def Expr.evalList (X : Ext F) : List (Expr F) → Tup (Val F) → Outcome (List (Tup (Val F)))
  | [], _ => .ok []
  | e :: es, t => (e.eval X t).bind (fun u => (Expr.evalList X es t).bind (fun us => .ok (u :: us)))
/-- `as_value` on every argument (`environment.rs` 727, 745). -/
def asValues : List (Tup (Val F)) → Outcome (List (Val F))
  | [] => .ok []
  | t :: ts => (asValue t).bind (fun v => (asValues ts).bind (fun vs => .ok (v :: vs)))
end

mutual
/-- Models `compose` (`expr.rs` 97-124) with a second argument that is an access. -/
def Expr.composeAccess (b : List Nat) : Expr F → Option (Expr F)
  | .const c => some (.const c)
  | .access a => (joinAccessor b a).map .access
  | .tuple es => (Expr.composeAccessList b es).map .tuple
  | .bin op x y => (x.composeAccess b).bind (fun x' => (y.composeAccess b).map (fun y' => .bin op x' y'))
  | .un op x => (x.composeAccess b).map (.un op)
  | .ite c t e =>
    (c.composeAccess b).bind (fun c' => (t.composeAccess b).bind (fun t' => (e.composeAccess b).map (fun e' => .ite c' t' e')))
  | .call f args => (Expr.composeAccessList b args).map (.call f)
  | .new f args => (Expr.composeAccessList b args).map (.new f)
/-- `composeAccess` on a list. -/
def Expr.composeAccessList (b : List Nat) : List (Expr F) → Option (List (Expr F))
  | [] => some []
  | e :: es => (e.composeAccess b).bind (fun e' => (Expr.composeAccessList b es).map (e' :: ·))
end

/-- The cases of `compose` whose first argument is an access (`expr.rs` 100-116). The component selected by the first index is composed
with the rest of the access, in this order. -/
def Expr.composeTo (a : List Nat) : Expr F → Option (Expr F)
  | .access a2 => (joinAccessor a2 a).map .access
  | .tuple ts =>
    match a with
    | [] => some (.tuple ts)
    | i :: rest => ts[i]?.bind (fun sub => sub.composeAccess rest)
  | e => if a = [] then some e else none

mutual
/-- Models `compose` (`expr.rs` 97-124); `none` is a panic. -/
def Expr.compose (o : Expr F) : Expr F → Option (Expr F)
  | .const c => some (.const c)
  | .access a => o.composeTo a
  | .tuple es => (Expr.composeList o es).map .tuple
  | .bin op x y => (Expr.compose o x).bind (fun x' => (Expr.compose o y).map (fun y' => .bin op x' y'))
  | .un op x => (Expr.compose o x).map (.un op)
  | .ite c t e =>
    (Expr.compose o c).bind (fun c' => (Expr.compose o t).bind (fun t' => (Expr.compose o e).map (fun e' => .ite c' t' e')))
  | .call f args => (Expr.composeList o args).map (.call f)
  | .new f args => (Expr.composeList o args).map (.new f)
/-- `compose` on a list (`expr.rs` 117, 121, 122). -/
def Expr.composeList (o : Expr F) : List (Expr F) → Option (List (Expr F))
  | [] => some []
  | e :: es => (Expr.compose o e).bind (fun e' => (Expr.composeList o es).map (e' :: ·))
end

/-- Models `enum Dataflow` (`compiler/ram/ast.rs`) as `project_cascade` sees it: projections; other operators with one
(`JoinIndexedVec`, `Filter`, `Find`, `Sorted`, `OverwriteOne`, `Exclusion`, `ForeignPredicateConstraint`,
`ForeignPredicateJoin`) or two operands (`Union`, `Join`, `Intersect`, `Product`, `Antijoin`, `Difference`), and leaves
(`ForeignPredicateGround`, `Unit`, `Relation`, `Reduce`, `UntaggedVec`). -/
inductive Flow (F L O₁ O₂ : Type) where
  | leaf (l : L)
  | un (o : O₁) (d : Flow F L O₁ O₂)
  | bin (o : O₂) (d1 d2 : Flow F L O₁ O₂)
  | project (d : Flow F L O₁ O₂) (e : Expr F)
deriving DecidableEq

namespace Flow
variable {L O₁ O₂ : Type}

/-- A projection that is still to be put on top. -/
def wrap (d : Flow F L O₁ O₂) : Option (Expr F) → Flow F L O₁ O₂
  | none => d
  | some e => .project d e

/-- Models `project_cascade_on_dataflow` (`project_cascade.rs` 17-71). The second argument is the expression of the projection above, if
the dataflow is the operand of one; `none` is a panic. -/
def cascade : Flow F L O₁ O₂ → Option (Expr F) → Option (Flow F L O₁ O₂)
  | .leaf l, p => some (wrap (.leaf l) p)
  | .un o d, p => (d.cascade none).map (fun d' => wrap (.un o d') p)
  | .bin o d1 d2, p => (d1.cascade none).bind (fun e1 => (d2.cascade none).map (fun e2 => wrap (.bin o e1 e2) p))
  | .project d p2, none => d.cascade (some p2)
  | .project d p2, some p1 => (Expr.compose p2 p1).bind (fun e => d.cascade (some e))

end Flow

end Scallop
