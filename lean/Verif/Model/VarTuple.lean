import Verif.Model.Back
import Verif.Model.Expr

/-!
# Variable tuples and permutations

Models `/repo/core/src/compiler/back/var_tuple.rs` and `/repo/core/src/compiler/back/permutation.rs`: the shapes of the tuples that flow
between the operators of a compiled rule, and the expressions that bring tuples from one shape into another.

A variable is a name (its type, which type inference makes a function of the name within a rule, is left out). A set of variables is a list.
-/

namespace Scallop.Plan

open Scallop.Back

variable {F : Type}

/-- Models `VariableTuple` (`var_tuple.rs` 9). -/
abbrev VTuple := Tup String

/-- Models `Permutation` (`permutation.rs` 6). -/
abbrev Perm := Tup Nat

/-- The elements of a list without repetitions, in the order of their first occurrence (the `visited` set of `var_tuple.rs` 28-38, 84-97). -/
def uniq : List String → List String
  | [] => []
  | x :: xs => x :: (uniq xs).filter (fun y => decide (y ≠ x))

/-- Models `VariableTuple::from_vars` (`var_tuple.rs` 24-46). -/
def fromVars (vs : List String) (single : Bool) : VTuple :=
  match uniq vs, single with
  | [x], true => .val x
  | xs, _ => .tup (xs.map .val)

mutual
/-- The variables of a tuple from left to right, with repetitions. -/
def leaves : VTuple → List String
  | .val x => [x]
  | .tup ts => leavesList ts
/-- The variables of a list of tuples. -/
def leavesList : List VTuple → List String
  | [] => []
  | t :: ts => leaves t ++ leavesList ts
end

/-- Models `VariableTuple::variables` (`var_tuple.rs` 81-99); `variables_set` (74-79) is the same up to order. -/
def vars (t : VTuple) : List String := uniq (leaves t)

mutual
/-- Models `VariableTuple::accessor_of` (`var_tuple.rs` 128-146) as a path; see `mkAccess`. -/
def accessorOf (x : String) : VTuple → Option (List Nat)
  | .val y => if x = y then some [] else none
  | .tup ts => accessorOfList x 0 ts
/-- The loop of `accessor_of` (`var_tuple.rs` 137-144). -/
def accessorOfList (x : String) : Nat → List VTuple → Option (List Nat)
  | _, [] => none
  | i, t :: ts =>
    match accessorOf x t with
    | some a => some (i :: a)
    | none => accessorOfList x (i + 1) ts
end

/-- The accessor for a path. `TupleAccessor::prepend` (`common/tuple_access.rs` 35-44) panics on more than three indices. Indices are stored as
`i8` (`tuple_access.rs` 3-7, 72-76): from 128 on the number wraps around (see `storedIndex`), which is treated as a failure here. -/
def mkAccess (a : List Nat) : Option (Expr F) :=
  if a.length ≤ accessorDepth ∧ a.all (fun i => decide (i < 128)) then some (.access a) else none

/-- The index read back from an accessor after `i as i8 as usize` (`tuple_access.rs` 35-44, 67-69, 72-76), on a 64-bit platform. -/
def storedIndex (i : Nat) : Nat := if i % 256 < 128 then i % 256 else 2 ^ 64 - 256 + i % 256

/-- Models `VariableTuple::expand` (`var_tuple.rs` 48-63). -/
def expand (t : VTuple) (vs : List String) : VTuple :=
  let new := (vs.filter (fun v => (accessorOf v t).isNone)).map Tup.val
  match t with
  | .val x => .tup (.val x :: new)
  | .tup ts => .tup (ts ++ new)

/-- Models `VariableTuple::subtuple` (`var_tuple.rs` 65-68). -/
def subtuple (t : VTuple) (vs : List String) : VTuple :=
  .tup ((vs.filter (fun v => decide (v ∈ vars t))).map .val)

/-- Models `VariableTuple::dedup` (`var_tuple.rs` 70-72). -/
def dedupTuple (t : VTuple) : VTuple := fromVars (vars t) true

mutual
/-- Models `VariableTuple::unit_type` (`var_tuple.rs` 101-106) followed by `TupleType::unit_value` (`common/tuple_type.rs` 61-66); `none` is the
panic on a variable. -/
def unitValue : VTuple → Option (Tup (Val F))
  | .val _ => none
  | .tup ts => (unitValueList ts).map .tup
/-- `unitValue` on a list. -/
def unitValueList : List VTuple → Option (List (Tup (Val F)))
  | [] => some []
  | t :: ts => (unitValue t).bind (fun u => (unitValueList ts).map (u :: ·))
end

/-- Models `VariableTuple::matches_args` (`var_tuple.rs` 112-126). -/
def matchesArgs : VTuple → List (Term String F) → Bool
  | .tup ts, args =>
    decide (ts.length = args.length) &&
      (args.zip ts).all (fun p => match p with | (.var x, .val y) => decide (x = y) | _ => false)
  | .val _, _ => false

mutual
/-- Models `VariableTuple::projection` (`var_tuple.rs` 148-159): the expression that turns tuples of shape `self` into tuples of shape `args`;
`none` is a panic. -/
def projection (self : VTuple) : VTuple → Option (Expr F)
  | .val x => (accessorOf x self).bind mkAccess
  | .tup ts => (projectionList self ts).map .tuple
/-- `projection` on a list. -/
def projectionList (self : VTuple) : List VTuple → Option (List (Expr F))
  | [] => some []
  | t :: ts => (projection self t).bind (fun e => (projectionList self ts).map (e :: ·))
end

/-- Models `VariableTuple::term_to_ram_expr` (`var_tuple.rs` 161-166). -/
def termExpr (self : VTuple) : Term String F → Option (Expr F)
  | .const c => some (.const c)
  | .var x => (accessorOf x self).bind mkAccess

/-- `term_to_ram_expr(..).unwrap()` on a list of terms (`var_tuple.rs` 191, 195). -/
def termExprs (self : VTuple) : List (Term String F) → Option (List (Expr F))
  | [] => some []
  | t :: ts => (termExpr self t).bind (fun e => (termExprs self ts).map (e :: ·))

/-- The expressions built for the right-hand sides of assignments (`var_tuple.rs` 175-197). -/
def assignExpr (self : VTuple) : AExpr String F → Option (Expr F)
  | .bin op a b => (termExpr self a).bind (fun x => (termExpr self b).map (fun y => .bin op x y))
  | .un op a => (termExpr self a).map (.un op)
  | .ite c t e => (termExpr self c).bind (fun x => (termExpr self t).bind (fun y => (termExpr self e).map (fun z => .ite x y z)))
  | .call f args => (termExprs self args).map (.call f)
  | .new f args => (termExprs self args).map (.new f)

/-- The entry of a `HashMap` collected from a list of pairs (`b2r.rs` 693): the last one for the key. -/
def lastLookup {β : Type} (x : String) : List (String × β) → Option β
  | [] => none
  | (k, v) :: l =>
    match lastLookup x l with
    | some w => some w
    | none => if k = x then some v else none

mutual
/-- Models `VariableTuple::projection_assigns` (`var_tuple.rs` 168-202). -/
def projectionAssigns (self : VTuple) (assigns : List (String × AExpr String F)) : VTuple → Option (Expr F)
  | .val x =>
    match accessorOf x self with
    | some a => mkAccess a
    | none => (lastLookup x assigns).bind (assignExpr self)
  | .tup ts => (projectionAssignsList self assigns ts).map .tuple
/-- `projectionAssigns` on a list. -/
def projectionAssignsList (self : VTuple) (assigns : List (String × AExpr String F)) : List VTuple → Option (List (Expr F))
  | [] => some []
  | t :: ts => (projectionAssigns self assigns t).bind (fun e => (projectionAssignsList self assigns ts).map (e :: ·))
end

/-- The position of a variable among the arguments of an atom (`var_tuple.rs` 220-227). -/
def argPos (x : String) : List (Term String F) → Option Nat
  | [] => none
  | .var y :: ts => if x = y then some 0 else (argPos x ts).map (· + 1)
  | .const _ :: ts => (argPos x ts).map (· + 1)

mutual
/-- Models `VariableTuple::permutation_helper` (`var_tuple.rs` 211-236): the permutation and the visited positions; `none` is a panic. -/
def permutation (args : List (Term String F)) : List Nat → VTuple → Option (Perm × List Nat)
  | visited, .val x =>
    (argPos x args).map (fun i => if i ∈ visited then (.tup [], visited) else (.val i, i :: visited))
  | visited, .tup ts => (permutationList args visited ts).map (fun r => (.tup r.1, r.2))
/-- `permutation` on a list. -/
def permutationList (args : List (Term String F)) : List Nat → List VTuple → Option (List Perm × List Nat)
  | visited, [] => some ([], visited)
  | visited, t :: ts =>
    (permutation args visited t).bind (fun r => (permutationList args r.2 ts).map (fun r' => (r.1 :: r'.1, r'.2)))
end

mutual
/-- Models `Permutation::expr` (`permutation.rs` 43-48). -/
def permExpr : Perm → Option (Expr F)
  | .val i => mkAccess [i]
  | .tup ts => (permExprList ts).map .tuple
/-- `permExpr` on a list. -/
def permExprList : List Perm → Option (List (Expr F))
  | [] => some []
  | t :: ts => (permExpr t).bind (fun e => (permExprList ts).map (e :: ·))
end

mutual
/-- Models `Permutation::order_preserving_helper` (`permutation.rs` 54-73): the value of the counter afterwards, `none` for `false`. -/
def orderPreservingFrom : Nat → Perm → Option Nat
  | n, .val i => if i = n then some (n + 1) else none
  | n, .tup ts => orderPreservingList n ts
/-- The loop of `order_preserving_helper` (`permutation.rs` 64-69). -/
def orderPreservingList : Nat → List Perm → Option Nat
  | n, [] => some n
  | n, t :: ts => (orderPreservingFrom n t).bind (fun m => orderPreservingList m ts)
end

/-- Models `Permutation::order_preserving` (`permutation.rs` 50-52). -/
def orderPreserving (p : Perm) : Bool := (orderPreservingFrom 0 p).isSome

mutual
/-- Models `Permutation::permute` (`permutation.rs` 21-31), on the components of a flat tuple type; `none` is a panic. -/
def permuteType {T : Type} (types : List (Tup T)) : Perm → Option (Tup T)
  | .val i => types[i]?
  | .tup ts => (permuteTypeList types ts).map .tup
/-- `permuteType` on a list. -/
def permuteTypeList {T : Type} (types : List (Tup T)) : List Perm → Option (List (Tup T))
  | [] => some []
  | t :: ts => (permuteType types t).bind (fun u => (permuteTypeList types ts).map (u :: ·))
end

mutual
/-- Models `Display for Permutation` (`permutation.rs` 8-18). -/
def permStr : Perm → String
  | .val i => toString i
  | .tup ts => "(" ++ ",".intercalate (permStrList ts) ++ ")"
/-- `permStr` on a list. -/
def permStrList : List Perm → List String
  | [] => []
  | t :: ts => permStr t :: permStrList ts
end

end Scallop.Plan
