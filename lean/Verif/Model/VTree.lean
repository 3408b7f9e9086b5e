import Verif.Model.Base
import Mathlib.Data.List.Basic

/-!
# Variable trees

Models `/repo/lib/sdd/src/vtree.rs`. The code keeps the nodes of a variable tree in a graph (`petgraph`) and refers to them by index. Here
the graph is represented by the tree it encodes, each node labelled with its index; the maps computed by `post_process` are functions of
that tree. (The mutations `rotate_left`, `rotate_right` and `swap`, which nothing in the repository calls, are not modelled.)
-/

namespace Scallop

/-- Models `enum VTreeNode` with its index (`vtree.rs` 5-13, 46). -/
inductive VTree where
  | leaf (id var : Nat)
  | branch (id : Nat) (left right : VTree)
deriving DecidableEq

namespace VTree

/-- The index of the root. -/
def id : VTree → Nat
  | leaf i _ => i
  | branch i _ _ => i

/-- The loop of `create_left_linear_from_vars` (`vtree.rs` 115-124); `next` is the index of the next node added to the graph. -/
def leftLoop : VTree → Nat → List Nat → VTree
  | acc, _, [] => acc
  | acc, next, v :: vs => leftLoop (branch (next + 1) acc (leaf next v)) (next + 2) vs

/-- Models `create_left_linear_from_vars` (`vtree.rs` 111-129); `none` is the panic without variables. -/
def createLeftLinear : List Nat → Option VTree
  | [] => none
  | v :: vs => some (leftLoop (leaf 0 v) 1 vs)

/-- The loop of `create_right_linear_from_vars` (`vtree.rs` 141-152), over the remaining variables from the last to the first. -/
def rightLoop : VTree → Nat → List Nat → VTree
  | acc, _, [] => acc
  | acc, next, v :: vs => rightLoop (branch (next + 1) (leaf next v) acc) (next + 2) vs

/-- Models `create_right_linear_from_vars` (`vtree.rs` 135-157). -/
def createRightLinear (vars : List Nat) : Option VTree :=
  match vars.reverse with
  | [] => none
  | v :: vs => some (rightLoop (leaf 0 v) 1 vs)

/-- Models `recurse` in `create_balanced_from_vars` (`vtree.rs` 178-193). The first argument bounds the depth of the recursion (`none` when
it does not suffice, or on an index out of bounds); `next` is the index of the next node. -/
def recurse (vars : List Nat) : Nat → Nat → Nat → Nat → Option (VTree × Nat)
  | 0, _, _, _ => none
  | fuel + 1, low, high, next =>
    if low = high - 1 then (vars[low]?).map (fun v => (leaf next v, next + 1))
    else
      let mid := (high + low) / 2
      match recurse vars fuel low mid next with
      | none => none
      | some (l, n1) =>
        match recurse vars fuel mid high n1 with
        | none => none
        | some (r, n2) => some (branch n2 l r, n2 + 1)

/-- Models `create_balanced_from_vars` (`vtree.rs` 163-198) for at least one variable; without variables the code builds an empty graph,
represented by `none`. -/
def createBalanced (vars : List Nat) : Option VTree :=
  if vars.isEmpty then none else (recurse vars vars.length 0 vars.length 0).map Prod.fst

/-- Models `enum VTreeType` (`vtree.rs` 74-78). -/
inductive Kind where
  | left
  | right
  | balanced

/-- Models `new_with_type` (`vtree.rs` 99-105). -/
def newWithType (vars : List Nat) : Kind → Option VTree
  | .left => createLeftLinear vars
  | .right => createRightLinear vars
  | .balanced => createBalanced vars

/-- The indices in the order of `in_order_traversal` (`vtree.rs` 202-216). -/
def inOrder : VTree → List Nat
  | leaf i _ => [i]
  | branch i l r => l.inOrder ++ i :: r.inOrder

/-- The leaves (index and variable) in the order of `in_order_traversal` (`vtree.rs` 221-228). -/
def leaves : VTree → List (Nat × Nat)
  | leaf i v => [(i, v)]
  | branch _ l r => l.leaves ++ r.leaves

/-- The node with a given index. -/
def find : VTree → Nat → Option VTree
  | leaf i v, j => if i = j then some (leaf i v) else none
  | branch i l r, j => if i = j then some (branch i l r) else
      match l.find j with
      | some t => some t
      | none => r.find j

/-- Models `position` (`vtree.rs` 308-310, map built in 218-222). -/
def position (t : VTree) (i : Nat) : Option Nat := t.inOrder.idxOf? i

/-- Models `var_to_node_id_map` (`vtree.rs` 224-226). A later leaf with the same variable replaces an earlier one. -/
def varNode (t : VTree) (v : Nat) : Option Nat := ((t.leaves.reverse.find? (fun p => p.2 == v))).map Prod.fst

/-- The values of `min_map` (`vtree.rs` 230-252). -/
def firstId : VTree → Nat
  | leaf i _ => i
  | branch _ l _ => l.firstId

/-- The values of `max_map` (`vtree.rs` 230-252). -/
def lastId : VTree → Nat
  | leaf i _ => i
  | branch _ _ r => r.lastId

/-- Models `first_in_subtree` (`vtree.rs` 312-314). -/
def firstInSubtree (t : VTree) (i : Nat) : Option Nat := (t.find i).map firstId

/-- Models `last_in_subtree` (`vtree.rs` 316-318). -/
def lastInSubtree (t : VTree) (i : Nat) : Option Nat := (t.find i).map lastId

/-- Models `parent` (`vtree.rs` 320-327): the node with an edge to the given one. -/
def parent : VTree → Nat → Option Nat
  | leaf _ _, _ => none
  | branch i l r, j => if l.id = j ∨ r.id = j then some i else
      match l.parent j with
      | some p => some p
      | none => r.parent j

/-- Models `enum AncestorType` (`vtree.rs` 87-92). -/
inductive AncestorType where
  | equal
  | left
  | right
  | disjoint
deriving DecidableEq

/-- The `while` loop of `lowest_common_ancestor` (`vtree.rs` 342-344), for at most the given number of turns. -/
def lcaLoop (t : VTree) (p2 : Nat) : Nat → Nat → Option Nat
  | 0, _ => none
  | fuel + 1, lca =>
    match (t.lastInSubtree lca).bind t.position with
    | none => none
    | some pl =>
      if pl < p2 then
        match t.parent lca with
        | none => none
        | some p => lcaLoop t p2 fuel p
      else some lca

/-- Models `lowest_common_ancestor` (`vtree.rs` 329-348). `none` is a panic. -/
def lowestCommonAncestor (t : VTree) (n1 n2 : Nat) : Option (AncestorType × Nat) :=
  if n1 = n2 then some (.equal, n1)
  else
    match t.position n1, t.position n2, (t.firstInSubtree n2).bind t.position, (t.lastInSubtree n1).bind t.position with
    | some p1, some p2, some f2, some l1 =>
      if p1 < p2 then
        if f2 ≤ p1 then some (.left, n2)
        else if p2 ≤ l1 then some (.right, n1)
        else
          match t.parent n1 with
          | none => none
          | some p => (lcaLoop t p2 t.inOrder.length p).map (fun i => (.disjoint, i))
      else none
    | _, _, _, _ => none

end VTree

end Scallop
