import Verif.Spec.Plan

/-!
# The order of the tuples of dataflows

Joins, antijoins, intersections, differences and searches run through their operands with cursors that only move forward
(`runtime/dynamic/dataflow/{join,antijoin,intersect,difference,find}.rs`); they need operands sorted by the order of tuples.
-/

namespace Scallop.Plan

open Scallop.Back Scallop.Ram

variable {F V : Type}

mutual
/-- The order of tuples derived from an order of values (`common/generic_tuple.rs` 3-7): values before tuples, tuples lexicographically. -/
def tupCmp (cmp : V → V → Ordering) : Tup V → Tup V → Ordering
  | .val a, .val b => cmp a b
  | .val _, .tup _ => .lt
  | .tup _, .val _ => .gt
  | .tup as, .tup bs => tupCmpList cmp as bs
/-- The lexicographic order of slices. -/
def tupCmpList (cmp : V → V → Ordering) : List (Tup V) → List (Tup V) → Ordering
  | [], [] => .eq
  | [], _ :: _ => .lt
  | _ :: _, [] => .gt
  | a :: as, b :: bs => (tupCmp cmp a b).then (tupCmpList cmp as bs)
end

/-- Sorted, possibly with repetitions. -/
def SortedBy (cmp : V → V → Ordering) (l : List (Tup V)) : Prop := l.Pairwise (fun a b => tupCmp cmp a b ≠ .gt)

/-- Everything dataflows read, with the order in which it is stored: evaluation of expressions, the order of values, the tuples of relations, the
results of foreign predicates and of aggregations, and the sorting algorithm. -/
structure Store (F : Type) where
  X : Ext F
  cmp : Val F → Val F → Ordering
  rel : String → List (Tup (Val F))
  fp : String → List (Val F) → List (List (Val F))
  red : String → String → GroupBy → List (Tup (Val F))
  sort : List (Tup (Val F)) → List (Tup (Val F))
  same : Tup (Val F) → Tup (Val F) → Bool

/-- Relations are stored sorted, and sorting sorts. -/
structure Store.Lawful (S : Store F) : Prop where
  rel : ∀ r, SortedBy S.cmp (S.rel r)
  sort : ∀ l, SortedBy S.cmp (S.sort l)

/-- The value of an expression, if it has one. -/
def Store.eval? (S : Store F) (e : Expr F) (t : Tup (Val F)) : Option (Tup (Val F)) :=
  match e.eval S.X t with
  | .ok u => some u
  | _ => none

/-- The values of the arguments of a foreign predicate. -/
def Store.args (S : Store F) (es : List (Expr F)) (t : Tup (Val F)) : List (Val F) :=
  match Expr.evalList S.X es t with
  | .ok us => us.filterMap (fun u => match u with | .val v => some v | _ => none)
  | _ => []

/-- The tuples of a dataflow in the order in which they are produced. -/
def rows (S : Store F) : Dataflow F → List (Tup (Val F))
  | .leaf (.unit u) => [u]
  | .leaf (.untagged ts) => ts
  | .leaf (.rel r) => S.rel r
  | .leaf (.reduce a p g) => S.red a p g
  | .leaf (.foreign n vs) => (S.fp n vs).map flat
  | .un (.filter e) d => (rows S d).filter (fun t => match e.eval S.X t with | .ok (.val (.bool true)) => true | _ => false)
  | .un (.find k) d => (rows S d).filter (fun t => match t.at? 0 with | some u => S.same u k | none => false)
  | .un .sorted d => S.sort (rows S d)
  | .un (.joinIndexedVec r) d =>
    (rows S d).flatMap (fun t => (S.rel r).filterMap (fun u => match t, u with
      | .tup [k, a], .tup [k', b] => if S.same k k' then some (.tup [k, a, b]) else none
      | _, _ => none))
  | .un .overwriteOne d => rows S d
  | .un (.exclusion cs) d => (rows S d).flatMap (fun t => cs.map (fun c => .tup [t, c]))
  | .un (.foreignConstraint n es) d => (rows S d).filter (fun t => !(S.fp n (S.args es t)).isEmpty)
  | .un (.foreignJoin n es) d => (rows S d).flatMap (fun t => (S.fp n (S.args es t)).map (fun ws => .tup [t, flat ws]))
  | .bin .union d1 d2 => rows S d1 ++ rows S d2
  | .bin .join d1 d2 =>
    (rows S d1).flatMap (fun t => (rows S d2).filterMap (fun u => match t, u with
      | .tup [k, a], .tup [k', b] => if S.same k k' then some (.tup [k, a, b]) else none
      | _, _ => none))
  | .bin .intersect d1 d2 => (rows S d1).filter (fun t => (rows S d2).any (S.same t))
  | .bin .product d1 d2 => (rows S d1).flatMap (fun t => (rows S d2).map (fun u => .tup [t, u]))
  | .bin .antijoin d1 d2 => (rows S d1).filter (fun t => match t.at? 0 with | some k => !(rows S d2).any (S.same k) | none => false)
  | .bin .difference d1 d2 => (rows S d1).filter (fun t => !(rows S d2).any (S.same t))
  | .project d e => (rows S d).filterMap (S.eval? e)

/-- Every operator that runs through its operands with cursors gets sorted operands. -/
def MergeSafe (S : Store F) : Dataflow F → Prop
  | .leaf _ => True
  | .un (.find _) d => SortedBy S.cmp (rows S d) ∧ MergeSafe S d
  | .un _ d => MergeSafe S d
  | .bin .union d1 d2 | .bin .product d1 d2 => MergeSafe S d1 ∧ MergeSafe S d2
  | .bin _ d1 d2 => (SortedBy S.cmp (rows S d1) ∧ SortedBy S.cmp (rows S d2)) ∧ MergeSafe S d1 ∧ MergeSafe S d2
  | .project d _ => MergeSafe S d

/-- The dataflows of the temporary relations asked for are safe. -/
def St.MergeSafe (S : Store F) (s : St F) : Prop := ∀ n d, (n, d) ∈ s.temps ∨ (n, d) ∈ s.negs → Plan.MergeSafe S d

end Scallop.Plan
