import Verif.Spec.Relation
import Verif.Model.Dataflow

/-!
# Specification of the dataflow operators

The relational meaning of each operator on bags of tagged tuples, written without cursors or searches.
-/

namespace Scallop

variable {V T W ι κ : Type*} [LinearOrder V]

/-- Weakly ascending tuples (duplicates allowed). -/
def SortedLe (l : List (Elem (Tup V) T)) : Prop := l.Pairwise (fun a b => a.tuple ≤ b.tuple)

/-- Every tuple has at least two components, so `tuple[0]` and `tuple[1]` exist. -/
def Pairs (l : List (Elem (Tup V) T)) : Prop := ∀ e ∈ l, ∃ k a, e.tuple.at? 0 = some k ∧ e.tuple.at? 1 = some a

/-- Every tuple has a first component, so `tuple[0]` exists. -/
def Keyed (l : List (Elem (Tup V) T)) : Prop := ∀ e ∈ l, ∃ k, e.tuple.at? 0 = some k

/-- One pair of the relational join: `(k, a)` and `(k, b)` give `(k, a, b)` with the product of the tags. -/
def joinPair (c : Prov T W) (x y : Elem (Tup V) T) : Option (Elem (Tup V) T) :=
  match x.tuple.at? 0, x.tuple.at? 1, y.tuple.at? 0, y.tuple.at? 1 with
  | some k, some a, some k', some b => if k = k' then some ⟨.tup [k, a, b], c.mult x.tag y.tag⟩ else none
  | _, _, _, _ => none

/-- Relational join of two bags. -/
def joinSpec (c : Prov T W) (A B : List (Elem (Tup V) T)) : List (Elem (Tup V) T) :=
  A.flatMap (fun x => B.filterMap (joinPair c x))

/-- Intersection of two bags: every pair with the same tuple, with the product of the tags. -/
def intersectSpec (c : Prov T W) (A B : List (Elem (Tup V) T)) : List (Elem (Tup V) T) :=
  A.flatMap (fun x => B.filterMap (fun y => if x.tuple = y.tuple then some ⟨x.tuple, c.mult x.tag y.tag⟩ else none))

/-- Cartesian product of two bags. -/
def productSpec (c : Prov T W) (A B : List (Elem (Tup V) T)) : List (Elem (Tup V) T) :=
  A.flatMap (fun x => B.map (fun y => ⟨.tup [x.tuple, y.tuple], c.mult x.tag y.tag⟩))

/-- `x` minus the tag (if any) that the tuple `k` has in `B`. -/
def minusBy (c : Prov T W) (B : List (Elem (Tup V) T)) (k : Option (Tup V)) (x : Elem (Tup V) T) : Option (Elem (Tup V) T) :=
  match B.find? (fun y => some y.tuple = k) with
  | none => some x
  | some y => (c.minus x.tag y.tag).map (fun t => ⟨x.tuple, t⟩)

/-- Difference of two bags. -/
def differenceSpec (c : Prov T W) (A B : List (Elem (Tup V) T)) : List (Elem (Tup V) T) :=
  A.filterMap (fun x => minusBy c B (some x.tuple) x)

/-- Anti-join: difference on the first component. -/
def antijoinSpec (c : Prov T W) (A B : List (Elem (Tup V) T)) : List (Elem (Tup V) T) :=
  A.filterMap (fun x => minusBy c B (x.tuple.at? 0) x)

/-- Selection of the tuples whose first component is `k`. -/
def findSpec (k : Tup V) (A : List (Elem (Tup V) T)) : List (Elem (Tup V) T) :=
  A.filter (fun e => e.tuple.at? 0 = some k)

/-- Each element is replaced by its expansion: the tuples `f` gives for it, with the product of its tag and the tags of the
collections named beside them. -/
def expandSpec (c : Prov T W) (inp : κ → List (Elem (Tup V) T)) (f : Tup V → Option (List (Tup V × κ))) (A : List (Elem (Tup V) T)) :
    List (Elem (Tup V) T) :=
  A.flatMap (fun e => match f e.tuple with
    | none => []
    | some r => r.flatMap (fun p => (inp p.2).map (fun x => ⟨p.1, c.mult e.tag x.tag⟩)))

/-- The leaves of a dataflow. -/
inductive Leaf (V ι κ : Type*) where
  | unit (t : Tup V)
  | untagged (ts : List (Tup V))
  | rel (i : ι)
  | input (j : κ)

/-- Naive (all at once) evaluation of a dataflow over bags for its leaves. -/
def DF.bag (c : Prov T W) (src : Leaf V ι κ → List (Elem (Tup V) T)) : DF V ι κ → List (Elem (Tup V) T)
  | .unit t => src (.unit t)
  | .untagged ts => src (.untagged ts)
  | .rel i => src (.rel i)
  | .input j => src (.input j)
  | .overwriteOne d => (d.bag c src).map (fun e => ⟨e.tuple, c.one⟩)
  | .filter d p => (d.bag c src).filter (fun e => p e.tuple)
  | .find d k => findSpec k (d.bag c src)
  | .project d f => (d.bag c src).filterMap (fun e => (f e.tuple).map (fun t => ⟨t, e.tag⟩))
  | .sorted d => d.bag c src
  | .union d1 d2 => d1.bag c src ++ d2.bag c src
  | .intersect d1 d2 => intersectSpec c (d1.bag c src) (d2.bag c src)
  | .join d1 d2 => joinSpec c (d1.bag c src) (d2.bag c src)
  | .product d1 d2 => productSpec c (d1.bag c src) (d2.bag c src)
  | .difference d1 d2 => differenceSpec c (d1.bag c src) (d2.bag c src)
  | .antijoin d1 d2 => antijoinSpec c (d1.bag c src) (d2.bag c src)
  | .once bs => bs.flatten.flatMap (fun j => src (.input j))
  | .listed js => js.flatMap (fun j => src (.input j))
  | .expand d f => expandSpec c (fun j => src (.input j)) f (d.bag c src)

/-- The leaves seen by `iter_stable`. -/
def Env.stableSrc (c : Prov T W) (env : Env V T ι κ) : Leaf V ι κ → List (Elem (Tup V) T)
  | .unit t => if env.first then [] else [⟨t, c.one⟩]
  | .untagged _ => []
  | .rel i => (env.rel i).stable.flatten
  | .input j => if env.first then [] else env.input j

/-- Everything the leaves hold: stable and recent together. -/
def Env.allSrc (c : Prov T W) (env : Env V T ι κ) : Leaf V ι κ → List (Elem (Tup V) T)
  | .unit t => [⟨t, c.one⟩]
  | .untagged ts => ts.map (fun t => ⟨t, c.one⟩)
  | .rel i => (env.rel i).stable.flatten ++ (env.rel i).recent
  | .input j => env.input j

/-- No difference, no anti-join and no aggregation inside. -/
def DF.positive : DF V ι κ → Prop
  | .unit _ | .untagged _ | .rel _ | .input _ | .listed _ => True
  | .once _ => False
  | .overwriteOne d | .filter d _ | .find d _ | .project d _ | .sorted d | .expand d _ => d.positive
  | .union d1 d2 | .intersect d1 d2 | .join d1 d2 | .product d1 d2 => d1.positive ∧ d2.positive
  | .difference _ _ | .antijoin _ _ => False

/-- Reads only one input collection, through unary operators: the shape the compiler gives to a negated atom
(`back/b2r.rs` 596-632, 896-899, 928-930, 1109-1128, 1229-1251). -/
def DF.static : DF V ι κ → Prop
  | .input _ => True
  | .overwriteOne d | .filter d _ | .find d _ | .project d _ => d.static
  | _ => False

/-- Difference and anti-join occur only above positive parts, and subtract a static part: the compiler applies negated atoms after
all positive ones (`back/query_plan/context.rs` 702-712). Aggregations are not operands of intersections, joins or products:
the compiler gives them a relation of their own there (`process_dataflow`, `back/b2r.rs` 1109-1128), except in rules with the attribute
`@no_temp_relation`. -/
def DF.stratified : DF V ι κ → Prop
  | .unit _ | .untagged _ | .rel _ | .input _ | .once _ | .listed _ => True
  | .overwriteOne d | .filter d _ | .find d _ | .project d _ | .sorted d | .expand d _ => d.stratified
  | .union d1 d2 => d1.stratified ∧ d2.stratified
  | .intersect d1 d2 | .join d1 d2 | .product d1 d2 => d1.positive ∧ d2.positive
  | .difference d1 d2 | .antijoin d1 d2 => d1.stratified ∧ d2.static

/-- Each batch is strictly ascending. -/
def DF.outSorted : DF V ι κ → Prop
  | .unit _ | .rel _ | .input _ => True
  | .untagged ts => ts.Pairwise (· < ·)
  | .overwriteOne d | .filter d _ | .find d _ => d.outSorted
  | .project d f => d.outSorted ∧ ∀ x y x' y', x < y → f x = some x' → f y = some y' → x' < y'
  | .sorted _ | .once _ | .listed _ | .expand _ _ => False
  | .union d1 d2 | .intersect d1 d2 => d1.outSorted ∧ d2.outSorted
  | .join _ _ | .product _ _ => False
  | .difference d1 _ | .antijoin d1 _ => d1.outSorted

/-- Each batch is weakly ascending. -/
def DF.outSortedLe : DF V ι κ → Prop
  | .unit _ | .rel _ | .input _ | .sorted _ => True
  | .untagged ts => ts.Pairwise (· ≤ ·)
  | .overwriteOne d | .filter d _ | .find d _ => d.outSortedLe
  | .project d f => d.outSortedLe ∧ ∀ x y x' y', x ≤ y → f x = some x' → f y = some y' → x' ≤ y'
  | .union d1 d2 => d1.outSortedLe ∧ d2.outSortedLe
  | .intersect d1 d2 => d1.outSorted ∧ d2.outSorted
  | .join _ _ | .product _ _ | .once _ | .listed _ | .expand _ _ => False
  | .difference d1 _ => d1.outSorted
  | .antijoin d1 _ => d1.outSortedLe

/-- Operators that merge or search get sorted operands, as the compiler arranges (`back/b2r.rs`, `need_sorted`). -/
def DF.wellSorted : DF V ι κ → Prop
  | .unit _ | .untagged _ | .rel _ | .input _ | .once _ | .listed _ => True
  | .overwriteOne d | .filter d _ | .project d _ | .sorted d | .expand d _ => d.wellSorted
  | .find d _ => d.wellSorted ∧ d.outSortedLe
  | .union d1 d2 | .product d1 d2 => d1.wellSorted ∧ d2.wellSorted
  | .intersect d1 d2 => d1.wellSorted ∧ d2.wellSorted ∧ d1.outSorted ∧ d2.outSorted
  | .join d1 d2 => d1.wellSorted ∧ d2.wellSorted ∧ d1.outSortedLe ∧ d2.outSortedLe
  | .difference d1 d2 => d1.wellSorted ∧ d2.wellSorted ∧ d1.outSorted ∧ d2.outSortedLe
  | .antijoin d1 d2 => d1.wellSorted ∧ d2.wellSorted ∧ d1.outSortedLe ∧ d2.outSortedLe

/-- All batches a dataflow can read are sorted. -/
structure Env.Wf (env : Env V T ι κ) : Prop where
  rel : ∀ i, (env.rel i).Wf
  input : ∀ j, Sorted (env.input j)
  first : env.first = true → ∀ i, (env.rel i).stable = []

/-- All elements of a list of batches. -/
def elemsOf (bs : List (Batch V T)) : List (Elem (Tup V) T) := bs.flatMap Batch.elems

end Scallop
