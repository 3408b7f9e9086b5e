import Verif.Model.Group
import Verif.Model.WeightedAgg

/-!
# Aggregations of compiled programs

Models `/repo/core/src/runtime/statics/dataflow/aggregation/{single_group,implicit_group,join_group}.rs`, `/repo/core/src/runtime/statics/aggregator/*.rs` and the
choice of the aggregator in `/repo/core/src/compiler/ram/ram2rs.rs` (392-450), next to the choice the interpreter makes
(`/repo/core/src/common/foreign_aggregates/*.rs`, `instantiate`). Tuples of a compiled program are typed: `K`, `A`, `O` are the types of keys, of what is
aggregated and of results. `none` is a panic.
-/

namespace Scallop.SAgg

open Scallop

variable {V T W K A B O : Type}

/-- Models `trait Aggregator<T1, Prov>` (`statics/aggregator/aggregator.rs`). -/
abbrev TAgg (A O T : Type) := List (Elem A T) → Option (List (Elem O T))

/-- Models `into_dyn_tuple` applied to an element (`statics/aggregator/sum.rs` 43-49). -/
def dynElem (enc : A → Tup V) (e : Elem A T) : Elem (Tup V) T := ⟨enc e.tuple, e.tag⟩

/-- Models the conversion of a result (`statics/aggregator/sum.rs` 51-54): a tuple of another type is a panic. -/
def statElem (dec : Tup V → Option O) (e : Elem (Tup V) T) : Option (Elem O T) := (dec e.tuple).map (fun b => ⟨b, e.tag⟩)

/-- Models `aggregate` of the aggregators `count`, `exists`, `sum`, `prod`, `min`, `max`, `argmin` and `argmax` of compiled programs
(`statics/aggregator/{count,exists,sum,prod,min,max,argmin,argmax}.rs`): the tuples are converted, the aggregator of the interpreter is called, and its results are
converted back. -/
def viaDyn (enc : A → Tup V) (dec : Tup V → Option O) (agg : Agg.Aggregator V T) : TAgg A O T := fun l =>
  (agg (l.map (dynElem enc))).bind (fun rs => rs.mapM (statElem dec))

/-- Models `iter_recent` of `AggregationSingleGroup` (`single_group.rs` 56-67). -/
def singleGroup (agg : TAgg A O T) : List (List (Elem A T)) → Option (List (List (Elem O T)))
  | [] => some []
  | b :: _ => (agg b).map (fun r => [r])

/-- Models `consolidate_group` (`implicit_group.rs` 73-80). -/
def consolidate (agg : TAgg A O T) (key : K) (group : List (Elem A T)) : Option (List (Elem (K × O) T)) :=
  (agg group).map (List.map (fun r => ⟨(key, r.tuple), r.tag⟩))

/-- The element without its key (`implicit_group.rs` 92, 99, 104). -/
def unkeyed (e : Elem (K × A) T) : Elem A T := ⟨e.tuple.2, e.tag⟩

/-- The main loop (`implicit_group.rs` 95-111). -/
def implicitLoop [DecidableEq K] (agg : TAgg A O T) : K → List (Elem A T) → List (Elem (K × A) T) → Option (List (Elem (K × O) T))
  | key, group, [] => consolidate agg key group
  | key, group, e :: rest =>
    if e.tuple.1 = key then implicitLoop agg key (group ++ [unkeyed e]) rest
    else (consolidate agg key group).bind (fun r => (implicitLoop agg e.tuple.1 [unkeyed e] rest).map (fun s => r ++ s))

/-- Models `iter_recent` of `AggregationImplicitGroup` (`implicit_group.rs` 59-115). -/
def implicitGroup [DecidableEq K] (agg : TAgg A O T) : List (List (Elem (K × A) T)) → Option (List (List (Elem (K × O) T)))
  | [] => some []
  | [] :: _ => some []
  | (e :: rest) :: _ => (implicitLoop agg e.tuple.1 [unkeyed e] rest).map (fun r => [r])

/-- Models the loop collecting the groups (`join_group.rs` 87-141). `none` is running out of fuel. -/
def collectGroups [LinearOrder K] : Nat → List (Elem (K × B) T) → List (Elem (K × A) T) → Option (List (K × List (Elem B T) × List (Elem A T)))
  | 0, _, _ => none
  | _ + 1, [], _ => some []
  | fuel + 1, a :: i, [] => (collectGroups fuel i []).map (fun gs => (a.tuple.1, [unkeyed a], []) :: gs)
  | fuel + 1, a :: i, b :: j =>
    if a.tuple.1 = b.tuple.1 then
      (collectGroups fuel (i.dropWhile (fun e => e.tuple.1 = a.tuple.1)) (j.dropWhile (fun e => e.tuple.1 = a.tuple.1))).map (fun gs =>
        (a.tuple.1, unkeyed a :: (i.takeWhile (fun e => e.tuple.1 = a.tuple.1)).map unkeyed,
          unkeyed b :: (j.takeWhile (fun e => e.tuple.1 = a.tuple.1)).map unkeyed) :: gs)
    else if a.tuple.1 < b.tuple.1 then (collectGroups fuel i (b :: j)).map (fun gs => (a.tuple.1, [unkeyed a], []) :: gs)
    else collectGroups fuel (a :: i) j

/-- The results of one group (`join_group.rs` 143-161). -/
def joinGroupResult (c : Prov T W) (agg : TAgg A O T) (g : K × List (Elem B T) × List (Elem A T)) : Option (List (Elem (K × B × O) T)) :=
  (agg g.2.2).map (fun rs => g.2.1.flatMap (fun b => rs.map (fun r => ⟨(g.1, b.tuple, r.tuple), c.mult b.tag r.tag⟩)))

/-- Models `iter_recent` of `AggregationJoinGroup` (`join_group.rs` 70-164). -/
def joinGroup [LinearOrder K] (c : Prov T W) (agg : TAgg A O T) (d1 : List (List (Elem (K × B) T))) (d2 : List (List (Elem (K × A) T))) :
    Option (List (List (Elem (K × B × O) T))) :=
  match d1, d2 with
  | i :: _, j :: _ => (collectGroups (i.length + j.length + 1) i j).bind (fun gs => (gs.mapM (joinGroupResult c agg)).map (fun r => [r.flatten]))
  | _, _ => some []

/-- Models `aggregate` of `TopKAggregator` (`statics/aggregator/top_k.rs` 30-41): nothing is converted. -/
def top {Q : Type} [LinearOrder Q] (pop : List (Agg.TopElem Q) → Option (Agg.TopElem Q × List (Agg.TopElem Q))) (c : Prov T Q) (k : Nat) : TAgg A A T := fun l =>
  (Agg.topK pop l.length k (fun i => (l[i]?).map (fun e => c.weight e.tag))).bind (fun ids => ids.mapM (fun i => l[i]?))

/-! ## Which aggregator is used -/

/-- What `AggregateInfo` says about a use of an aggregate (`foreign_aggregate.rs`): the mark `!`, the number of arguments and the positional parameters. -/
structure Use where
  mark : Bool
  numArgs : Nat
  params : List Nat

/-- An aggregator of the interpreter with its settings: the fields of `CountAggregator` (`count.rs` 45-47), `ExistsAggregator` (`exists.rs` 50-52), `SumProdAggregator`
(`sum_prod.rs` 71-76, without the type of the values), `MinMaxAggregator` (`min_max.rs` 121-126) and `TopKSampler` (`top_k.rs` 59-61). -/
inductive Settings where
  | count (nonMultiWorld : Bool)
  | exist (nonMultiWorld : Bool)
  | sumProd (isSum nonMultiWorld : Bool) (numArgs : Nat)
  | minMax (isMin argOnly nonMultiWorld : Bool) (numArgs : Nat)
  | top (k : Nat)
deriving DecidableEq

/-- Models `instantiate` (`count.rs` 37-41, `exists.rs` 42-46, `sum_prod.rs` 60-67, `min_max.rs` 110-117, `top_k.rs` 46-55); `none` for the aggregates that have none
of these settings. -/
def instantiate (u : Use) : WAgg.AggKind → Option Settings
  | .count => some (.count u.mark)
  | .exists_ => some (.exist u.mark)
  | .sum => some (.sumProd true u.mark u.numArgs)
  | .prod => some (.sumProd false u.mark u.numArgs)
  | .min => some (.minMax true false u.mark u.numArgs)
  | .max => some (.minMax false false u.mark u.numArgs)
  | .argmin => some (.minMax true true u.mark u.numArgs)
  | .argmax => some (.minMax false true u.mark u.numArgs)
  | .top => some (.top (u.params.head?.getD 1))
  | .unique => some (.top 1)
  | _ => none

/-- The aggregator the interpreter uses: the aggregate registered under the name, instantiated. -/
def interpreted (name : String) (u : Use) : Option Settings := (WAgg.stdRegistry.lookup name).bind (instantiate u)

/-- The aggregator of the interpreter that a compiled program calls: the choice of `ram2rs.rs` (403-435) followed by the constructor called in
`statics/aggregator/*.rs` (`sum.rs` 42, `prod.rs` 42, `max.rs` 34, `min.rs` 34, `argmax.rs` 37, `argmin.rs` 37, with `sum_prod.rs` 79-101 and `min_max.rs` 129-163). The panics of
the generator (413, 420, 434) are `none`, and so is `sum` or `prod` with arguments, where the generated code is not accepted: the tuple is not of a type that
implements `SumType` or `ProdType`. The number of arguments of `argmin` and `argmax` is a type (`TupleLength`) that the Rust compiler infers. -/
def compiled (name : String) (u : Use) : Option Settings :=
  if name = "count" then some (.count u.mark)
  else if name = "sum" then (if u.numArgs = 0 then some (.sumProd true false 0) else none)
  else if name = "prod" then (if u.numArgs = 0 then some (.sumProd false false 0) else none)
  else if name = "max" then (if u.numArgs = 0 then some (.minMax false false false 0) else none)
  else if name = "min" then (if u.numArgs = 0 then some (.minMax true false false 0) else none)
  else if name = "argmax" then some (.minMax false true false u.numArgs)
  else if name = "argmin" then some (.minMax true true false u.numArgs)
  else if name = "exists" then some (.exist u.mark)
  else if name = "top" then some (.top (u.params.head?.getD 1))
  else none

end Scallop.SAgg
