import Verif.Model.Aggregate

/-!
# Grouping, sorting and ranking

Models `/repo/core/src/runtime/dynamic/dataflow/aggregation/{single_group,implicit_group,join_group}.rs` and
`/repo/core/src/common/foreign_aggregates/{rank,sort,enumerate}.rs`. The aggregator is a parameter; `none` is a panic.
-/

namespace Scallop.Agg

variable {V T W α : Type*}

/-- An aggregator: from the elements of a group to results. -/
abbrev Aggregator (V T : Type*) := List (Elem (Tup V) T) → Option (List (Elem (Tup V) T))

/-- Models `iter_recent` of `DynamicAggregationSingleGroupDataflow` (`single_group.rs` 33-40): only the first batch is read. -/
def singleGroup (agg : Aggregator V T) : List (List (Elem (Tup V) T)) → Option (List (List (Elem (Tup V) T)))
  | [] => some []
  | b :: _ => (agg b).map (fun r => [r])

variable [LinearOrder V]

/-- The key of an element, `e.tuple[0]`, and the element without it, `DynamicElement::new(e.tuple[1], e.tag)` (`implicit_group.rs` 62-63). -/
def splitKey (e : Elem (Tup V) T) : Option (Tup V × Elem (Tup V) T) :=
  (e.tuple.at? 0).bind (fun k => (e.tuple.at? 1).map (fun v => (k, ⟨v, e.tag⟩)))

/-- Models `consolidate_group` (`implicit_group.rs` 43-49). -/
def consolidate (agg : Aggregator V T) (key : Tup V) (group : List (Elem (Tup V) T)) : Option (List (Elem (Tup V) T)) :=
  (agg group).map (List.map (fun r => ⟨.tup [key, r.tuple], r.tag⟩))

/-- The main loop (`implicit_group.rs` 66-83), on elements whose keys have been split off. The state holds `agg_key` and `agg_group`; the
results are appended in the order in which the code does. -/
def implicitLoop (agg : Aggregator V T) : Tup V → List (Elem (Tup V) T) → List (Tup V × Elem (Tup V) T) → Option (List (Elem (Tup V) T))
  | key, group, [] => consolidate agg key group
  | key, group, (k, e) :: rest =>
    if k = key then implicitLoop agg key (group ++ [e]) rest
    else (consolidate agg key group).bind (fun r => (implicitLoop agg k [e] rest).map (fun s => r ++ s))

/-- Models `iter_recent` of `DynamicAggregationImplicitGroupDataflow` (`implicit_group.rs` 35-87). Indexing a tuple is done for the whole
batch first, so that only the moment of a panic differs. -/
def implicitGroup (agg : Aggregator V T) : List (List (Elem (Tup V) T)) → Option (List (List (Elem (Tup V) T)))
  | [] => some []
  | b :: _ => (b.mapM splitKey).bind (fun ks =>
      match ks with
      | [] => some []
      | (k, e) :: rest => (implicitLoop agg k [e] rest).map (fun r => [r]))

/-- A group of `join_group.rs`: the key, the elements to join and the elements to aggregate. -/
abbrev JGroup (V T : Type*) := Tup V × List (Elem (Tup V) T) × List (Elem (Tup V) T)

/-- Models the loop collecting the groups (`join_group.rs` 56-114), on elements whose keys have been split off. The two inner loops read on
while the key is the same (70-90). `none` is running out of fuel. -/
def collectGroups : Nat → List (Tup V × Elem (Tup V) T) → List (Tup V × Elem (Tup V) T) → Option (List (JGroup V T))
  | 0, _, _ => none
  | _ + 1, [], _ => some []
  | fuel + 1, (k, a) :: i, [] => (collectGroups fuel i []).map (fun gs => (k, [a], []) :: gs)
  | fuel + 1, (k, a) :: i, (k', b) :: j =>
    if k = k' then
      (collectGroups fuel (i.dropWhile (fun p => p.1 = k)) (j.dropWhile (fun p => p.1 = k))).map (fun gs =>
        (k, a :: (i.takeWhile (fun p => p.1 = k)).map Prod.snd, b :: (j.takeWhile (fun p => p.1 = k)).map Prod.snd) :: gs)
    else if k < k' then (collectGroups fuel i ((k', b) :: j)).map (fun gs => (k, [a], []) :: gs)
    else collectGroups fuel ((k, a) :: i) j

/-- The results of one group (`join_group.rs` 116-134). -/
def joinGroupResult (c : Prov T W) (agg : Aggregator V T) (g : JGroup V T) : Option (List (Elem (Tup V) T)) :=
  (agg g.2.2).map (fun rs => g.2.1.flatMap (fun a => rs.map (fun r => ⟨.tup [g.1, a.tuple, r.tuple], c.mult a.tag r.tag⟩)))

/-- Models `iter_recent` of `DynamicAggregationJoinGroupDataflow` (`join_group.rs` 44-139): `d1` gives the groups, `d2` what is aggregated. -/
def joinGroup (c : Prov T W) (agg : Aggregator V T) (d1 d2 : List (List (Elem (Tup V) T))) : Option (List (List (Elem (Tup V) T))) :=
  match d1, d2 with
  | b1 :: _, b2 :: _ =>
    (b1.mapM splitKey).bind (fun i => (b2.mapM splitKey).bind (fun j =>
      (collectGroups (i.length + j.length + 1) i j).bind (fun gs => (gs.mapM (joinGroupResult c agg)).map (fun r => [r.flatten]))))
  | _, _ => some []

/-! ### Rank, sort, enumerate -/

/-- Models `EnumerateAggregator::aggregate` (`enumerate.rs` 54-64): pair each element with its position. The flattening of the tuple
(`from_values`, `to_values`) is left out. -/
def enumerate {α : Type*} (batch : List (Elem α T)) : List (Elem (Nat × α) T) := batch.zipIdx.map (fun p => ⟨(p.2, p.1.tuple), p.1.tag⟩)

/-- Models `RankAggregator::aggregate` (`rank.rs` 66-100), a stable sort by weight, from the heaviest by default. -/
def rank {α K : Type*} [LinearOrder K] (c : Prov T K) (ascending : Bool) (batch : List (Elem α T)) : List (Elem (Nat × α) T) :=
  enumerate (batch.insertionSort (fun a b => if ascending then c.weight a.tag ≤ c.weight b.tag else c.weight b.tag ≤ c.weight a.tag))

/-- Models `SortAggregator::compare` (`sort.rs` 106-112), as a key: what follows the arguments. -/
def sortAggKey (numArgs : Nat) : Tup V → Option (List (Tup V))
  | .val v => some [.val v]
  | .tup ts => if numArgs ≤ ts.length then some (ts.drop numArgs) else none

/-- Models `SortAggregator::aggregate` without `argsort` (`sort.rs` 116-145), from the greatest by default. -/
def sortAgg (numArgs : Nat) (ascending : Bool) (batch : List (Elem (Tup V) T)) : Option (List (Elem (Nat × Tup V) T)) :=
  (batch.mapM (fun e => (sortAggKey numArgs e.tuple).map (fun k => (k, e)))).map (fun ks =>
    enumerate ((ks.insertionSort (fun a b => if ascending then a.1 ≤ b.1 else b.1 ≤ a.1)).map Prod.snd))

end Scallop.Agg
