import Verif.Model.Dataflow
import Verif.Model.Provenance
import Mathlib.Data.List.Lex
import Mathlib.Data.List.Sort

/-!
# Aggregates

Models `/repo/core/src/common/foreign_aggregates/{count,sum_prod,avg,exists,min_max,top_k}.rs`, the specialisations for the unit, boolean and
min-max provenances (`runtime/provenance/discrete/{unit,boolean}.rs`, `probabilistic/min_max_prob.rs`), `common/tuples.rs` and
`common/foreign_predicates/range.rs`. `none` is a panic.
-/

namespace Scallop.Agg

variable {V T W α β : Type*}

/-! ### Choosing sets of facts -/

/-- `k`-element subsequences in lexicographic order of positions, as `Itertools::combinations`. -/
def combinations : Nat → List α → List (List α)
  | 0, _ => [[]]
  | _ + 1, [] => []
  | k + 1, a :: l => (combinations k l).map (a :: ·) ++ combinations (k + 1) l

/-- `(0..n).powerset()` of `itertools`: subsets by size. -/
def powerset (n : Nat) : List (List Nat) := (List.range (n + 1)).flatMap (fun k => combinations k (List.range n))

/-- One step of computing the tag of a chosen set (`count.rs` 70-78, `sum_prod.rs` 131-139, `avg.rs` 98-106): multiply by the tag of a chosen
element or by the negation of the tag of another one. -/
def worldStep (c : Prov T W) (chosen : List Nat) (acc : Option T) (p : Elem α T × Nat) : Option T :=
  acc.bind (fun a => if chosen.contains p.2 then some (c.mult a p.1.tag) else (c.negate p.1.tag).map (fun n => c.mult a n))

/-- The tag of a chosen set (`count.rs` 70-78, `sum_prod.rs` 131-139, `avg.rs` 98-106). -/
def worldTag (c : Prov T W) (batch : List (Elem α T)) (chosen : List Nat) : Option T :=
  batch.zipIdx.foldl (worldStep c chosen) (some c.one)

/-- The tuples of a chosen set (`chosen_set.iter().map(|i| &batch[*i].tuple)`, `sum_prod.rs` 130). -/
def chosenTuples (batch : List (Elem α T)) (chosen : List Nat) : Option (List α) :=
  chosen.mapM (fun i => (batch[i]?).map Elem.tuple)

/-- The result of one chosen set, if it has a tag. The outer `none` is a panic of `f`. -/
def worldResult (c : Prov T W) (f : List α → Option β) (batch : List (Elem α T)) (chosen : List Nat) : Option (Option (Elem β T)) :=
  ((chosenTuples batch chosen).bind f).map (fun v => (worldTag c batch chosen).map (fun t => ⟨v, t⟩))

/-- The loop over all chosen sets (`sum_prod.rs` 128-144, `avg.rs` 95-111). -/
def multiWorld (c : Prov T W) (f : List α → Option β) (batch : List (Elem α T)) : Option (List (Elem β T)) :=
  ((powerset batch.length).mapM (worldResult c f batch)).map (List.filterMap id)

/-! ### count -/

/-- The result of one chosen set of `count`. -/
def countResult (c : Prov T W) (batch : List (Elem α T)) (chosen : List Nat) : Option (Elem Nat T) :=
  (worldTag c batch chosen).map (fun t => ⟨chosen.length, t⟩)

/-- Models `CountAggregator::aggregate` (`count.rs` 55-88). The count is a natural number. -/
def count (c : Prov T W) (nonMultiWorld : Bool) (batch : List (Elem α T)) : List (Elem Nat T) :=
  if nonMultiWorld then [⟨batch.length, c.one⟩]
  else if batch.isEmpty then [⟨0, c.one⟩]
  else (powerset batch.length).filterMap (countResult c batch)

/-- Models the specialisation to `UnitProvenance` (`discrete/unit.rs` 76-85). -/
def countUnit (batch : List (Elem α Unit)) : List (Elem Nat Unit) := [⟨batch.length, ()⟩]

/-- Models the specialisation to `BooleanProvenance` (`discrete/boolean.rs` 61-71). -/
def countBool (batch : List (Elem α Bool)) : List (Elem Nat Bool) :=
  [⟨batch.foldl (fun n e => if e.tag then n + 1 else n) 0, true⟩]

/-- One tag in `max_min_prob_of_k_count` (`min_max_prob.rs` 117). -/
def kCountTag {K : Type*} [Field K] (k : Nat) (p : Elem α K × Nat) : K := if p.2 < k then p.1.tag else 1 - p.1.tag

/-- Models `max_min_prob_of_k_count` (`min_max_prob.rs` 109-120). The fold starts at infinity, which for a batch that is not empty is the same
as starting at the first value; `none` stands for the infinite result of an empty one. -/
def maxMinProbOfKCount {K : Type*} [Field K] [LinearOrder K] (sorted : List (Elem α K)) (k : Nat) : Option K :=
  match sorted.zipIdx.map (kCountTag k) with
  | [] => none
  | x :: xs => some (xs.foldl (fun a b => min a b) x)

/-- Models the specialisation of `count` to `MinMaxProbProvenance` (`min_max_prob.rs` 85-107), in an ordered field instead of `f64`. The
sort is stable and descending. -/
def countMinMax {K : Type*} [Field K] [LinearOrder K] (nonMultiWorld : Bool) (batch : List (Elem α K)) : List (Elem Nat K) :=
  if nonMultiWorld then [⟨batch.length, 1⟩]
  else if batch.isEmpty then [⟨0, 1⟩]
  else (List.range (batch.length + 1)).filterMap (fun k =>
    (maxMinProbOfKCount (batch.insertionSort (fun a b => b.tag ≤ a.tag)) k).map (fun p => ⟨k, p⟩))

/-! ### sum, prod, avg -/

/-- A fixed-width integer type: its least and greatest value. -/
structure IntTy where
  lo : Int
  hi : Int

/-- Overflow is a panic (as in a build with overflow checks). -/
def IntTy.check (ty : IntTy) (x : Int) : Option Int := if ty.lo ≤ x ∧ x ≤ ty.hi then some x else none

/-- Models `ValueType::sum` (`common/value_type.rs` 280-304) on integers. -/
def IntTy.sum (ty : IntTy) (vs : List Int) : Option Int := vs.foldlM (fun a v => ty.check (a + v)) 0

/-- Models `ValueType::prod` (`common/value_type.rs` 374-398) on integers. -/
def IntTy.prod (ty : IntTy) (vs : List Int) : Option Int := vs.foldlM (fun a v => ty.check (a * v)) 1

/-- One step of `ValueType::avg`: the number of values is counted in the type of the values. -/
def IntTy.avgStep (ty : IntTy) (s : Int × Int) (v : Int) : Option (Int × Int) := do
  let a ← ty.check (s.1 + v)
  let n ← ty.check (s.2 + 1)
  some (a, n)

/-- Models `ValueType::avg` (`common/value_type.rs` 306-372) on integers: division by zero is a panic. -/
def IntTy.avg (ty : IntTy) (vs : List Int) : Option Int :=
  (vs.foldlM ty.avgStep (0, 0)).bind (fun s => if s.2 = 0 then none else some (s.1.tdiv s.2))

/-- `v.as_i8()` and so on: a tuple that is not a value is a panic (`common/tuple.rs`). -/
def asInt : Tup Int → Option Int
  | .val v => some v
  | .tup _ => none

/-- The value that is aggregated: behind the arguments if there are any (`sum_prod.rs` 105-119, `avg.rs` 81-88). -/
def aggValue (numArgs : Nat) (t : Tup Int) : Option Int := if numArgs > 0 then (t.at? numArgs).bind asInt else asInt t

/-- Models `perform_sum_prod` (`sum_prod.rs` 104-120). -/
def performSumProd (ty : IntTy) (isSum : Bool) (numArgs : Nat) (ts : List (Tup Int)) : Option Int :=
  (ts.mapM (aggValue numArgs)).bind (if isSum then ty.sum else ty.prod)

/-- Models `SumProdAggregator::aggregate` (`sum_prod.rs` 122-148), on integers. -/
def sumProd (c : Prov T W) (ty : IntTy) (isSum : Bool) (numArgs : Nat) (nonMultiWorld : Bool) (batch : List (Elem (Tup Int) T)) :
    Option (List (Elem Int T)) :=
  if nonMultiWorld then (performSumProd ty isSum numArgs (batch.map Elem.tuple)).map (fun v => [⟨v, c.one⟩])
  else multiWorld c (performSumProd ty isSum numArgs) batch

/-- Models the specialisation to `BooleanProvenance` (`discrete/boolean.rs` 97-107). -/
def sumProdBool (ty : IntTy) (isSum : Bool) (numArgs : Nat) (batch : List (Elem (Tup Int) Bool)) : Option (List (Elem Int Bool)) :=
  (performSumProd ty isSum numArgs ((batch.filter Elem.tag).map Elem.tuple)).map (fun v => [⟨v, true⟩])

/-- Models `perform_avg` (`avg.rs` 80-89). -/
def performAvg (ty : IntTy) (numArgs : Nat) (ts : List (Tup Int)) : Option Int := (ts.mapM (aggValue numArgs)).bind ty.avg

/-- Models `AvgAggregator::aggregate` (`avg.rs` 91-115), on integers. There is no specialisation for the unit or boolean provenance. -/
def avg (c : Prov T W) (ty : IntTy) (numArgs : Nat) (nonMultiWorld : Bool) (batch : List (Elem (Tup Int) T)) : Option (List (Elem Int T)) :=
  if nonMultiWorld then (performAvg ty numArgs (batch.map Elem.tuple)).map (fun v => [⟨v, c.one⟩])
  else multiWorld c (performAvg ty numArgs) batch

/-! ### exists -/

/-- One turn of the loop of `ExistsAggregator::aggregate` (`exists.rs` 72-83). -/
def existsStep (c : Prov T W) (s : Option T × Option T) (e : Elem α T) : Option T × Option T :=
  (match s.1 with
    | some t => some (c.add t e.tag)
    | none => some e.tag,
   match s.2 with
    | some net => (c.negate e.tag).map (fun n => c.mult net n)
    | none => none)

/-- Models `ExistsAggregator::aggregate` (`exists.rs` 60-92). -/
def «exists» (c : Prov T W) (nonMultiWorld : Bool) (batch : List (Elem α T)) : List (Elem Bool T) :=
  if nonMultiWorld then [⟨!batch.isEmpty, c.one⟩]
  else
    let s := batch.foldl (existsStep c) (none, some c.one)
    (s.1.toList.map (fun t => ⟨true, t⟩)) ++ (s.2.toList.map (fun t => ⟨false, t⟩))

/-- Models the specialisation to `BooleanProvenance` (`discrete/boolean.rs` 73-83). -/
def existsBool (batch : List (Elem α Bool)) : List (Elem Bool Bool) := [⟨batch.any Elem.tag, true⟩]

/-! ### min, max, argmin, argmax -/

section MinMax
variable [LinearOrder V]

/-- Models `t[num_args..]` (`generic_tuple.rs` 82-91). -/
def sliceFrom (n : Nat) : Tup V → Option (List (Tup V))
  | .val _ => none
  | .tup ts => if n ≤ ts.length then some (ts.drop n) else none

/-- Models `t[..num_args]` (`generic_tuple.rs` 71-80). -/
def sliceTo (n : Nat) : Tup V → Option (List (Tup V))
  | .val _ => none
  | .tup ts => if n ≤ ts.length then some (ts.take n) else none

/-- One turn of the loops of `minimum`, `arg_minimum`, `maximum` and `arg_maximum` (`common/tuples.rs` 24-107): `better a b` is `a < b` or
`a > b`. The state holds the current extremal key and the results. -/
def extremumStep {κ : Type*} [LinearOrder κ] (better : κ → κ → Bool) (s : Option (κ × List α)) (p : κ × α) : Option (κ × List α) :=
  match s with
  | some (m, res) =>
    if p.1 = m then some (m, res ++ [p.2])
    else if better p.1 m then some (p.1, [p.2])
    else some (m, res)
  | none => some (p.1, [p.2])

/-- Models the loops of `minimum`, `arg_minimum`, `maximum` and `arg_maximum` (`common/tuples.rs` 24-107), on pairs of key and element. -/
def extremum {κ : Type*} [LinearOrder κ] (better : κ → κ → Bool) (l : List (κ × α)) : List α :=
  match l.foldl (extremumStep better) none with
  | some (_, res) => res
  | none => []

/-- Which of two keys replaces the other (`min_max.rs` 190-202). -/
def better {κ : Type*} [LinearOrder κ] (isMin : Bool) (a b : κ) : Bool := if isMin then decide (a < b) else decide (b < a)

/-- The key of an element: all of it without arguments, else what follows the arguments (`common/tuples.rs` 45-63). -/
def sortKey (numArgs : Nat) (t : Tup V) : Option (List (Tup V)) := if numArgs > 0 then sliceFrom numArgs t else some [t]

/-- Pair each element with its key. -/
def keyed (numArgs : Nat) (t : Tup V) : Option (List (Tup V) × Tup V) := (sortKey numArgs t).map (fun k => (k, t))

/-- Models `post_process_arg` (`min_max.rs` 167-183) on one tuple. -/
def postProcess (argOnly : Bool) (numArgs : Nat) (t : Tup V) : Option (Tup V) :=
  if argOnly then (if numArgs = 1 then t.at? 0 else (sliceTo numArgs t).map Tup.tup) else some t

/-- `post_process_arg` on an element. -/
def postElem (argOnly : Bool) (numArgs : Nat) (e : Elem (Tup V) T) : Option (Elem (Tup V) T) :=
  (postProcess argOnly numArgs e.tuple).map (fun t => ⟨t, e.tag⟩)

/-- Models `discrete_min_max` (`min_max.rs` 185-204). -/
def discreteMinMax (c : Prov T W) (isMin argOnly : Bool) (numArgs : Nat) (ts : List (Tup V)) : Option (List (Elem (Tup V) T)) :=
  (ts.mapM (keyed numArgs)).bind (fun ks =>
    ((extremum (better isMin) ks).map (fun t => (⟨t, c.one⟩ : Elem (Tup V) T))).mapM (postElem argOnly numArgs))

/-- One turn of computing the strata (`min_max.rs` 218-229); the state holds `maybe_curr_elem` and `strata`. The current element is set once
and never changed. -/
def strataStep {κ : Type*} [LinearOrder κ] (s : Option κ × List Nat) (p : κ × Nat) : Option κ × List Nat :=
  match s.1 with
  | some cur => if cur < p.1 then (s.1, s.2 ++ [p.2]) else s
  | none => (some p.1, s.2)

/-- Models the computation of `strata` (`min_max.rs` 218-230). -/
def strata {κ : Type*} [LinearOrder κ] (keys : List κ) : List Nat := (keys.zipIdx.foldl strataStep (none, [0])).2

/-- One turn of computing the tag under which a range of elements is false (`min_max.rs` 250-252). -/
def falseStep (c : Prov T W) (acc : Option T) (t : T) : Option T := acc.bind (fun a => (c.negate t).map (fun n => c.mult a n))

/-- One stratum (`min_max.rs` 239-258): it extends from `start` to `stop`. -/
def stratumResult (c : Prov T W) (isMin : Bool) (sorted : List (Elem (Tup V) T)) (start stop : Nat) : List (Elem (Tup V) T) :=
  let falseElems := if isMin then sorted.take start else sorted.drop stop
  match (falseElems.map Elem.tag).foldl (falseStep c) (some c.one) with
  | some ft => ((sorted.drop start).take (stop - start)).map (fun e => ⟨e.tuple, c.mult ft e.tag⟩)
  | none => []

/-- The loop over the strata (`min_max.rs` 238-259), on the list of starts: the end of a stratum is the next start, or the end of the list. -/
def strataResults (c : Prov T W) (isMin : Bool) (sorted : List (Elem (Tup V) T)) : List Nat → List (Elem (Tup V) T)
  | [] => []
  | [s] => stratumResult c isMin sorted s sorted.length
  | s :: s' :: rest => stratumResult c isMin sorted s s' ++ strataResults c isMin sorted (s' :: rest)

/-- One turn of the loop without arguments (`min_max.rs` 269-277); the state holds `accumulated_false_tag` and `result`. -/
def plainStep (c : Prov T W) (s : T × List (Elem (Tup V) T)) (e : Elem (Tup V) T) : T × List (Elem (Tup V) T) :=
  ((match (c.negate e.tag).map (fun n => c.mult s.1 n) with
    | some f => f
    | none => s.1),
   s.2 ++ [⟨e.tuple, c.mult s.1 e.tag⟩])

/-- Pair an element with what follows its arguments. -/
def argKeyed (numArgs : Nat) (e : Elem (Tup V) T) : Option (List (Tup V) × Elem (Tup V) T) :=
  (sliceFrom numArgs e.tuple).map (fun k => (k, e))

/-- Models `multi_world_min_max` (`min_max.rs` 206-282). The stable sort by key is an insertion sort: the result of a stable sort is
unique. -/
def multiWorldMinMax (c : Prov T W) (isMin argOnly : Bool) (numArgs : Nat) (batch : List (Elem (Tup V) T)) :
    Option (List (Elem (Tup V) T)) :=
  if numArgs > 0 then
    (batch.mapM (argKeyed numArgs)).bind (fun ks =>
      let sorted := ks.insertionSort (fun a b => a.1 ≤ b.1)
      (strataResults c isMin (sorted.map Prod.snd) (strata (sorted.map Prod.fst))).mapM (postElem argOnly numArgs))
  else ((if isMin then batch else batch.reverse).foldl (plainStep c) (c.one, [])).2.mapM (postElem argOnly numArgs)

/-- Models `MinMaxAggregator::aggregate` (`min_max.rs` 285-293). -/
def minMax (c : Prov T W) (isMin argOnly : Bool) (numArgs : Nat) (nonMultiWorld : Bool) (batch : List (Elem (Tup V) T)) :
    Option (List (Elem (Tup V) T)) :=
  if nonMultiWorld then discreteMinMax c isMin argOnly numArgs (batch.map Elem.tuple)
  else multiWorldMinMax c isMin argOnly numArgs batch

/-- Models the specialisation to `BooleanProvenance` (`discrete/boolean.rs` 85-95). -/
def minMaxBool (isMin argOnly : Bool) (numArgs : Nat) (batch : List (Elem (Tup V) Bool)) : Option (List (Elem (Tup V) Bool)) :=
  discreteMinMax boolProv isMin argOnly numArgs ((batch.filter Elem.tag).map Elem.tuple)

end MinMax

/-! ### top-k -/

/-- An element of the heap in `aggregate_top_k_helper` (`top_k.rs` 89-93): id and weight. -/
abbrev TopElem (K : Type*) := Nat × K

/-- One turn of the loop over the remaining elements (`top_k.rs` 134-143): compare with the lightest element of the heap. `pop` is
`BinaryHeap::pop`, and its first component also what `peek` returns; the order of elements is reversed, so it is an element of least
weight. -/
def topKStep {K : Type*} [LinearOrder K] (pop : List (TopElem K) → Option (TopElem K × List (TopElem K))) (w : Nat → Option K)
    (heap : List (TopElem K)) (id : Nat) : Option (List (TopElem K)) :=
  match w id, pop heap with
  | some wi, some (m, rest) => if m.2 < wi then some ((id, wi) :: rest) else some heap
  | _, _ => none

/-- Models `aggregate_top_k_helper` (`top_k.rs` 85-149). -/
def topK {K : Type*} [LinearOrder K] (pop : List (TopElem K) → Option (TopElem K × List (TopElem K))) (n k : Nat) (w : Nat → Option K) :
    Option (List Nat) :=
  ((List.range (min k n)).mapM (fun id => (w id).map (fun x => ((id, x) : TopElem K)))).bind (fun heap =>
    if heap.length > 0 then
      (((List.range n).drop (min k n)).foldlM (topKStep pop w) heap).map (List.map Prod.fst)
    else some (heap.map Prod.fst))

/-- Models `DynamicSampler::aggregate` for the top-k sampler (`sampler.rs` 100-122, `top_k.rs` 75-83). -/
def topKAggregate {K : Type*} [LinearOrder K] (pop : List (TopElem K) → Option (TopElem K × List (TopElem K))) (c : Prov T K) (k : Nat)
    (batch : List (Elem α T)) : Option (List (Elem α T)) :=
  (topK pop batch.length k (fun i => (batch[i]?).map (fun e => c.weight e.tag))).bind (fun ids => ids.mapM (fun i => batch[i]?))

/-! ### range -/

/-- Models `StepIterator::next` until it returns `None` (`range.rs` 29-45). `none` is an overflow, or running out of fuel. -/
def rangeLoop (ty : IntTy) (stop : Int) : Nat → Int → Option (List Int)
  | 0, _ => none
  | fuel + 1, curr =>
    if curr ≥ stop then some []
    else (ty.check (curr + 1)).bind (fun next => (rangeLoop ty stop fuel next).map (curr :: ·))

/-- Models `RangeBBF::range` (`range.rs` 24-53). A bound that is not of the type (`none`) counts as zero (48-49). -/
def range (ty : IntTy) (begin? stop? : Option Int) : Option (List Int) :=
  let b := begin?.getD 0
  let e := stop?.getD 0
  rangeLoop ty e ((e - b).toNat + 1) b

end Scallop.Agg
