import Verif.Model.Aggregate
import Verif.Model.InputTags

/-!
# Weighted sums and averages, normalization, disjunctions, samplers, and the registry of aggregates

Models `/repo/core/src/common/foreign_aggregates/{weighted_sum_avg,normalize,disjunct,uniform,categorical,sampler}.rs` and the registry of
`/repo/core/src/common/foreign_aggregate.rs`. Floating point numbers are elements of a field `K`; what the code computes by dividing by zero (NaN or an infinity) is the
explicit value `none`. Another `none`, around a result, is a panic.
-/

namespace Scallop.WAgg

open Scallop.Agg Scallop.Input

variable {V T W K : Type}

/-! ## Weighted sums and averages -/

section
variable [Field K] [DecidableEq K]

/-- `AsTuple::<F>::as_tuple`: the number of a tuple; another tuple is a panic. -/
def asNum (num : V → Option K) : Tup V → Option K
  | .val v => num v
  | .tup _ => none

/-- The number that is summed: behind the arguments if there are any (`weighted_sum_avg.rs` 111-121, 129-137). -/
def numValue (num : V → Option K) (numArgs : Nat) (t : Tup V) : Option K := if numArgs > 0 then (t.at? numArgs).bind (asNum num) else asNum num t

/-- Models `perform_sum` (`weighted_sum_avg.rs` 125-139). -/
def performSum (num : V → Option K) (numArgs : Nat) (ts : List (K × Tup V)) : Option K :=
  ts.foldlM (fun sum p => (numValue num numArgs p.2).map (fun v => sum + p.1 * v)) 0

/-- One step of `perform_avg` (`weighted_sum_avg.rs` 112-115): the sum and the sum of weights. -/
def avgStep (num : V → Option K) (numArgs : Nat) (s : K × K) (p : K × Tup V) : Option (K × K) :=
  (numValue num numArgs p.2).map (fun v => (s.1 + p.1 * v, s.2 + p.1))

/-- Models `perform_avg` (`weighted_sum_avg.rs` 107-123). -/
def performAvg (num : V → Option K) (numArgs : Nat) (ts : List (K × Tup V)) : Option (Option K) :=
  (ts.foldlM (avgStep num numArgs) (0, 0)).map (fun s => if s.2 = 0 then none else some (s.1 / s.2))

/-- Models `perform_sum_avg` (`weighted_sum_avg.rs` 141-158); the two types of floating point numbers are one here. -/
def performSumAvg (num : V → Option K) (isSum : Bool) (numArgs : Nat) (ts : List (K × Tup V)) : Option (Option K) :=
  if isSum then (performSum num numArgs ts).map some else performAvg num numArgs ts

/-- The facts with the weights of their tags (`weighted_sum_avg.rs` 164, 169-173). -/
def weighed (c : Prov T K) (batch : List (Elem (Tup V) T)) : List (Elem (K × Tup V) T) := batch.map (fun e => ⟨(c.weight e.tag, e.tuple), e.tag⟩)

/-- Models `WeightedSumAvgAggregator::aggregate` (`weighted_sum_avg.rs` 161-190). -/
def weightedSumAvg (c : Prov T K) (num : V → Option K) (isSum : Bool) (numArgs : Nat) (nonMultiWorld : Bool) (batch : List (Elem (Tup V) T)) :
    Option (List (Elem (Option K) T)) :=
  if nonMultiWorld then (performSumAvg num isSum numArgs ((weighed c batch).map Elem.tuple)).map (fun v => [⟨v, c.one⟩])
  else multiWorld c (performSumAvg num isSum numArgs) (weighed c batch)

/-! ## Normalization -/

/-- Models `softmax` and `normalize` (`normalize.rs` 113-121): with `exp` the exponential function. `none`: divided by zero. -/
def normalizedWeights (exp : K → K) (soft : Bool) (ws : List K) : Option (List K) :=
  let vs := if soft then ws.map exp else ws
  let sum := vs.foldl (fun acc v => acc + v) 0
  if sum = 0 ∧ vs ≠ [] then none else some (vs.map (fun v => v / sum))

/-- Models `NormalizeAggregator::aggregate` for the provenances on single probabilities (`normalize.rs` 77-104 with `min_max_prob.rs` 44-46 and
`add_mult_prob.rs` 36-38): the tag is the new weight. The identifier of the exclusion is allocated and dropped. -/
def normalizeFloat (exp : K → K) (soft : Bool) (batch : List (Elem (Tup V) K)) : Option (List (Elem (Tup V) K)) :=
  (normalizedWeights exp soft (batch.map Elem.tag)).map (fun ws => (batch.zip ws).map (fun p => ⟨p.1.tuple, p.2⟩))

/-- The default (`normalize.rs` 61-68), used by all other provenances: unit, Boolean, counting, proofs, sampled proofs and all differentiable ones. -/
def normalizeDefault (batch : List (Elem (Tup V) T)) : List (Elem (Tup V) T) := batch

variable [LT K] [DecidableLT K]

/-- The new facts of `NormalizeAggregator::aggregate` for the provenances with proofs (`normalize.rs` 89-103): each is registered with its new weight and the exclusion. -/
def registerAll (exclusion : Nat) : Reg K → List (Tup V × K) → Option (Reg K × List (Elem (Tup V) Dnf))
  | s, [] => some (s, [])
  | s, (u, np) :: rest =>
    match (ofDyn .exclusiveProb (.exclusiveFloat np exclusion)).bind InTag.entry with
    | none => registerAll exclusion s rest
    | some (p, e) => (s.register p e).bind (fun r => (registerAll exclusion r.1 rest).map (fun q => (q.1, ⟨u, r.2⟩ :: q.2)))

/-- Models `NormalizeAggregator::aggregate` for top-k proofs and top-bottom-k clauses (`normalize.rs` 77-104): `weight` is the weight of a tag, `exclusion` the next
number of an exclusion. The outer `none`: divided by zero; the inner one: a panic. -/
def normalizeProofs (exp : K → K) (soft : Bool) (weight : Dnf → K) (exclusion : Nat) (s : Reg K) (batch : List (Elem (Tup V) Dnf)) :
    Option (Option (Reg K × List (Elem (Tup V) Dnf))) :=
  (normalizedWeights exp soft (batch.map (fun e => weight e.tag))).map (fun ws => registerAll exclusion s ((batch.map Elem.tuple).zip ws))

end

/-! ## Disjunctions -/

/-- `tuple[..num_args]`; a value or a short tuple is a panic. -/
def argsOf (numArgs : Nat) : Tup V → Option (List (Tup V))
  | .tup l => if numArgs ≤ l.length then some (l.take numArgs) else none
  | .val _ => none

/-- The loop of `DisjunctAggregator::aggregate` (`disjunct.rs` 85-90): the exclusion of every fact, with the current arguments and the current and next exclusion. -/
def exclusionLoop [DecidableEq (Tup V)] (numArgs : Nat) : List (Tup V) → Nat → Nat → List (Tup V) → Option (List Nat × Nat)
  | _, _, next, [] => some ([], next)
  | args, cur, next, t :: ts =>
    (argsOf numArgs t).bind (fun a =>
      if a ≠ args then (exclusionLoop numArgs a next (next + 1) ts).map (fun r => (next :: r.1, r.2))
      else (exclusionLoop numArgs args cur next ts).map (fun r => (cur :: r.1, r.2)))

/-- The exclusions of `DisjunctAggregator::aggregate` (`disjunct.rs` 64-90), and the next free one. -/
def exclusions [DecidableEq (Tup V)] (numArgs : Nat) (next : Nat) (ts : List (Tup V)) : Option (List Nat × Nat) :=
  match ts with
  | [] => some ([], next)
  | t :: _ =>
    if numArgs = 0 then some (ts.map (fun _ => next), next + 1)
    else (argsOf numArgs t).bind (fun a => exclusionLoop numArgs a next (next + 1) ts)

section
variable [Field K] [LT K] [DecidableLT K]

/-- The new tags (`disjunct.rs` 71-78, 92-99): the tag of the fact times a new fact with the exclusion. `mult` depends on the facts registered so far. -/
def disjunctTags (mult : Reg K → Dnf → Dnf → Dnf) (kind : Kind) : Reg K → List (Elem (Tup V) Dnf × Nat) → Option (Reg K × List (Elem (Tup V) Dnf))
  | s, [] => some (s, [])
  | s, (e, x) :: rest =>
    match (ofDyn kind (.exclusive x : DynTag K)).bind InTag.entry with
    | none => (disjunctTags mult kind s rest).map (fun q => (q.1, ⟨e.tuple, mult s e.tag [[]]⟩ :: q.2))
    | some (p, d) => (s.register p d).bind (fun r => (disjunctTags mult kind r.1 rest).map (fun q => (q.1, ⟨e.tuple, mult r.1 e.tag r.2⟩ :: q.2)))

/-- Models `DisjunctAggregator::aggregate` (`disjunct.rs` 57-105), with the next number of an exclusion. -/
def disjunct [DecidableEq (Tup V)] (mult : Reg K → Dnf → Dnf → Dnf) (kind : Kind) (numArgs : Nat) (next : Nat) (s : Reg K) (batch : List (Elem (Tup V) Dnf)) :
    Option (Reg K × Nat × List (Elem (Tup V) Dnf)) :=
  (exclusions numArgs next (batch.map Elem.tuple)).bind (fun x =>
    (disjunctTags mult kind s (batch.zip x.1)).map (fun r => (r.1, x.2, r.2)))

end

/-! ## Samplers -/

/-- Collecting into a `HashSet`: which order the elements come out in is not determined; a set of draws is any list with the same elements, once each. -/
def IsSetOf (draws out : List Nat) : Prop := out.Nodup ∧ ∀ i, i ∈ out ↔ i ∈ draws

/-- Models `UniformSampler::sample_length_only` (`uniform.rs` 56-66), as the relation of the possible outcomes; `random_usize(len)` is any number below
`len` (`random.rs` 24-26). -/
def UniformSample (k len : Nat) (out : List Nat) : Prop :=
  if len ≤ k then out = List.range len else ∃ draws : List Nat, draws.length = k ∧ (∀ i ∈ draws, i < len) ∧ IsSetOf draws out

/-- Models `CategoricalSampler::sample_weight_only` (`categorical.rs` 58-69), as the relation of the possible outcomes; `WeightedIndex::new` fails if there is no weight, a
negative one or only zeros (`none`: the panic of `unwrap`), and only draws indices of positive weights. -/
def CategoricalSample [Field K] [LinearOrder K] (k : Nat) (ws : List K) (out : Option (List Nat)) : Prop :=
  if ws.length ≤ k then out = some (List.range ws.length)
  else if ws = [] ∨ (∃ w ∈ ws, w < 0) ∨ ws.sum = 0 then out = none
  else ∃ draws r : List Nat, draws.length = k ∧ (∀ i ∈ draws, ∃ w, ws[i]? = some w ∧ 0 < w) ∧ IsSetOf draws r ∧ out = some r

/-- Models `DynamicSampler::aggregate` (`sampler.rs` 105-123), given the indices; an index out of range is a panic. -/
def sampled {α : Type} (batch : List (Elem α T)) (indices : List Nat) : Option (List (Elem α T)) := indices.mapM (fun i => batch[i]?)

/-! ## The registry -/

/-- The aggregates of the standard library (the constructors called in `foreign_aggregate.rs` 457-479). -/
inductive AggKind where
  | count | disjunct | min | max | argmin | argmax | sum | prod | avg | weightedSum | weightedAvg | exists_ | normalize | softmax | stringJoin | enumerate | rank | sort
  | argsort | top | unique | categorical | uniform
deriving DecidableEq

/-- Models `Aggregate::name` of each (`count.rs`, `disjunct.rs`, `min_max.rs`, `sum_prod.rs`, `avg.rs`, `weighted_sum_avg.rs`, `exists.rs`, `normalize.rs`,
`string_join.rs`, `enumerate.rs`, `rank.rs`, `sort.rs`, `top_k.rs`, `categorical.rs` 26-28, `uniform.rs` 24-26). -/
def AggKind.name : AggKind → String
  | .count => "count" | .disjunct => "disjunct" | .min => "min" | .max => "max" | .argmin => "argmin" | .argmax => "argmax" | .sum => "sum" | .prod => "prod"
  | .avg => "avg" | .weightedSum => "weighted_sum" | .weightedAvg => "weighted_avg" | .exists_ => "exists" | .normalize => "normalize" | .softmax => "softmax"
  | .stringJoin => "string_join" | .enumerate => "enumerate" | .rank => "rank" | .sort => "sort" | .argsort => "argsort" | .top => "top" | .unique => "unique"
  | .categorical => "uniform" | .uniform => "uniform"

/-- Models `AggregateRegistry::register` (`foreign_aggregate.rs` 486-488): the first aggregate of a name stays. -/
def register (registry : List (String × AggKind)) (a : AggKind) : List (String × AggKind) :=
  if (registry.lookup a.name).isSome then registry else registry ++ [(a.name, a)]

/-- The order of registration (`foreign_aggregate.rs` 457-479). -/
def stdOrder : List AggKind :=
  [.count, .disjunct, .min, .max, .argmin, .argmax, .sum, .prod, .avg, .weightedSum, .weightedAvg, .exists_, .normalize, .softmax, .stringJoin, .enumerate, .rank, .sort,
   .argsort, .top, .unique, .categorical, .uniform]

/-- Models `AggregateRegistry::std` (`foreign_aggregate.rs` 453-483). -/
def stdRegistry : List (String × AggKind) := stdOrder.foldl register []

end Scallop.WAgg
