import Verif.Model.Aggregate

/-!
# The aggregate `string_join`

Models `/repo/core/src/common/foreign_aggregates/string_join.rs` and `/repo/core/src/utils/cartesian.rs`. Values are of any type `V` in which some
are strings (`str`); `none` is a panic.
-/

namespace Scallop.StrJoin

open Scallop.Agg

variable {V T W : Type}

/-! ### Vectors of indices -/

/-- The inner loop of `CartesianIterator::next` (`cartesian.rs` 29-44): the first index that can grow grows, those before it restart at 0; `none` if none
can (`has_curr = false`). -/
def bump : List Nat → List Nat → Option (List Nat)
  | t :: total, i :: indices => if i + 1 < t then some ((i + 1) :: indices) else (bump total indices).map (fun r => 0 :: r)
  | _, _ => none

/-- The vectors from one on: `collect` of the iterator (`cartesian.rs` 25-49, 52). The bound on the number of steps is the number of vectors. -/
def collectFrom (total : List Nat) : Nat → List Nat → List (List Nat)
  | 0, _ => []
  | n + 1, indices => indices :: (match bump total indices with | some next => collectFrom total n next | none => [])

/-- Models `cartesian` (`cartesian.rs` 1-53): no vector if some size is 0 (line 11), otherwise from the vector of zeros on (line 10). -/
def cartesian (sizes : List Nat) : List (List Nat) :=
  if sizes.all (fun s => 0 < s) then collectFrom sizes sizes.prod (List.replicate sizes.length 0) else []

/-! ### Joining -/

/-- `t.as_string()`: the string of a tuple; a tuple that is not a string is a panic (`common/tuple.rs`). -/
def asString (str : V → Option String) : Tup V → Option String
  | .val v => str v
  | .tup _ => none

/-- What is joined of a fact (`string_join.rs` 75-79). -/
def joinValue (str : V → Option String) (numArgs : Nat) (t : Tup V) : Option String :=
  if numArgs > 0 then (t.at? numArgs).bind (asString str) else asString str t

/-- Models `perform_string_join` (`string_join.rs` 74-81). -/
def performJoin (str : V → Option String) (numArgs : Nat) (sep : String) (ts : List (Tup V)) : Option String :=
  (ts.mapM (joinValue str numArgs)).map (fun ss => sep.intercalate ss)

/-- Models `aggregate_non_multi_world` (`string_join.rs` 83-86). -/
def joinDiscrete (c : Prov T W) (str : V → Option String) (numArgs : Nat) (sep : String) (batch : List (Elem (Tup V) T)) : Option (List (Elem String T)) :=
  (performJoin str numArgs sep (batch.map Elem.tuple)).map (fun s => [⟨s, c.one⟩])

/-- Models `aggregate_all_multi_world` (`string_join.rs` 88-92). -/
def joinAll (c : Prov T W) (str : V → Option String) (numArgs : Nat) (sep : String) (batch : List (Elem (Tup V) T)) : Option (List (Elem String T)) :=
  (performJoin str numArgs sep (batch.map Elem.tuple)).map (fun s => [⟨s, batch.foldl (fun acc e => c.mult acc e.tag) c.one⟩])

/-- `elem.tuple[..num_args]`: a tuple that is too short, or a value, is a panic. -/
def argsOf (numArgs : Nat) : Tup V → Option (List (Tup V))
  | .tup l => if numArgs ≤ l.length then some (l.take numArgs) else none
  | .val _ => none

/-- One fact put into a group (`string_join.rs` 100-118). The groups are kept with the last one first; a group is its arguments, values and tags. -/
def pushGroup [DecidableEq (Tup V)] (numArgs : Nat) (groups : List (List (Tup V) × List (Tup V × T))) (e : Elem (Tup V) T) :
    Option (List (List (Tup V) × List (Tup V × T))) := do
  let args ← argsOf numArgs e.tuple
  let v ← e.tuple.at? numArgs
  match groups with
  | [] => some [(args, [(v, e.tag)])]
  | (prev, vs) :: rest => some (if prev = args then (prev, vs ++ [(v, e.tag)]) :: rest else (args, [(v, e.tag)]) :: (prev, vs) :: rest)

/-- The groups of a batch (`string_join.rs` 99-119). -/
def groupsOf [DecidableEq (Tup V)] (numArgs : Nat) (batch : List (Elem (Tup V) T)) : Option (List (List (Tup V) × List (Tup V × T))) :=
  (batch.foldlM (pushGroup numArgs) []).map List.reverse

/-- The chosen value and tag of every group: `groups[i].1[*j]`, `groups[i].2[*j]`; an index out of range is a panic. -/
def pick (groups : List (List (Tup V) × List (Tup V × T))) (sel : List Nat) : Option (List (Tup V × T)) :=
  sel.zipIdx.mapM (fun p => (groups[p.2]?).bind (fun g => g.2[p.1]?))

/-- The result of one choice (`string_join.rs` 124-135). -/
def joinPick (c : Prov T W) (str : V → Option String) (sep : String) (groups : List (List (Tup V) × List (Tup V × T))) (sel : List Nat) :
    Option (Elem String T) := do
  let vs ← pick groups sel
  let ss ← vs.mapM (fun p => asString str p.1)
  some ⟨sep.intercalate ss, vs.foldl (fun acc p => c.mult acc p.2) c.one⟩

/-- Models `aggregate_all_arg_multi_world` (`string_join.rs` 94-138). -/
def joinAllArgs [DecidableEq (Tup V)] (c : Prov T W) (str : V → Option String) (numArgs : Nat) (sep : String) (batch : List (Elem (Tup V) T)) :
    Option (List (Elem String T)) := do
  let groups ← groupsOf numArgs batch
  (cartesian (groups.map (fun g => g.2.length))).mapM (joinPick c str sep groups)

/-- Models `aggregate_multi_world` (`string_join.rs` 140-158). -/
def joinWorlds (c : Prov T W) (str : V → Option String) (numArgs : Nat) (sep : String) (batch : List (Elem (Tup V) T)) : Option (List (Elem String T)) :=
  multiWorld c (performJoin str numArgs sep) batch

/-- Models `StringJoinAggregator::aggregate` (`string_join.rs` 161-175). No provenance has its own version. -/
def stringJoin [DecidableEq (Tup V)] (c : Prov T W) (str : V → Option String) (nonMultiWorld useAll : Bool) (numArgs : Nat) (sep : String)
    (batch : List (Elem (Tup V) T)) : Option (List (Elem String T)) :=
  if nonMultiWorld then joinDiscrete c str numArgs sep batch
  else if useAll then (if numArgs = 0 then joinAll c str numArgs sep batch else joinAllArgs c str numArgs sep batch)
  else joinWorlds c str numArgs sep batch

end Scallop.StrJoin
