import Verif.Model.Expr

/-!
# RAM programs and their optimization

Models the programs of `/repo/core/src/compiler/ram/ast.rs` (dataflows, updates, strata) and
`/repo/core/src/compiler/ram/optimizations/{deduplicate,optimizations,project_cascade}.rs`.
-/

namespace Scallop

mutual
/-- Models the derived `PartialEq` of tuples (`common/generic_tuple.rs`). -/
def Tup.beq {V : Type} [DecidableEq V] : Tup V → Tup V → Bool
  | .val a, .val b => decide (a = b)
  | .tup x, .tup y => Tup.beqList x y
  | _, _ => false
/-- Equality of lists of tuples. -/
def Tup.beqList {V : Type} [DecidableEq V] : List (Tup V) → List (Tup V) → Bool
  | [], [] => true
  | a :: x, b :: y => a.beq b && Tup.beqList x y
  | _, _ => false
end

mutual
theorem Tup.beq_iff {V : Type} [DecidableEq V] : ∀ a b : Tup V, a.beq b = true ↔ a = b
  | .val a, b => by cases b <;> simp [Tup.beq]
  | .tup x, b => by cases b <;> simp [Tup.beq, Tup.beqList_iff x]
theorem Tup.beqList_iff {V : Type} [DecidableEq V] : ∀ x y : List (Tup V), Tup.beqList x y = true ↔ x = y
  | [], y => by cases y <;> simp [Tup.beqList]
  | a :: x, y => by cases y <;> simp [Tup.beqList, Tup.beq_iff a, Tup.beqList_iff x]
end

instance {V : Type} [DecidableEq V] : DecidableEq (Tup V) := fun a b => decidable_of_iff _ (Tup.beq_iff a b)

end Scallop

namespace Scallop.Ram

variable {F : Type}

/-- Models `enum ReduceGroupByType` (`ast.rs` 428-433). -/
inductive GroupBy where
  | none
  | implicit
  | join (r : String)
deriving DecidableEq

/-- Models the leaves of `enum Dataflow` (`ast.rs` 228-262): `Unit` (with the only tuple it yields,
`runtime/dynamic/dataflow/unit.rs`), `UntaggedVec`, `Relation`, `Reduce`, `ForeignPredicateGround`. Of an
aggregation (`ast.rs` 465-471) the aggregator is kept by its name; the remaining fields of `AggregateInfo` are part of that name. -/
inductive Leaf (F : Type) where
  | unit (t : Tup (Val F))
  | untagged (ts : List (Tup (Val F)))
  | rel (r : String)
  | reduce (agg : String) (pred : String) (groupBy : GroupBy)
  | foreign (name : String) (args : List (Val F))
deriving DecidableEq

/-- Models the operators of `enum Dataflow` with one operand other than projections (`ast.rs` 236-261). The second operand of `Exclusion` is
a list of tuples, as in the programs that are built (`b2r.rs` creates `UntaggedVec` there). -/
inductive Un (F : Type) where
  | filter (e : Expr F)
  | find (t : Tup (Val F))
  | sorted
  | joinIndexedVec (r : String)
  | overwriteOne
  | exclusion (ts : List (Tup (Val F)))
  | foreignConstraint (name : String) (args : List (Expr F))
  | foreignJoin (name : String) (args : List (Expr F))
deriving DecidableEq

/-- Models the operators of `enum Dataflow` with two operands (`ast.rs` 240-246). -/
inductive Bin where
  | union | join | intersect | product | antijoin | difference
deriving DecidableEq

/-- Models `enum Dataflow` (`ast.rs` 228-262). -/
abbrev Dataflow (F : Type) := Flow F (Leaf F) (Un F) Bin

/-- Models `ReduceGroupByType::substitute_relation` (`ast.rs` 448-461). -/
def GroupBy.subst (s t : String) : GroupBy → GroupBy
  | .join r => .join (if r = s then t else r)
  | g => g

/-- Models `Dataflow::substitute_relation` on leaves (`ast.rs` 409-424, 478-489). -/
def Leaf.subst (s t : String) : Leaf F → Leaf F
  | .rel r => .rel (if r = s then t else r)
  | .reduce a p g => .reduce a (if p = s then t else p) (g.subst s t)
  | l => l

/-- Models `Dataflow::substitute_relation` on the name of an indexed vector (`ast.rs` 401-408). -/
def Un.subst (s t : String) : Un F → Un F
  | .joinIndexedVec r => .joinIndexedVec (if r = s then t else r)
  | o => o

/-- Models `Dataflow::substitute_relation` (`ast.rs` 376-425). -/
def subst (s t : String) : Dataflow F → Dataflow F
  | .leaf l => .leaf (l.subst s t)
  | .un o d => .un (o.subst s t) (subst s t d)
  | .bin o d1 d2 => .bin o (subst s t d1) (subst s t d2)
  | .project d e => .project (subst s t d) e

/-- Models `struct Update` (`ast.rs` 221-225). -/
structure Update (F : Type) where
  target : String
  flow : Dataflow F
deriving DecidableEq

/-- Models `struct Stratum` (`ast.rs` 113-118): of the relations only the names are kept. -/
structure Stratum (F : Type) where
  relations : List String
  updates : List (Update F)
deriving DecidableEq

/-- `head.starts_with("#temp#")` (`deduplicate.rs` 28-29). -/
def isTemp (r : String) : Bool := "#temp#".toList.isPrefixOf r.toList

/-- Models `struct EquivalentRelations` (`deduplicate.rs` 76-79): the map from names to set numbers, as a list in which the first entry
counts, and the sets, as lists without repetition. -/
structure EqRel where
  map : List (String × Nat)
  sets : List (List String)

/-- `HashSet::insert`. -/
def setInsert (x : String) (l : List String) : List String := if x ∈ l then l else l ++ [x]

/-- Models `add_equivalence` (`deduplicate.rs` 89-133); `none` is an index out of range. -/
def EqRel.add (q : EqRel) (r1 r2 : String) : Option EqRel :=
  match q.map.lookup r1, q.map.lookup r2 with
  | some i1, some i2 =>
    if i1 = i2 then some q
    else
      (q.sets[i2]?).bind (fun rs => (q.sets[i1]?).bind (fun s1 =>
        some ⟨rs.map (fun r => (r, i1)) ++ q.map, (q.sets.set i2 []).set i1 (rs.foldl (fun s r => setInsert r s) s1)⟩))
  | some i, none => (q.sets[i]?).bind (fun s => some ⟨(r2, i) :: q.map, q.sets.set i (setInsert r2 s)⟩)
  | none, some i => (q.sets[i]?).bind (fun s => some ⟨(r1, i) :: q.map, q.sets.set i (setInsert r1 s)⟩)
  | none, none => some ⟨(r1, q.sets.length) :: (r2, q.sets.length) :: q.map, q.sets ++ [setInsert r2 [r1]]⟩

/-- The body of the two loops of the first part (`deduplicate.rs` 22-38). -/
def addPair [DecidableEq F] (u v : Update F) (q : EqRel) : Option EqRel :=
  if u.flow = v.flow ∧ u.target ≠ v.target ∧ isTemp u.target = true ∧ isTemp v.target = true then q.add u.target v.target else some q

/-- The first part of `deduplicate_within_stratum` (`deduplicate.rs` 18-42). A pair with `i = j` changes nothing in the code; here the
targets are then equal. -/
def equivalences [DecidableEq F] (us : List (Update F)) : Option EqRel :=
  us.foldlM (fun q u => us.foldlM (fun q v => addPair u v q) q) ⟨[], []⟩

/-- One round of the second part (`deduplicate.rs` 56-69): remove a relation with its updates and use the pivot in its place. -/
def merge (pivot t : String) (s : Stratum F) : Stratum F :=
  ⟨s.relations.filter (· ≠ t), (s.updates.filter (·.target ≠ t)).map (fun u => ⟨u.target, subst t pivot u.flow⟩)⟩

/-- All rounds for one set (`deduplicate.rs` 46-70), whose elements come in the order in which the hash set is iterated. -/
def mergeSet (s : Stratum F) : List String → Stratum F
  | pivot :: t :: rest => (t :: rest).foldl (fun s t => merge pivot t s) s
  | _ => s

/-- Models `deduplicate_within_stratum` (`deduplicate.rs` 13-74). `order` is the iteration order of a hash set. The flag is the returned
`has_update`. -/
def dedup [DecidableEq F] (order : List String → List String) (s : Stratum F) : Option (Stratum F × Bool) :=
  (equivalences s.updates).map (fun q => (q.sets.foldl (fun s set => mergeSet s (order set)) s, q.sets.any (fun set => 2 ≤ set.length)))

/-- Whether some projection is applied to a projection: what `project_cascade_on_dataflow` returns (`project_cascade.rs` 17-71). -/
def nested : Dataflow F → Bool
  | .leaf _ => false
  | .un _ d => nested d
  | .bin _ d1 d2 => nested d1 || nested d2
  | .project (.project _ _) _ => true
  | .project d _ => nested d

/-- Models `project_cascade` (`project_cascade.rs` 3-15) on a stratum. -/
def cascadeStratum (s : Stratum F) : Option (Stratum F × Bool) :=
  (s.updates.mapM (fun u : Update F => (u.flow.cascade none).map (fun d => (⟨u.target, d⟩ : Update F)))).map (fun us =>
    (⟨s.relations, us⟩, s.updates.any (fun u => nested u.flow)))

/-- Models the passes of `optimize_ram` (`optimizations.rs` 3-10) over the strata of a program, given one pass over a stratum. -/
def passAll (f : Stratum F → Option (Stratum F × Bool)) : List (Stratum F) → Option (List (Stratum F) × Bool)
  | [] => some ([], false)
  | s :: ss => (f s).bind (fun r => (passAll f ss).map (fun rs => (r.1 :: rs.1, r.2 || rs.2)))

/-- One turn of the loop of `optimize_ram` (`optimizations.rs` 5-9). -/
def optimizeOnce [DecidableEq F] (order : List String → List String) (p : List (Stratum F)) : Option (List (Stratum F) × Bool) :=
  (passAll cascadeStratum p).bind (fun r1 => (passAll (dedup order) r1.1).map (fun r2 => (r2.1, r1.2 || r2.2)))

/-- Models `optimize_ram` (`optimizations.rs` 3-10) with a bound on the number of turns: `none` is a panic, `some none` that the bound
was reached. -/
def optimize [DecidableEq F] (order : List String → List String) : Nat → List (Stratum F) → Option (Option (List (Stratum F)))
  | 0, _ => some none
  | n + 1, p => (optimizeOnce order p).bind (fun r => if r.2 then optimize order n r.1 else some (some r.1))

end Scallop.Ram
