import Verif.Model.Tuple
import Verif.Model.Relation

/-!
# Dataflow operators

Models `/repo/core/src/runtime/dynamic/dataflow/*.rs`. A batch iterator is modelled by the list of elements it will still
yield: `next_elem` takes the head. Every `next_elem` loop is modelled by the list of all elements it returns until it returns
`None`. `none` is a panic (an index into a tuple that is too short). Operands are evaluated completely, so where the code stops
reading an operand early (for example because the other side is empty), a panic further down that operand is reported by the model
although the code would not reach it.
-/

namespace Scallop

variable {V T W ι κ : Type*} [LinearOrder V]

/-- A batch: the elements an iterator will yield, and whether it is a relation batch, whose `search_until` gallops
(`dynamic_relation.rs` 90-97, 138-144). All other batches use the default `search_until`, which is `next_elem` (`batch.rs` 19-21). -/
structure Batch (V T : Type*) where
  elems : List (Elem (Tup V) T)
  gallop : Bool

/-- Models `search_ahead_variable_helper` followed by `next_elem` (`dynamic_relation.rs` 155-180, 90-97). The list starts at the
current element (index `elem_id - 1`); the result starts at the element returned, and is empty if `None` is returned. -/
def searchAhead (l : List (Elem (Tup V) T)) (p : Elem (Tup V) T → Bool) : List (Elem (Tup V) T) :=
  if cmpAt l p 0 then
    let q := gallopUp l p l.length 0 1
    l.drop (gallopDown l p (q.2 / 2) q.1 (q.2 / 2) + 1)
  else []

/-- Models `search_until` (`batch.rs` 19-21, `dynamic_relation.rs` 90-97): the list starts at the current element. -/
def searchUntil (gallop : Bool) (l : List (Elem (Tup V) T)) (t : Tup V) : List (Elem (Tup V) T) :=
  if gallop then searchAhead l (fun e => decide (e.tuple < t)) else l.tail

/-- `take_while(|x| &x.tuple[0] == key)` (`join.rs` 107, `antijoin.rs` 113). -/
def keyRun (k : Tup V) : List (Elem (Tup V) T) → Option (List (Elem (Tup V) T))
  | [] => some []
  | e :: l =>
    match e.tuple.at? 0 with
    | none => none
    | some k' => if k' = k then (keyRun k l).map (e :: ·) else some []

/-- The tuple and tag of one joined pair (`join.rs` 89-92). -/
def joinElem (c : Prov T W) (e1 e2 : Elem (Tup V) T) : Option (Elem (Tup V) T) :=
  match e1.tuple.at? 0, e1.tuple.at? 1, e2.tuple.at? 1 with
  | some k, some a, some b => some ⟨.tup [k, a, b], c.mult e1.tag e2.tag⟩
  | _, _, _ => none

/-- All pairs of `JoinProductIterator` (`utils/join_product.rs` 24-42) mapped by `f`, in its order: `v2` varies fastest. -/
def runPairs {β : Type*} (f : Elem (Tup V) T → Elem (Tup V) T → Option β) (v1 v2 : List (Elem (Tup V) T)) : Option (List β) :=
  (v1.mapM (fun e1 => v2.mapM (f e1))).map List.flatten

/-- Models `DynamicJoinBatch::next_elem` (`join.rs` 84-123). `DynamicBatch` does not forward `search_elem_0_until`
(`batch.rs` 39-51), so moving to a larger key is a plain `next_elem`. The fuel bounds the number of turns. -/
def joinLoop (c : Prov T W) : Nat → List (Elem (Tup V) T) → List (Elem (Tup V) T) → Option (List (Elem (Tup V) T))
  | 0, _, _ => some []
  | _ + 1, [], _ => some []
  | _ + 1, _ :: _, [] => some []
  | fuel + 1, e1 :: r1, e2 :: r2 =>
    match e1.tuple.at? 0, e2.tuple.at? 0 with
    | some k1, some k2 =>
      if k1 < k2 then joinLoop c fuel r1 (e2 :: r2)
      else if k1 = k2 then
        match keyRun k1 r1, keyRun k1 r2 with
        | some g1, some g2 =>
          match runPairs (joinElem c) (e1 :: g1) (e2 :: g2), joinLoop c fuel (r1.drop g1.length) (r2.drop g2.length) with
          | some out, some rest => some (out ++ rest)
          | _, _ => none
        | _, _ => none
      else joinLoop c fuel (e1 :: r1) r2
    | _, _ => none

/-- Models `JoinOp::apply` (`join.rs` 47-60) and draining the batch. -/
def joinBatch (c : Prov T W) (b1 b2 : Batch V T) : Option (Batch V T) :=
  (joinLoop c (b1.elems.length + b2.elems.length) b1.elems b2.elems).map (fun l => ⟨l, false⟩)

/-- Models `DynamicIntersectBatch::next_elem` (`intersect.rs` 79-103). -/
def intersectLoop (c : Prov T W) (g1 g2 : Bool) : Nat → List (Elem (Tup V) T) → List (Elem (Tup V) T) → List (Elem (Tup V) T)
  | 0, _, _ => []
  | _ + 1, [], _ => []
  | _ + 1, _ :: _, [] => []
  | fuel + 1, e1 :: r1, e2 :: r2 =>
    if e1.tuple < e2.tuple then intersectLoop c g1 g2 fuel (searchUntil g1 (e1 :: r1) e2.tuple) (e2 :: r2)
    else if e1.tuple = e2.tuple then ⟨e1.tuple, c.mult e1.tag e2.tag⟩ :: intersectLoop c g1 g2 fuel r1 r2
    else intersectLoop c g1 g2 fuel (e1 :: r1) (searchUntil g2 (e2 :: r2) e1.tuple)

/-- Models `IntersectOp::apply` (`intersect.rs` 45-57) and draining the batch. -/
def intersectBatch (c : Prov T W) (b1 b2 : Batch V T) : Batch V T :=
  ⟨intersectLoop c b1.gallop b2.gallop (b1.elems.length + b2.elems.length) b1.elems b2.elems, false⟩

/-- Models `DynamicProductBatch::next_elem` (`product.rs` 79-96): the second operand is restarted for each element of the first. -/
def productLoop (c : Prov T W) (src : List (Elem (Tup V) T)) : List (Elem (Tup V) T) → List (Elem (Tup V) T)
  | [] => []
  | e1 :: r1 => src.map (fun e2 => ⟨.tup [e1.tuple, e2.tuple], c.mult e1.tag e2.tag⟩) ++ productLoop c src r1

/-- Models `ProductOp::apply` (`product.rs` 46-57) and draining the batch. -/
def productBatch (c : Prov T W) (b1 b2 : Batch V T) : Batch V T := ⟨productLoop c b2.elems b1.elems, false⟩

/-- Models `DynamicDifferenceBatch::next_elem` (`difference.rs` 74-109). -/
def differenceLoop (c : Prov T W) (g2 : Bool) : Nat → List (Elem (Tup V) T) → List (Elem (Tup V) T) → List (Elem (Tup V) T)
  | 0, _, _ => []
  | _ + 1, [], _ => []
  | fuel + 1, e1 :: r1, [] => e1 :: differenceLoop c g2 fuel r1 []
  | fuel + 1, e1 :: r1, e2 :: r2 =>
    if e1.tuple < e2.tuple then e1 :: differenceLoop c g2 fuel r1 (e2 :: r2)
    else if e1.tuple = e2.tuple then
      match c.minus e1.tag e2.tag with
      | some t => ⟨e1.tuple, t⟩ :: differenceLoop c g2 fuel r1 r2
      | none => differenceLoop c g2 fuel r1 r2
    else differenceLoop c g2 fuel (e1 :: r1) (searchUntil g2 (e2 :: r2) e1.tuple)

/-- Models `DifferenceOp::apply` (`difference.rs` 40-52) and draining the batch. -/
def differenceBatch (c : Prov T W) (b1 b2 : Batch V T) : Batch V T :=
  ⟨differenceLoop c b2.gallop (b1.elems.length + b2.elems.length) b1.elems b2.elems, false⟩

/-- The group emitted for a matching key (`antijoin.rs` 84-93): each left element minus the right tag, dropped if undefined. -/
def antijoinGroup (c : Prov T W) (g : List (Elem (Tup V) T)) (e2 : Elem (Tup V) T) : List (Elem (Tup V) T) :=
  g.filterMap (fun e1 => (c.minus e1.tag e2.tag).map (fun t => ⟨e1.tuple, t⟩))

/-- Models `DynamicAntijoinBatch::next_elem` (`antijoin.rs` 79-127). -/
def antijoinLoop (c : Prov T W) (g2 : Bool) :
    Nat → List (Elem (Tup V) T) → List (Elem (Tup V) T) → Option (List (Elem (Tup V) T))
  | 0, _, _ => some []
  | _ + 1, [], _ => some []
  | fuel + 1, e1 :: r1, [] => (antijoinLoop c g2 fuel r1 []).map (e1 :: ·)
  | fuel + 1, e1 :: r1, e2 :: r2 =>
    match e1.tuple.at? 0 with
    | none => none
    | some k =>
      if k < e2.tuple then (antijoinLoop c g2 fuel r1 (e2 :: r2)).map (e1 :: ·)
      else if k = e2.tuple then
        match keyRun k r1 with
        | none => none
        | some grp => (antijoinLoop c g2 fuel (r1.drop grp.length) r2).map (antijoinGroup c (e1 :: grp) e2 ++ ·)
      else antijoinLoop c g2 fuel (e1 :: r1) (searchUntil g2 (e2 :: r2) k)

/-- Models `AntijoinOp::apply` (`antijoin.rs` 42-55) and draining the batch. -/
def antijoinBatch (c : Prov T W) (b1 b2 : Batch V T) : Option (Batch V T) :=
  (antijoinLoop c b2.gallop (b1.elems.length + b2.elems.length) b1.elems b2.elems).map (fun l => ⟨l, false⟩)

/-- Models `DynamicFindBatch::next_elem` (`find.rs` 52-71). -/
def findLoop (k : Tup V) : List (Elem (Tup V) T) → Option (List (Elem (Tup V) T))
  | [] => some []
  | e :: l =>
    match e.tuple.at? 0 with
    | none => none
    | some k' =>
      if k' < k then findLoop k l
      else if k' = k then (findLoop k l).map (e :: ·)
      else some []

/-- Models `DynamicFilterBatch::next_elem` (`filter.rs` 57-67). The expression is a predicate on tuples: evaluation failures are
`false`, as in the code. -/
def filterBatch (p : Tup V → Bool) (b : Batch V T) : Batch V T := ⟨b.elems.filter (fun e => p e.tuple), false⟩

/-- Models `DynamicProjectBatch::next_elem` (`project.rs` 68-78): tuples on which the expression is undefined are skipped. -/
def projectBatch (f : Tup V → Option (Tup V)) (b : Batch V T) : Batch V T :=
  ⟨b.elems.filterMap (fun e => (f e.tuple).map (fun t => ⟨t, e.tag⟩)), false⟩

/-- Models `DynamicOverwriteOneBatch::next_elem` (`overwrite_one.rs` 58-65). -/
def overwriteOneBatch (c : Prov T W) (b : Batch V T) : Batch V T := ⟨b.elems.map (fun e => ⟨e.tuple, c.one⟩), false⟩

/-- Models `DynamicSortedBatch::next_elem` (`sorted.rs` 44-63): a stable sort of the source. -/
def sortedBatch (b : Batch V T) : Batch V T := ⟨sortElems b.elems, false⟩

/-- Models `DynamicBatchesBinary` (`batches.rs` 129-168): every batch of the first operand with every batch of the second. -/
def binaryBatches (f : Batch V T → Batch V T → Option (Batch V T)) (B1 B2 : List (Batch V T)) : Option (List (Batch V T)) :=
  (B1.mapM (fun b1 => B2.mapM (f b1))).map List.flatten

/-- Models the part of `ram::Dataflow` (`compiler/ram/ast.rs`) that is evaluated over tuples. `rel` is a relation of the current
stratum and `input` an input collection (`iteration.rs` 345-351 decides by name; here they are different constructors). Expressions
are functions on tuples. `unit t` holds the unit value of the tuple type. `once` is an aggregation (`aggregation/*.rs`), given by the
batches of its results: they are recent in the first iteration and never stable. `listed` is a foreign predicate without bound
variables (`foreign_predicate/ground.rs`). `expand` covers foreign predicates over bound variables, exclusion and indexed vectors, see
`expandBatch`. The elements these dataflows bring in are named as input collections. -/
inductive DF (V ι κ : Type*) where
  | unit (t : Tup V)
  | untagged (ts : List (Tup V))
  | rel (i : ι)
  | input (j : κ)
  | overwriteOne (d : DF V ι κ)
  | filter (d : DF V ι κ) (p : Tup V → Bool)
  | find (d : DF V ι κ) (k : Tup V)
  | project (d : DF V ι κ) (f : Tup V → Option (Tup V))
  | sorted (d : DF V ι κ)
  | union (d1 d2 : DF V ι κ)
  | intersect (d1 d2 : DF V ι κ)
  | join (d1 d2 : DF V ι κ)
  | product (d1 d2 : DF V ι κ)
  | difference (d1 d2 : DF V ι κ)
  | antijoin (d1 d2 : DF V ι κ)
  | once (bs : List (List κ))
  | listed (js : List κ)
  | expand (d : DF V ι κ) (f : Tup V → Option (List (Tup V × κ)))

/-- What a dataflow reads: the relations of the stratum, the input collections, and whether this is the first iteration. -/
structure Env (V T ι κ : Type*) where
  rel : ι → Relation (Tup V) T
  input : κ → List (Elem (Tup V) T)
  first : Bool

/-- Models a batch of the dataflows that turn one element into a list of elements, each with the product of its tag and the tag of
another element: `foreign_predicate/constraint.rs` 89-124 (at most one result, the same tuple), `foreign_predicate/join.rs` 113-129,
`dynamic_exclusion.rs` 131-168 and `join_indexed_vec.rs` 79-92. The function `f` gives, for the tuple of an element, the resulting tuples, each
with the input collections holding the other elements; `none` is a panic (an argument that is neither a constant nor a component of
the tuple, a component that does not exist). Simplification: the batch is evaluated as a whole, the code evaluates it element by element. -/
def expandBatch (c : Prov T W) (env : Env V T ι κ) (f : Tup V → Option (List (Tup V × κ))) (b : Batch V T) : Option (Batch V T) :=
  (b.elems.mapM (fun e => (f e.tuple).map (fun r =>
    r.flatMap (fun p => (env.input p.2).map (fun x => (⟨p.1, c.mult e.tag x.tag⟩ : Elem (Tup V) T)))))).map (fun l => ⟨l.flatten, false⟩)

/-- Models `iter_stable` of every dataflow (default: no batches, `dynamic_dataflow.rs` 12-14), as built by `build_dynamic_dataflow`
(`iteration.rs` 323-462). -/
def DF.stable (c : Prov T W) (env : Env V T ι κ) : DF V ι κ → Option (List (Batch V T))
  | .unit t => some (if env.first then [] else [⟨[⟨t, c.one⟩], false⟩])          -- unit.rs 24-30; iteration.rs 330-336
  | .untagged _ => some []                                                        -- untagged_vec.rs 18-22
  | .rel i => some ((env.rel i).stable.map (fun b => ⟨b, true⟩))                  -- dynamic_relation.rs 12-17
  | .input j => some (if env.first then [] else [⟨env.input j, false⟩])           -- dynamic_collection.rs 9-24
  | .overwriteOne d => (d.stable c env).map (List.map (overwriteOneBatch c))
  | .filter d p => (d.stable c env).map (List.map (filterBatch p))
  | .find d k => (d.stable c env).bind (List.mapM (fun b => (findLoop k b.elems).map (fun l => ⟨l, false⟩)))
  | .project d f => (d.stable c env).map (List.map (projectBatch f))
  | .sorted d => (d.stable c env).map (List.map sortedBatch)
  | .union d1 d2 => do some ((← d1.stable c env) ++ (← d2.stable c env))          -- union.rs 10-12
  | .intersect d1 d2 => do                                                        -- intersect.rs 20-23
    binaryBatches (fun a b => some (intersectBatch c a b)) (← d1.stable c env) (← d2.stable c env)
  | .join d1 d2 => do binaryBatches (joinBatch c) (← d1.stable c env) (← d2.stable c env)   -- join.rs 22-25
  | .product d1 d2 => do                                                          -- product.rs 21-24
    binaryBatches (fun a b => some (productBatch c a b)) (← d1.stable c env) (← d2.stable c env)
  | .difference _ _ => some []                                                    -- difference.rs 19-29
  | .antijoin _ _ => some []                                                      -- antijoin.rs 21-31
  | .once _ => some []                                                            -- aggregation/*.rs: no `iter_stable`
  | .listed js => some (if env.first then [] else [⟨js.flatMap env.input, false⟩])  -- foreign_predicate/ground.rs 54-60
  | .expand d f => (d.stable c env).bind (List.mapM (expandBatch c env f))

/-- The three combinations of `iter_recent` of a binary operator (`join.rs` 27-34 and likewise in `intersect.rs`, `product.rs`,
`difference.rs`, `antijoin.rs`). -/
def recentBinary (f : Batch V T → Batch V T → Option (Batch V T)) (s1 r1 s2 r2 : Option (List (Batch V T))) :
    Option (List (Batch V T)) := do
  let a ← binaryBatches f (← s1) (← r2)
  let b ← binaryBatches f (← r1) (← s2)
  let d ← binaryBatches f (← r1) (← r2)
  some (a ++ b ++ d)

/-- Models `iter_recent` of every dataflow. -/
def DF.recent (c : Prov T W) (env : Env V T ι κ) : DF V ι κ → Option (List (Batch V T))
  | .unit t => some (if env.first then [⟨[⟨t, c.one⟩], false⟩] else [])
  | .untagged ts => some [⟨ts.map (fun t => ⟨t, c.one⟩), false⟩]
  | .rel i => some [⟨(env.rel i).recent, true⟩]                                   -- dynamic_relation.rs 19-25
  | .input j => some (if env.first then [⟨env.input j, false⟩] else [])
  | .overwriteOne d => (d.recent c env).map (List.map (overwriteOneBatch c))
  | .filter d p => (d.recent c env).map (List.map (filterBatch p))
  | .find d k => (d.recent c env).bind (List.mapM (fun b => (findLoop k b.elems).map (fun l => ⟨l, false⟩)))
  | .project d f => (d.recent c env).map (List.map (projectBatch f))
  | .sorted d => (d.recent c env).map (List.map sortedBatch)
  | .union d1 d2 => do some ((← d1.recent c env) ++ (← d2.recent c env))
  | .intersect d1 d2 => recentBinary (fun a b => some (intersectBatch c a b))
      (d1.stable c env) (d1.recent c env) (d2.stable c env) (d2.recent c env)
  | .join d1 d2 => recentBinary (joinBatch c)
      (d1.stable c env) (d1.recent c env) (d2.stable c env) (d2.recent c env)
  | .product d1 d2 => recentBinary (fun a b => some (productBatch c a b))
      (d1.stable c env) (d1.recent c env) (d2.stable c env) (d2.recent c env)
  | .difference d1 d2 => recentBinary (fun a b => some (differenceBatch c a b))
      (d1.stable c env) (d1.recent c env) (d2.stable c env) (d2.recent c env)
  | .antijoin d1 d2 => recentBinary (antijoinBatch c)
      (d1.stable c env) (d1.recent c env) (d2.stable c env) (d2.recent c env)
  | .once bs => some (if env.first then bs.map (fun js => ⟨js.flatMap env.input, false⟩) else [])
  | .listed js => some (if env.first then [⟨js.flatMap env.input, false⟩] else [])  -- foreign_predicate/ground.rs 62-68
  | .expand d f => (d.recent c env).bind (List.mapM (expandBatch c env f))

end Scallop
