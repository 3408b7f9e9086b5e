import Verif.Model.Iteration

/-!
# Compiled programs

Models the runtime of programs compiled to Rust: `/repo/core/src/runtime/statics/{collection,relation,iteration}.rs`, `/repo/core/src/runtime/statics/dataflow/*.rs`
and the code `/repo/core/src/compiler/ram/ram2rs.rs` generates for a stratum (231-312). Dataflows are those of the interpreter (`DF`). Tuples of a compiled program
are typed Rust tuples; the model uses the tuples of the interpreter and gives `none` where a tuple lacks a component its type would promise. Aggregations
are not modelled. Expressions are the functions of the interpreter, and failing (`none`) is a panic: this is what Rust does for a division by zero, and for an overflow in a
debug build; in a release build an overflow wraps around, which is not modelled.
-/

namespace Scallop.Statics

open Scallop

section collection
variable {α T W : Type*} [LinearOrder α]

/-- The part of `StaticCollection::merge` after the swap (`collection.rs` 127-161). Unlike in the interpreter (`mergeOrdered`), the second of two equal first elements
is skipped (136-138) without adding its tag. -/
def mergeOrdered (c : Prov T W) (a : Elem α T) (l1 : List (Elem α T)) (b : Elem α T) (l2 : List (Elem α T)) : List (Elem α T) :=
  if ((a :: l1).getLast (by simp)).tuple < b.tuple then (a :: l1) ++ (b :: l2)
  else if a.tuple = b.tuple then a :: mergeLoop c l1 l2
  else a :: mergeLoop c l1 (b :: l2)

/-- Models `StaticCollection::merge` (`collection.rs` 102-161). -/
def merge (c : Prov T W) : List (Elem α T) → List (Elem α T) → List (Elem α T)
  | [], l2 => l2
  | l1, [] => l1
  | a :: l1, b :: l2 => if b.tuple < a.tuple then mergeOrdered c b l2 a l1 else mergeOrdered c a l1 b l2

/-- The loop of step 1 of `changed` (`relation.rs` 185-189), on the reversed list of stable batches. -/
def mergeIntoStable (c : Prov T W) : List (Elem α T) → List (List (Elem α T)) → List (List (Elem α T))
  | recent, [] => [recent]
  | recent, b :: bs => if b.length ≤ 2 * recent.length then mergeIntoStable c (merge c recent b) bs else recent :: b :: bs

/-- Models `StaticRelation::changed` (`relation.rs` 180-272): the interpreter's step with the default scheduler, without a wait list. -/
def changed (c : Prov T W) (r : Relation α T) : Relation α T × Bool :=
  let stable := if r.recent.isEmpty then r.stable else (mergeIntoStable c r.recent r.stable.reverse).reverse
  match r.toAdd.reverse with
  | [] => (⟨stable, [], [], r.waitlist⟩, false)
  | b :: bs =>
    let x := scheduleLfp c (bs.foldl (merge c) b) stable
    (⟨x.2, x.1, [], r.waitlist⟩, !x.1.isEmpty)

/-- Models `StaticRelation::complete` (`relation.rs` 158-166); `none` is a failed assertion. -/
def complete (c : Prov T W) (r : Relation α T) : Option (List (Elem α T)) :=
  if r.recent.isEmpty && r.toAdd.isEmpty then some (r.stable.reverse.foldl (merge c) []) else none

end collection

variable {V T W ι κ : Type*} [LinearOrder V]

/-- Whether all elements are pairs, as their type says. -/
def paired (l : List (Elem (Tup V) T)) : Bool := l.all (fun e => (e.tuple.at? 0).isSome && (e.tuple.at? 1).isSome)

/-- Models `search_ahead` (`batching/batch.rs` 20-25; `dataflow/relation.rs` 196-221 for the recent batch of a relation): the list starts at the current element. -/
def search (gallop : Bool) (l : List (Elem (Tup V) T)) (p : Elem (Tup V) T → Bool) : List (Elem (Tup V) T) := if gallop then searchAhead l p else l.tail

/-- The key of an element is smaller than a key. -/
def keyBelow (k : Tup V) (e : Elem (Tup V) T) : Bool := match e.tuple.at? 0 with | some k' => decide (k' < k) | none => false

/-- The elements with the same key that follow (`join.rs` 318-323). -/
def keyRun (k : Tup V) (l : List (Elem (Tup V) T)) : List (Elem (Tup V) T) := l.takeWhile (fun e => decide (e.tuple.at? 0 = some k))

/-- One joined pair (`join.rs` 290-297). -/
def joinElem (c : Prov T W) (e1 e2 : Elem (Tup V) T) : Option (Elem (Tup V) T) :=
  match e1.tuple.at? 0, e1.tuple.at? 1, e2.tuple.at? 1 with
  | some k, some a, some b => some ⟨.tup [k, a, b], c.mult e1.tag e2.tag⟩
  | _, _, _ => none

/-- Models `JoinIterator::next` (`join.rs` 285-331) until it returns `None`. -/
def joinLoop (c : Prov T W) (g1 g2 : Bool) : Nat → List (Elem (Tup V) T) → List (Elem (Tup V) T) → List (Elem (Tup V) T)
  | 0, _, _ => []
  | _ + 1, [], _ => []
  | _ + 1, _ :: _, [] => []
  | fuel + 1, e1 :: r1, e2 :: r2 =>
    match e1.tuple.at? 0, e2.tuple.at? 0 with
    | some k1, some k2 =>
      if k1 < k2 then joinLoop c g1 g2 fuel (search g1 (e1 :: r1) (keyBelow k2)) (e2 :: r2)
      else if k1 = k2 then
        (e1 :: keyRun k1 r1).flatMap (fun x => (e2 :: keyRun k1 r2).filterMap (joinElem c x)) ++
          joinLoop c g1 g2 fuel (r1.drop (keyRun k1 r1).length) (r2.drop (keyRun k1 r2).length)
      else joinLoop c g1 g2 fuel (e1 :: r1) (search g2 (e2 :: r2) (keyBelow k1))
    | _, _ => []

/-- Models `JoinOp::apply` (`join.rs` 228-239). -/
def joinBatch (c : Prov T W) (b1 b2 : Batch V T) : Option (Batch V T) :=
  if paired b1.elems && paired b2.elems then some ⟨joinLoop c b1.gallop b2.gallop (b1.elems.length + b2.elems.length) b1.elems b2.elems, false⟩ else none

/-- Models `AntijoinIterator::next` (`antijoin.rs` 232-283) until it returns `None`. -/
def antijoinLoop (c : Prov T W) (g2 : Bool) : Nat → List (Elem (Tup V) T) → List (Elem (Tup V) T) → List (Elem (Tup V) T)
  | 0, _, _ => []
  | _ + 1, [], _ => []
  | fuel + 1, e1 :: r1, [] => e1 :: antijoinLoop c g2 fuel r1 []
  | fuel + 1, e1 :: r1, e2 :: r2 =>
    match e1.tuple.at? 0 with
    | none => []
    | some k =>
      if k < e2.tuple then e1 :: antijoinLoop c g2 fuel r1 (e2 :: r2)
      else if k = e2.tuple then
        (e1 :: keyRun k r1).filterMap (fun x => (c.minus x.tag e2.tag).map (fun t => ⟨x.tuple, t⟩)) ++ antijoinLoop c g2 fuel (r1.drop (keyRun k r1).length) r2
      else antijoinLoop c g2 fuel (e1 :: r1) (search g2 (e2 :: r2) (fun x => decide (x.tuple < k)))

/-- Models `AntijoinOp::apply` (`antijoin.rs` 178-189). -/
def antijoinBatch (c : Prov T W) (b1 b2 : Batch V T) : Option (Batch V T) :=
  if paired b1.elems then some ⟨antijoinLoop c b2.gallop (b1.elems.length + b2.elems.length) b1.elems b2.elems, false⟩ else none

/-- Models `FindIterator::next` (`find.rs` 132-152) until it returns `None`. -/
def findLoop (g : Bool) (k : Tup V) : Nat → List (Elem (Tup V) T) → List (Elem (Tup V) T)
  | 0, _ => []
  | _ + 1, [] => []
  | fuel + 1, e :: l =>
    match e.tuple.at? 0 with
    | none => []
    | some k' =>
      if k' < k then findLoop g k fuel (search g (e :: l) (keyBelow k))
      else if k' = k then e :: findLoop g k fuel l
      else []

/-- Models `FindOp::apply` (`find.rs` 100-108). -/
def findBatch (k : Tup V) (b : Batch V T) : Option (Batch V T) :=
  if paired b.elems then some ⟨findLoop b.gallop k b.elems.length b.elems, false⟩ else none

/-- Models `ProjectIterator::next` (`project.rs` 144-157): the function is total, so failing is a panic. -/
def projectBatch (f : Tup V → Option (Tup V)) (b : Batch V T) : Option (Batch V T) :=
  (b.elems.mapM (fun e => (f e.tuple).map (fun t => (⟨t, e.tag⟩ : Elem (Tup V) T)))).map (fun l => ⟨l, false⟩)

/-- Models `iter_stable` of the dataflows `to_rs_dataflow` generates (`ram2rs.rs` 326-461). `none` is a panic of the generator or of the generated code, or generated code that
does not compile (`overwrite_one` does not exist). -/
def stable (c : Prov T W) (env : Env V T ι κ) : DF V ι κ → Option (List (Batch V T))
  | .unit t => some (if env.first then [] else [⟨[⟨t, c.one⟩], false⟩])          -- unit.rs 50-56
  | .rel i => some ((env.rel i).stable.map (fun b => ⟨b, false⟩))                 -- relation.rs 16-21, 61-75
  | .input j => some (if env.first then [] else [⟨env.input j, false⟩])           -- collection.rs 51-60
  | .filter d p => (stable c env d).map (List.map (filterBatch p))                -- filter.rs
  | .find d k => (stable c env d).bind (List.mapM (findBatch k))                  -- find.rs 67-70
  | .project d f => (stable c env d).bind (List.mapM (projectBatch f))            -- project.rs
  | .sorted d => (stable c env d).map (List.map sortedBatch)                      -- sorted.rs
  | .union d1 d2 => do some ((← stable c env d1) ++ (← stable c env d2))          -- union.rs 61-63
  | .intersect d1 d2 => do
    binaryBatches (fun a b => some (intersectBatch c a b)) (← stable c env d1) (← stable c env d2)   -- intersection.rs
  | .join d1 d2 => do binaryBatches (joinBatch c) (← stable c env d1) (← stable c env d2)            -- join.rs
  | .product d1 d2 => do
    binaryBatches (fun a b => some (productBatch c a b)) (← stable c env d1) (← stable c env d2)     -- product.rs 74-77
  | .difference _ _ => some []                                                    -- difference.rs 70-72
  | .antijoin d1 d2 => do binaryBatches (antijoinBatch c) (← stable c env d1) (← stable c env d2)    -- antijoin.rs 74-77
  | _ => none

/-- The three combinations of `iter_recent` of a binary operator, in the order of the static runtime (`join.rs`, `antijoin.rs` 79-89, `product.rs` 79-89). -/
def recentBinary (f : Batch V T → Batch V T → Option (Batch V T)) (s1 r1 s2 r2 : Option (List (Batch V T))) : Option (List (Batch V T)) := do
  let a ← binaryBatches f (← r1) (← s2)
  let b ← binaryBatches f (← s1) (← r2)
  let d ← binaryBatches f (← r1) (← r2)
  some (a ++ b ++ d)

/-- Models `iter_recent` of the dataflows `to_rs_dataflow` generates. Only the recent batch of a relation gallops (`dataflow/relation.rs` 23-28, 192-222). -/
def recent (c : Prov T W) (env : Env V T ι κ) : DF V ι κ → Option (List (Batch V T))
  | .unit t => some (if env.first then [⟨[⟨t, c.one⟩], false⟩] else [])
  | .rel i => some [⟨(env.rel i).recent, true⟩]
  | .input j => some (if env.first then [⟨env.input j, false⟩] else [])
  | .filter d p => (recent c env d).map (List.map (filterBatch p))
  | .find d k => (recent c env d).bind (List.mapM (findBatch k))
  | .project d f => (recent c env d).bind (List.mapM (projectBatch f))
  | .sorted d => (recent c env d).map (List.map sortedBatch)
  | .union d1 d2 => do some ((← recent c env d1) ++ (← recent c env d2))
  | .intersect d1 d2 => recentBinary (fun a b => some (intersectBatch c a b)) (stable c env d1) (recent c env d1) (stable c env d2) (recent c env d2)
  | .join d1 d2 => recentBinary (joinBatch c) (stable c env d1) (recent c env d1) (stable c env d2) (recent c env d2)
  | .product d1 d2 => recentBinary (fun a b => some (productBatch c a b)) (stable c env d1) (recent c env d1) (stable c env d2) (recent c env d2)
  | .difference d1 d2 => recentBinary (fun a b => some (differenceBatch c a b)) (stable c env d1) (recent c env d1) (stable c env d2) (recent c env d2)
  | .antijoin d1 d2 => recentBinary (antijoinBatch c) (stable c env d1) (recent c env d1) (stable c env d2) (recent c env d2)
  | _ => none

/-! ## A stratum -/

/-- A stratum of a compiled program (`ram2rs.rs` 240-312): the collections of earlier strata, the batches of facts of each relation (those of the program and those of the database,
243-268), the rules. -/
structure Stratum (V T ι κ : Type*) where
  input : κ → List (Elem (Tup V) T)
  facts : ι → List (List (Elem (Tup V) T))
  updates : List (ι × DF V ι κ)

/-- Creating the relations and inserting the facts (`ram2rs.rs` 243-268; `statics/relation.rs` 79-85: without discarding). -/
def Stratum.init (c : Prov T W) (p : Stratum V T ι κ) : IterState V T ι := ⟨0, fun i => Relation.new.insertBatches c false (p.facts i)⟩

section loop
variable [Fintype ι] [DecidableEq ι]

/-- Models `StaticIteration::changed` (`iteration.rs` 34-42). -/
def changedAll (c : Prov T W) (rel : ι → Relation (Tup V) T) : (ι → Relation (Tup V) T) × Bool :=
  (fun i => (changed c (rel i)).1, decide (∃ i, (changed c (rel i)).2 = true))

/-- One generated update (`ram2rs.rs` 320-324): `insert_dataflow` (`iteration.rs` 53-59), which always discards early (22). -/
def applyUpdate (c : Prov T W) (p : Stratum V T ι κ) (first : Bool) (rel : ι → Relation (Tup V) T) (u : ι × DF V ι κ) : Option (ι → Relation (Tup V) T) :=
  (recent c ⟨rel, p.input, first⟩ u.2).map (fun bs => Function.update rel u.1 ((rel u.1).insertBatches c true (bs.map Batch.elems)))

/-- The loop of `run_stratum` (`ram2rs.rs` 304-307), for at most the given number of turns. -/
def runLoop (c : Prov T W) (p : Stratum V T ι κ) : Nat → IterState V T ι → RunResult V T ι
  | 0, _ => .outOfFuel
  | fuel + 1, s =>
    let x := changedAll c s.rel
    if x.2 || s.num == 0 then
      match p.updates.foldlM (applyUpdate c p (s.num == 0)) x.1 with
      | none => .panic
      | some rel => runLoop c p fuel ⟨s.num + 1, rel⟩
    else .done ⟨s.num, x.1⟩

/-- Models `run_stratum` up to the `complete` of each relation. -/
def Stratum.run (c : Prov T W) (p : Stratum V T ι κ) (fuel : Nat) : RunResult V T ι := runLoop c p fuel (p.init c)

end loop

end Scallop.Statics
