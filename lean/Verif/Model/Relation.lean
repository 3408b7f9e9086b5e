import Verif.Model.Scheduler

/-!
# Dynamic relations

Models `/repo/core/src/runtime/dynamic/relation.rs`.
-/

namespace Scallop

variable {α T W : Type*} [LinearOrder α]

/-- Models `struct DynamicRelation` (`relation.rs` 12-26). Vectors are lists; the last batch of `stable` and `to_add` is the
last element of the list. -/
structure Relation (α T : Type*) where
  stable : List (List (Elem α T))
  recent : List (Elem α T)
  toAdd : List (List (Elem α T))
  waitlist : List (Elem α T)
deriving DecidableEq

/-- Models `DynamicRelation::new` (`relation.rs` 29-36). -/
def Relation.new : Relation α T := ⟨[], [], [], []⟩

/-- Models `insert_tagged` (`relation.rs` 104-117) after tagging: one more pending batch built with `from_vec`. -/
def Relation.insertTagged (c : Prov T W) (r : Relation α T) (data : List (Elem α T)) : Relation α T :=
  { r with toAdd := r.toAdd ++ [fromVec c data] }

/-- The loop of step 1 of `changed` (`relation.rs` 160-163) on the reversed stable list: while the last stable batch has at most
twice the size of `recent`, merge it into `recent`; then push (164). -/
def mergeIntoStable (c : Prov T W) : List (Elem α T) → List (List (Elem α T)) → List (List (Elem α T))
  | recent, [] => [recent]
  | recent, b :: bs =>
    if b.length ≤ 2 * recent.length then mergeIntoStable c (merge c recent b) bs else recent :: b :: bs

/-- Step 2 of `changed` (`relation.rs` 168-176), on the reversed list of pending batches. -/
def condense (c : Prov T W) : List (List (Elem α T)) → List (Elem α T)
  | [] => []
  | b :: bs => bs.foldl (merge c) b

/-- Models `DynamicRelation::changed` (`relation.rs` 156-190). Returns the new relation and whether it changed. -/
def Relation.changed [LinearOrder W] (c : Prov T W) (s : Scheduler) (r : Relation α T) : Option (Relation α T × Bool) :=
  let stable := if r.recent.isEmpty then r.stable else (mergeIntoStable c r.recent r.stable.reverse).reverse
  let toAdd := condense c r.toAdd.reverse
  (s.schedule c toAdd r.waitlist stable).map (fun x =>
    (⟨x.stable, x.toAdd, [], x.waitlist⟩, !x.toAdd.isEmpty))

/-- Models `insert_dataflow_recent` and `insert_dataflow_stable` (`relation.rs` 192-222) for the batches produced by the dataflow:
each batch, filtered when early discarding is on, becomes a pending batch. -/
def Relation.insertBatches (c : Prov T W) (earlyDiscard : Bool) (r : Relation α T) (batches : List (List (Elem α T))) :
    Relation α T :=
  { r with toAdd := r.toAdd ++ batches.map (fun b =>
      fromVec c (if earlyDiscard then b.filter (fun e => !c.discard e.tag) else b)) }

/-- Models `complete` (`relation.rs` 224-232): both assertions, then pop-merge all stable batches. `none` is a failed assertion. -/
def Relation.complete (c : Prov T W) (r : Relation α T) : Option (List (Elem α T)) :=
  if r.recent.isEmpty && r.toAdd.isEmpty then some (r.stable.reverse.foldl (merge c) []) else none

end Scallop
