import Verif.Model.Dataflow
import Mathlib.Data.Fintype.Basic

/-!
# Fixpoint iteration of one stratum

Models `/repo/core/src/runtime/dynamic/iteration.rs` (`run`, `need_to_iterate`, `changed`) and the set-up in
`/repo/core/src/runtime/dynamic/incremental.rs` (`execute_stratum` 216-327). The dynamic relations of the stratum are the elements
of a finite type `ι`, the input collections those of `κ`. Dynamic entities (side effects of entity-creating expressions) and
monitors are not modelled.
-/

namespace Scallop

variable {V T W ι κ : Type*} [LinearOrder V] [LinearOrder W] [Fintype ι] [DecidableEq ι]

/-- What `execute_stratum` puts into a `DynamicIteration` (`incremental.rs` 239-318) and the settings read from the runtime
environment (`env/environment.rs` 27, `env/stopping_criteria.rs`, `env/scheduling.rs`). `sched` gives each relation its own scheduler
or the default one (`iteration.rs` 273-278). -/
structure Stratum (V T ι κ : Type*) where
  input : κ → List (Elem (Tup V) T)
  edb : ι → Option (List (Elem (Tup V) T))
  updates : List (ι × DF V ι κ)
  sched : ι → Scheduler
  goals : List ι
  iterLimit : Option Nat
  stopAtGoal : Bool
  earlyDiscard : Bool

/-- Models the mutable part of `struct DynamicIteration` (`iteration.rs` 12-20). -/
structure IterState (V T ι : Type*) where
  num : Nat
  rel : ι → Relation (Tup V) T

/-- Models creating the relations and loading their facts (`incremental.rs` 275-311). -/
def Stratum.init (c : Prov T W) (p : Stratum V T ι κ) : IterState V T ι where
  num := 0
  rel := fun i =>
    match p.edb i with
    | some facts => Relation.new.insertBatches c p.earlyDiscard [facts]
    | none => Relation.new

/-- Models `DynamicIteration::changed` (`iteration.rs` 270-286): every relation takes a step, also after one has changed. `none` is
a panic in some relation. -/
def changedAll (c : Prov T W) (sched : ι → Scheduler) (rel : ι → Relation (Tup V) T) :
    Option ((ι → Relation (Tup V) T) × Bool) :=
  if h : ∀ i, ((rel i).changed c (sched i)).isSome then
    some (fun i => (((rel i).changed c (sched i)).get (h i)).1, decide (∃ i, (((rel i).changed c (sched i)).get (h i)).2 = true))
  else none

/-- Models `derived_non_empty_goal_relation` (`iteration.rs` 259-268). -/
def goalReached (goals : List ι) (rel : ι → Relation (Tup V) T) : Bool :=
  !goals.isEmpty && goals.all (fun i => !(rel i).recent.isEmpty)

/-- Models `need_to_iterate` (`iteration.rs` 143-175). -/
def needToIterate (c : Prov T W) (p : Stratum V T ι κ) (s : IterState V T ι) : Option (IterState V T ι × Bool) :=
  match changedAll c p.sched s.rel with
  | none => none
  | some (rel, ch) =>
    if ch || s.num == 0 then
      if p.iterLimit.any (fun n => decide (s.num > n)) then
        (changedAll c p.sched rel).map (fun r => (⟨s.num, r.1⟩, false))
      else if p.stopAtGoal && goalReached p.goals rel then
        (changedAll c p.sched rel).map (fun r => (⟨s.num, r.1⟩, false))
      else some (⟨s.num, rel⟩, true)
    else if p.iterLimit.any (fun n => decide (s.num < n)) then some (⟨s.num, rel⟩, true)
    else some (⟨s.num, rel⟩, false)

/-- One `insert_dataflow_recent` (`relation.rs` 192-206) of an update into its target (`iteration.rs` 102-107). -/
def applyUpdate (c : Prov T W) (p : Stratum V T ι κ) (first : Bool) (rel : ι → Relation (Tup V) T) (u : ι × DF V ι κ) :
    Option (ι → Relation (Tup V) T) :=
  (u.2.recent c ⟨rel, p.input, first⟩).map (fun bs =>
    Function.update rel u.1 ((rel u.1).insertBatches c p.earlyDiscard (bs.map Batch.elems)))

/-- The body of the loop in `run` (`iteration.rs` 100-113). -/
def iterBody (c : Prov T W) (p : Stratum V T ι κ) (s : IterState V T ι) : Option (IterState V T ι) :=
  (p.updates.foldlM (applyUpdate c p (s.num == 0)) s.rel).map (fun rel => ⟨s.num + 1, rel⟩)

/-- Outcome of running the loop for a bounded number of turns. -/
inductive RunResult (V T ι : Type*) where
  | outOfFuel
  | panic
  | done (s : IterState V T ι)

/-- Models the `while` loop of `run` (`iteration.rs` 98-114), for at most the given number of turns. -/
def runLoop (c : Prov T W) (p : Stratum V T ι κ) : Nat → IterState V T ι → RunResult V T ι
  | 0, _ => .outOfFuel
  | fuel + 1, s =>
    match needToIterate c p s with
    | none => .panic
    | some (s', false) => .done s'
    | some (s', true) =>
      match iterBody c p s' with
      | none => .panic
      | some s'' => runLoop c p fuel s''

/-- Models `run` (`iteration.rs` 98-123) up to the generation of the result, which is `complete` of each output relation. -/
def Stratum.run (c : Prov T W) (p : Stratum V T ι κ) (fuel : Nat) : RunResult V T ι := runLoop c p fuel (p.init c)

end Scallop
