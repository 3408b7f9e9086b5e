import Verif.Model.Context

/-!
# Execution with monitors

Models the second version of execution, which is used when a monitor is given or loaded: `run_with_monitor` and `need_to_iterate_with_monitor`
(`/repo/core/src/runtime/dynamic/iteration.rs` 177-257), `execute_stratum_with_monitor` and `incremental_execute_with_monitor_helper`
(`/repo/core/src/runtime/dynamic/incremental.rs` 351-606), `recover_with_monitor` (`/repo/core/src/runtime/database/intentional/{relation,database}.rs`,
`incremental.rs` 642-646) and `Interpreter::run_with_monitor` (`/repo/core/src/integrate/interpret.rs` 114-157), and
`/repo/core/src/runtime/monitor/dynamic_monitors.rs`. A monitor only looks at what it is shown, so that it is represented by the events it is shown.

Simplified: of the events only those of the loop and of the recovery of relations are kept. What is not modelled of the first version is not modelled here,
with one exception: entities that are created while updates are evaluated are given, as a function of the state in which they are evaluated.
-/

namespace Scallop

variable {V T W ι κ : Type*} [LinearOrder V] [LinearOrder W] [Fintype ι] [DecidableEq ι]

/-! ## The loop of a stratum -/

/-- What a monitor is shown by the loop (`monitor.rs` 11-25). -/
inductive LoopEvent where
  | iteration (n : Nat)
  | limit
  | goal
  | converging
  deriving DecidableEq

/-- Models `drain_dynamic_entities` (`iteration.rs` 126-141): the tuples of new entities are inserted into their relations. -/
def drainEntities (c : Prov T W) (p : Stratum V T ι κ) (first : Bool) (es : List (ι × List (Tup V))) (rel : ι → Relation (Tup V) T) :
    Option (ι → Relation (Tup V) T) :=
  es.foldlM (fun rel e => applyUpdate c p first rel (e.1, .untagged e.2)) rel

/-- The body of the loop in `run` (`iteration.rs` 100-113) with the entities that are created in it. -/
def iterBodyE (c : Prov T W) (p : Stratum V T ι κ) (ents : IterState V T ι → List (ι × List (Tup V))) (s : IterState V T ι) : Option (IterState V T ι) :=
  (iterBody c p s).bind (fun s' => (drainEntities c p (s.num == 0) (ents s) s'.rel).map (fun rel => ⟨s'.num, rel⟩))

/-- Models the loop of `run` (`iteration.rs` 98-114) with entities. -/
def runLoopE (c : Prov T W) (p : Stratum V T ι κ) (ents : IterState V T ι → List (ι × List (Tup V))) : Nat → IterState V T ι → RunResult V T ι
  | 0, _ => .outOfFuel
  | fuel + 1, s =>
    match needToIterate c p s with
    | none => .panic
    | some (s', false) => .done s'
    | some (s', true) =>
      match iterBodyE c p ents s' with
      | none => .panic
      | some s'' => runLoopE c p ents fuel s''

/-- Models `need_to_iterate_with_monitor` (`iteration.rs` 213-257). -/
def needToIterateM (c : Prov T W) (p : Stratum V T ι κ) (s : IterState V T ι) : Option (IterState V T ι × Bool × List LoopEvent) :=
  match changedAll c p.sched s.rel with
  | none => none
  | some (rel, ch) =>
    if ch || s.num == 0 then
      if p.iterLimit.any (fun n => decide (s.num > n)) then
        (changedAll c p.sched rel).map (fun r => (⟨s.num, r.1⟩, false, [.limit]))
      else if p.stopAtGoal && goalReached p.goals rel then
        (changedAll c p.sched rel).map (fun r => (⟨s.num, r.1⟩, false, [.goal]))
      else some (⟨s.num, rel⟩, true, [])
    else if p.iterLimit.any (fun n => decide (s.num < n)) then some (⟨s.num, rel⟩, true, [])
    else some (⟨s.num, rel⟩, false, [.converging])

/-- Models the loop of `run_with_monitor` (`iteration.rs` 186-203): entities are not looked at.  The events are those up to the end, or to a panic. -/
def runLoopM (c : Prov T W) (p : Stratum V T ι κ) : Nat → IterState V T ι → RunResult V T ι × List LoopEvent
  | 0, _ => (.outOfFuel, [])
  | fuel + 1, s =>
    match needToIterateM c p s with
    | none => (.panic, [])
    | some (s', false, es) => (.done s', es)
    | some (s', true, es) =>
      match iterBody c p s' with
      | none => (.panic, es ++ [.iteration s'.num])
      | some s'' =>
        let r := runLoopM c p fuel s''
        (r.1, es ++ [.iteration s'.num] ++ r.2)

/-- Models `run_with_monitor` (`iteration.rs` 177-211) up to the generation of the result. -/
def Stratum.runM (c : Prov T W) (p : Stratum V T ι κ) (fuel : Nat) : RunResult V T ι × List LoopEvent := runLoopM c p fuel (p.init c)

/-- What `DynamicMonitors` shows to each of its monitors (`dynamic_monitors.rs` 61-73): `observe_deriving_goal_relation` is not among its methods. -/
def forwarded (es : List LoopEvent) : List LoopEvent := es.filter (fun e => decide (e ≠ .goal))

end Scallop

namespace Scallop.Exec

open Scallop.Ram

variable {F T W I O : Type}

/-! ## Strata -/

/-- Whether a stratum is a key of `stratum_outputs` (`incremental.rs` 697-715): a relation of it is read by a stratum, or visible. -/
def hasOutputs (P : Program F) (st : Ram.Stratum F) : Bool := st.relations.any (fun r => P.readLater r || !(P.decl r).hidden)

section
variable [LinearOrder (Val F)]

/-- The iteration that is set up for a monitored stratum (`incremental.rs` 505-601); `none` is a panic.  The schedulers of relations are not added. -/
def setUpM (c : Prov T W) (R : Runtime F T) (P : Program F) (incremental : Bool) (st : Ram.Stratum F) (edb idb : Db F T) :
    Option (Stratum (Val F) T {r // r ∈ created P st idb} (Key F T)) :=
  (stratumInputs P incremental st edb idb).bind (fun inp =>
    ((st.updates.filter (fun u => decide (u.target ∈ dynRelas st idb))).mapM (fun u =>
      if h : u.target ∈ created P st idb then
        (build c R inp (created P st idb) u.flow).map (fun d => ((⟨u.target, h⟩ : {r // r ∈ created P st idb}), d))
      else none)).map (fun us =>
        { input := inputOf inp
          edb := fun r => (edb r.1).map Coll.elems
          updates := us
          sched := fun _ => R.sched
          goals := (created P st idb).attach.filter (fun r => (P.decl r.1).goal)
          iterLimit := R.iterLimit
          stopAtGoal := R.stopAtGoal
          earlyDiscard := R.earlyDiscard }))

/-- Models `execute_stratum_with_monitor` (`incremental.rs` 476-606).  Without incremental maintenance the outputs of the stratum are looked up for each relation that is
created (570), which panics if there are none. -/
def execStratumM [LinearOrder W] (c : Prov T W) (R : Runtime F T) (P : Program F) (incremental : Bool) (fuel : Nat) (st : Ram.Stratum F)
    (edb idb : Db F T) : Run (List (String × Coll F T)) :=
  if (dynRelas st idb).isEmpty then .done []
  else if !incremental && !(created P st idb).isEmpty && !hasOutputs P st then .panic
  else
    (Run.ofOption (setUpM c R P incremental st edb idb)).bind (fun p =>
      match (p.runM c fuel).1 with
      | .outOfFuel => .outOfFuel
      | .panic => .panic
      | .done s => Run.ofOption (stratumResult c P incremental s))

/-- Models the loop over the strata (`incremental.rs` 417-442). -/
def execStrataM [LinearOrder W] (c : Prov T W) (R : Runtime F T) (P : Program F) (incremental : Bool) (fuel : Nat) (edb : Db F T) :
    Nat → List (Ram.Stratum F) → Db F T → Run (Db F T)
  | _, [], idb => .done idb
  | i, st :: rest, idb =>
    (execStratumM c R P incremental fuel st edb idb).bind (fun rs =>
      execStrataM c R P incremental fuel edb (i + 1) rest (extendDb idb (rs.filter (fun q => kept P i q.1))))

/-- The strata are executed (`incremental.rs` 405-442). -/
def strataResultsM [LinearOrder W] (c : Prov T W) (R : Runtime F T) (P : Program F) (incremental : Bool) (fuel : Nat) (edb idb : Db F T) :
    Run (Db F T) :=
  if P.strata.all (fun st => (stratumDeps st).all (fun r => decide (r ∈ P.relations))) then execStrataM c R P incremental fuel edb 0 P.strata idb else .panic

end

/-- What a monitor is shown when relations are recovered (`monitor.rs` 46-56). -/
inductive RecoverEvent (F T O : Type) where
  | start (r : String)
  | fact (t : Tup (Val F)) (tag : T) (out : O)
  | finish (r : String)

namespace IRel

/-- The facts that are shown to the monitor (`intentional/relation.rs` 122-127, 130-135). -/
def observed (b : Boundary F T I O) (l : List (Elem (Tup (Val F)) T)) : List (RecoverEvent F T O) :=
  l.filterMap (fun e => (b.extern e.tuple).map (fun t => .fact t e.tag (b.recover e.tag)))

/-- Models `recover_with_monitor` (`intentional/relation.rs` 117-142). -/
def recoverM (b : Boundary F T I O) (drain : Bool) (r : IRel F T O) : IRel F T O × List (RecoverEvent F T O) :=
  if !r.recovered && !r.internal.elems.isEmpty then
    ({ internal := if drain then (match r.internal with | .sorted _ => .sorted [] | .indexed k _ => .indexed k []) else r.internal
       recovered := true
       facts := r.facts ++ shown b r.internal.elems }, observed b r.internal.elems)
  else (r, [])

end IRel

namespace Ctx

/-- Models `incremental_execute_with_monitor_helper` (`incremental.rs` 351-474).  Without a new program, an error of the facts of the program is a panic (389-392). -/
def executeM [LinearOrder (Val F)] [LinearOrder W] (c : Prov T W) (R : Runtime F T) (b : Boundary F T I O) (fuel : Nat) (new : Option (Compiled F I))
    (s : Ctx F T I O) : Run (Ctx F T I O × Bool) :=
  let P := new.getD s.program
  let old : String → Option (IRel F T O) := if new.isSome then fun _ => none else s.idb
  match s.edb.populate P P.relations with
  | (e, false) => if new.isSome then .done ({ s with program := noProgram, edb := e, idb := fun _ => none }, false) else .panic
  | (e, true) =>
    (Run.ofOption (e.internalize c b)).bind (fun e1 =>
      let e2 := e1.tap P.toProgram P.relations
      (strataResultsM c R P.toProgram s.incremental fuel e2.colls (fun r => (old r).map IRel.internal)).bind (fun db =>
        .done ({ s with
          program := P
          edb := if s.incremental then e2 else popOutputs P.toProgram db P.relations e2
          idb := fun r => match old r with
            | some x => some x
            | none => (copyOutputs P.toProgram e2.colls db r).map IRel.fresh }, true)))

/-- Models `DynamicExecutionContext::recover_with_monitor` (`incremental.rs` 642-646) with that of the database (`intentional/database.rs` 113-127). -/
def recoverM (b : Boundary F T I O) (s : Ctx F T I O) (r : String) : Ctx F T I O × List (RecoverEvent F T O) :=
  match s.idb r with
  | some x => ({ s with idb := fun q => if q = r then some (x.recoverM b (!s.retain)).1 else s.idb q }, [.start r] ++ (x.recoverM b (!s.retain)).2 ++ [.finish r])
  | none => (s, [])

/-- Models `computed_relation_with_monitor` (`integrate/context.rs` 721-730). -/
def readM (b : Boundary F T I O) (s : Ctx F T I O) (r : String) : Ctx F T I O × Option (List (O × Tup (Val F))) :=
  let s1 := (s.recoverM b r).1
  (s1, (s1.idb r).bind (fun x => if x.recovered then some x.facts else none))

/-- Models `Interpreter::run_with_monitor` (`integrate/interpret.rs` 114-157), simplified as `interpret`. -/
def interpretM [LinearOrder (Val F)] [LinearOrder W] (c : Prov T W) (R : Runtime F T) (b : Boundary F T I O) (fuel : Nat) (s : Ctx F T I O) :
    Run (Ctx F T I O × Bool) :=
  (executeM c R b fuel none s).bind (fun q =>
    if q.2 then
      .done ({ q.1 with idb := fun r => if (q.1.program.decl r).hidden || decide (r ∉ q.1.program.relations) then none
        else (q.1.idb r).map (fun x => (x.recoverM b true).1) }, true)
    else .done q)

end Ctx

end Scallop.Exec
