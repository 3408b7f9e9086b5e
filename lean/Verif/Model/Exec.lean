import Verif.Model.IndexedVec
import Verif.Model.Iteration
import Verif.Model.Group
import Verif.Model.Ram
import Mathlib.Data.Fintype.Sets

/-!
# Execution of programs

Models `/repo/core/src/runtime/dynamic/incremental.rs` (110-327, 674-724), the construction of dataflows in
`/repo/core/src/runtime/dynamic/iteration.rs` (288-468) and the output of a stratum (115-123).

Simplifications. Every relation is declared in exactly one stratum. The state of the provenance context does not change while a stratum is
executed: the tags of the results of foreign predicates and of exclusions are given. Panics inside expressions are not looked at here (a tuple on which
an expression panics is dropped, as one on which it is undefined); the dataflows of a stratum are built once, before the first iteration, so
that a panic of the construction is reported even if the loop would stop before it. Internalization of strings, dynamic entities and monitors are
not modelled.
-/

namespace Scallop.Exec

open Scallop.Ram

variable {F T W : Type}

/-- The parts of the runtime environment (`runtime/env/environment.rs`) and of the provenance context that execution looks at. `fps` is the
registry of foreign predicates: from the values of the bound arguments to tags and values of the free ones. `aggs` is the registry of aggregators
with their parameters. `excl` is the tag given to an alternative of an exclusion, by the tuple and the alternative
(`dynamic_exclusion.rs` 134-157). -/
structure Runtime (F T : Type) where
  X : Ext F
  fps : String → Option (List (Val F) → List (T × List (Val F)))
  aggs : String → Option (Agg.Aggregator (Val F) T)
  excl : Tup (Val F) → Tup (Val F) → T
  sched : Scheduler
  iterLimit : Option Nat
  stopAtGoal : Bool
  earlyDiscard : Bool

/-- What `ram::Relation` (`compiler/ram/ast.rs` 126-180) says about a relation. -/
structure Decl where
  hidden : Bool
  immutable : Bool
  goal : Bool
  sched : Option Scheduler
  indexed : Bool

/-- Models `ram::Program` (`compiler/ram/ast.rs` 19-26) with the declarations of its relations. -/
structure Program (F : Type) where
  strata : List (Ram.Stratum F)
  decl : String → Decl

/-- Input collections by name, and elements that belong to no collection: results of aggregations and foreign predicates, exclusions. -/
abbrev Key (F T : Type) := String ⊕ Elem (Tup (Val F)) T

/-- The tuple of the results of a foreign predicate (`Tuple::from`). -/
def valuesTuple (vs : List (Val F)) : Tup (Val F) := .tup (vs.map .val)

/-- The arguments of a foreign predicate (`foreign_predicate/constraint.rs` 95-103, `join.rs` 137-146); `none` is a panic. -/
def fpArgs (es : List (Expr F)) (t : Tup (Val F)) : Option (List (Val F)) :=
  es.mapM (fun e => match e with
    | .access a => (t.atPath a).bind (fun u => match u with | .val v => some v | .tup _ => none)
    | .const v => some v
    | _ => none)

/-- Evaluation of a condition (`filter.rs` 57-67). -/
def holds (X : Ext F) (e : Expr F) (t : Tup (Val F)) : Bool :=
  match e.eval X t with
  | .ok (.val (.bool true)) => true
  | _ => false

/-- Evaluation of a projection (`project.rs` 68-78). -/
def evalTo (X : Ext F) (e : Expr F) (t : Tup (Val F)) : Option (Tup (Val F)) :=
  match e.eval X t with
  | .ok u => some u
  | _ => none

/-- Looking up one index of an indexed vector (`join_indexed_vec.rs` 79-92); `none` is a panic. -/
def indexedLookup (vec : List (Slot F T)) (t : Tup (Val F)) : Option (List (Tup (Val F) × Key F T)) :=
  (t.at? 0).bind (fun k => (asUsize k).bind (fun i =>
    match vec[i]? with
    | some (some (tail, tag)) => (t.at? 1).map (fun a => [(.tup [k, a, tail], .inr ⟨tail, tag⟩)])
    | _ => some []))

/-- The check of a foreign predicate without free arguments (`foreign_predicate/constraint.rs` 89-124); `none` is a panic. -/
def fpCheck (f : List (Val F) → List (T × List (Val F))) (es : List (Expr F)) (t : Tup (Val F)) : Option (List (Tup (Val F) × Key F T)) :=
  (fpArgs es t).bind (fun vs =>
    match f vs with
    | [] => some []
    | [r] => some [(t, .inr ⟨valuesTuple r.2, r.1⟩)]
    | _ => none)

/-- The results of a foreign predicate for one tuple (`foreign_predicate/join.rs` 113-160); `none` is a panic. -/
def fpResults (f : List (Val F) → List (T × List (Val F))) (es : List (Expr F)) (t : Tup (Val F)) : Option (List (Tup (Val F) × Key F T)) :=
  (fpArgs es t).map (fun vs => (f vs).map (fun r => (.tup [t, valuesTuple r.2], .inr ⟨valuesTuple r.2, r.1⟩)))

variable [LinearOrder (Val F)]

/-- The batches of an aggregation in the first iteration (`iteration.rs` 440-460): `build_dynamic_collection` (464-467) looks only at input
collections. `none` is a panic. -/
def reduceBatches (c : Prov T W) (agg : Agg.Aggregator (Val F) T) (inp : String → Option (Coll F T)) (p : String) :
    GroupBy → Option (List (List (Elem (Tup (Val F)) T)))
  | .none => (inp p).bind (fun a => Agg.singleGroup agg [a.elems])
  | .implicit => (inp p).bind (fun a => Agg.implicitGroup agg [a.elems])
  | .join g => (inp p).bind (fun a => (inp g).bind (fun b => Agg.joinGroup c agg [b.elems] [a.elems]))

/-- Models `build_dynamic_dataflow` (`iteration.rs` 323-462); `inp` are the input collections, `D` the dynamic relations; `none` is a panic. -/
def build (c : Prov T W) (R : Runtime F T) (inp : String → Option (Coll F T)) (D : List String) :
    Ram.Dataflow F → Option (DF (Val F) {r // r ∈ D} (Key F T))
  | .leaf (.unit t) => some (.unit t)
  | .leaf (.untagged ts) => some (.untagged ts)
  | .leaf (.rel r) => if (inp r).isSome then some (.input (.inl r)) else if h : r ∈ D then some (.rel ⟨r, h⟩) else none
  | .leaf (.reduce a p g) =>
    (R.aggs a).bind (fun agg => (reduceBatches c agg inp p g).map (fun bs => .once (bs.map (List.map Sum.inr))))
  | .leaf (.foreign n vs) => (R.fps n).map (fun f => .listed ((f vs).map (fun r => .inr ⟨valuesTuple r.2, r.1⟩)))
  | .un (.filter e) d => (build c R inp D d).map (fun d' => .filter d' (holds R.X e))
  | .un (.find k) d => (build c R inp D d).map (fun d' => .find d' k)
  | .un .sorted d => (build c R inp D d).map .sorted
  | .un (.joinIndexedVec r) d =>
    (build c R inp D d).bind (fun d' =>
      match inp r with
      | some (.indexed _ vec) => some (.expand d' (indexedLookup vec))
      | _ => none)
  | .un .overwriteOne d => (build c R inp D d).map .overwriteOne
  | .un (.exclusion ts) d => (build c R inp D d).map (fun d' => .expand d' (fun t => some (ts.map (fun u => (.tup [t, u], .inr ⟨u, R.excl t u⟩)))))
  | .un (.foreignConstraint n es) d => (R.fps n).bind (fun f => (build c R inp D d).map (fun d' => .expand d' (fpCheck f es)))
  | .un (.foreignJoin n es) d => (R.fps n).bind (fun f => (build c R inp D d).map (fun d' => .expand d' (fpResults f es)))
  | .bin o d1 d2 => (build c R inp D d1).bind (fun e1 => (build c R inp D d2).map (fun e2 =>
      match o with
      | .union => .union e1 e2
      | .join => .join e1 e2
      | .intersect => .intersect e1 e2
      | .product => .product e1 e2
      | .antijoin => .antijoin e1 e2
      | .difference => .difference e1 e2))
  | .project d e => (build c R inp D d).map (fun d' => .project d' (evalTo R.X e))

omit [LinearOrder (Val F)] in
/-- The contents of the input collections. Names without a collection are never looked at: `build` panics on them. -/
def inputOf (inp : String → Option (Coll F T)) : Key F T → List (Elem (Tup (Val F)) T)
  | .inl r =>
    match inp r with
    | some a => a.elems
    | none => []
  | .inr e => [e]

omit [LinearOrder (Val F)] in
/-- Models `Dataflow::collect_dependency` (`compiler/ram/dependency.rs` 68-138). -/
def flowDeps : Ram.Dataflow F → List String
  | .leaf (.unit _) | .leaf (.untagged _) | .leaf (.foreign _ _) => []
  | .leaf (.rel r) => [r]
  | .leaf (.reduce _ p (.join g)) => [p, g]
  | .leaf (.reduce _ p _) => [p]
  | .un (.joinIndexedVec r) d => r :: flowDeps d
  | .un _ d => flowDeps d
  | .bin _ d1 d2 => flowDeps d1 ++ flowDeps d2
  | .project d _ => flowDeps d

omit [LinearOrder (Val F)] in
/-- Models `Stratum::dependency` (`compiler/ram/dependency.rs` 50-57). -/
def stratumDeps (st : Ram.Stratum F) : List String :=
  (st.updates.flatMap (fun u => flowDeps u.flow)).filter (fun r => decide (r ∉ st.relations))

omit [LinearOrder (Val F)] in
/-- All relations of a program (`Program::relations`, `compiler/ram/ast.rs` 54-56). -/
def Program.relations (P : Program F) : List String := P.strata.flatMap Ram.Stratum.relations

omit [LinearOrder (Val F)] in
/-- Whether a relation is read by another stratum, which puts it among the outputs of its stratum (`incremental.rs` 697-701). -/
def Program.readLater (P : Program F) (r : String) : Bool := P.strata.any (fun st => decide (r ∈ stratumDeps st))

omit [LinearOrder (Val F)] in
/-- Models `relation_lifespan` (`incremental.rs` 707): the last stratum that reads the relation. -/
def Program.lifespan (P : Program F) (r : String) : Option Nat :=
  (P.strata.zipIdx.filter (fun q => decide (r ∈ stratumDeps q.1))).getLast?.map Prod.snd

/-- What running a computation that may not terminate can give. -/
inductive Run (α : Type*) where
  | outOfFuel
  | panic
  | done (a : α)

namespace Run
variable {α β : Type*}
/-- Sequencing. -/
def bind : Run α → (α → Run β) → Run β
  | .outOfFuel, _ => .outOfFuel
  | .panic, _ => .panic
  | .done a, f => f a
/-- A computation that only can panic. -/
def ofOption : Option α → Run α
  | none => .panic
  | some a => .done a
end Run

/-- The contents of a database. -/
abbrev Db (F T : Type) := String → Option (Coll F T)

omit [LinearOrder (Val F)] in
/-- The input collections of a stratum (`incremental.rs` 241-273). With incremental maintenance these are the immutable relations of the extensional
database and all of the intentional database; without, the immutable relations of the stratum and the relations the stratum reads, of which each has
to exist. Later additions under the same name replace earlier ones. `none` is a panic. -/
def stratumInputs (P : Program F) (incremental : Bool) (st : Ram.Stratum F) (edb idb : Db F T) : Option (Db F T) :=
  if incremental then
    some (fun r => match idb r with
      | some a => some a
      | none => if decide (r ∈ P.relations) && (P.decl r).immutable then edb r else none)
  else if (st.relations.filter (fun r => (P.decl r).immutable)).all (fun r => (edb r).isSome) &&
      (stratumDeps st).all (fun r => if (P.decl r).immutable then (edb r).isSome else (idb r).isSome) then
    some (fun r =>
      if r ∈ stratumDeps st then (if (P.decl r).immutable then edb r else idb r)
      else if decide (r ∈ st.relations) && (P.decl r).immutable then edb r
      else none)
  else none

omit [LinearOrder (Val F)] in
/-- The relations of a stratum that are to be computed (`incremental.rs` 226-231). -/
def dynRelas (st : Ram.Stratum F) (idb : Db F T) : List String := st.relations.filter (fun r => (idb r).isNone)

omit [LinearOrder (Val F)] in
/-- Those for which dynamic relations are created (`incremental.rs` 277-281). -/
def created (P : Program F) (st : Ram.Stratum F) (idb : Db F T) : List String := (dynRelas st idb).filter (fun r => !(P.decl r).immutable)

/-- The iteration that is set up for a stratum (`incremental.rs` 239-320); `none` is a panic. The scheduler of a relation is its own or the default
(`iteration.rs` 273-278). -/
def setUp (c : Prov T W) (R : Runtime F T) (P : Program F) (incremental : Bool) (st : Ram.Stratum F) (edb idb : Db F T) :
    Option (Stratum (Val F) T {r // r ∈ created P st idb} (Key F T)) :=
  (stratumInputs P incremental st edb idb).bind (fun inp =>
    ((st.updates.filter (fun u => decide (u.target ∈ dynRelas st idb))).mapM (fun u =>
      if h : u.target ∈ created P st idb then
        (build c R inp (created P st idb) u.flow).map (fun d => ((⟨u.target, h⟩ : {r // r ∈ created P st idb}), d))
      else none)).map (fun us =>
        { input := inputOf inp
          edb := fun r => (edb r.1).map Coll.elems
          updates := us
          sched := fun r => (P.decl r.1).sched.getD R.sched
          goals := (created P st idb).attach.filter (fun r => (P.decl r.1).goal)
          iterLimit := R.iterLimit
          stopAtGoal := R.stopAtGoal
          earlyDiscard := R.earlyDiscard }))

omit [LinearOrder (Val F)] in
/-- Whether a relation is among the results of its stratum (`incremental.rs` 284-293). -/
def isOutput (P : Program F) (incremental : Bool) (r : String) : Bool := incremental || P.readLater r || !(P.decl r).hidden

/-- The results of a stratum (`iteration.rs` 116-122); `none` is a failed assertion of `complete` or a panic of the storage. -/
def stratumResult [LinearOrder W] (c : Prov T W) (P : Program F) (incremental : Bool) {D : List String} (s : IterState (Val F) T {r // r ∈ D}) :
    Option (List (String × Coll F T)) :=
  (D.attach.filter (fun r => isOutput P incremental r.1)).mapM (fun r =>
    ((s.rel r).complete c).bind (fun l => (Coll.make c (P.decl r.1).indexed l).map (fun a => (r.1, a))))

/-- Models `execute_stratum` (`incremental.rs` 216-327). -/
def execStratum [LinearOrder W] (c : Prov T W) (R : Runtime F T) (P : Program F) (incremental : Bool) (fuel : Nat) (st : Ram.Stratum F)
    (edb idb : Db F T) : Run (List (String × Coll F T)) :=
  if (dynRelas st idb).isEmpty then .done []
  else
    (Run.ofOption (setUp c R P incremental st edb idb)).bind (fun p =>
      match p.run c fuel with
      | .outOfFuel => .outOfFuel
      | .panic => .panic
      | .done s => Run.ofOption (stratumResult c P incremental s))

omit [LinearOrder (Val F)] in
/-- Whether the result of stratum `i` is kept (`incremental.rs` 170-180). -/
def kept (P : Program F) (i : Nat) (r : String) : Bool :=
  if (P.decl r).hidden then
    match P.lifespan r with
    | some j => decide (j > i)
    | none => true
  else true

omit [LinearOrder (Val F)] in
/-- Models `IntentionalDatabase::extend` (`intentional/database.rs` 53-58). -/
def extendDb (idb : Db F T) (rs : List (String × Coll F T)) : Db F T := fun r =>
  match rs.lookup r with
  | some a => some a
  | none => idb r

/-- Models the loop over the strata (`incremental.rs` 165-181). -/
def execStrata [LinearOrder W] (c : Prov T W) (R : Runtime F T) (P : Program F) (incremental : Bool) (fuel : Nat) (edb : Db F T) :
    Nat → List (Ram.Stratum F) → Db F T → Run (Db F T)
  | _, [], idb => .done idb
  | i, st :: rest, idb =>
    (execStratum c R P incremental fuel st edb idb).bind (fun rs =>
      execStrata c R P incremental fuel edb (i + 1) rest (extendDb idb (rs.filter (fun q => kept P i q.1))))

omit [LinearOrder (Val F)] in
/-- Models `tap_relation` for all immutable relations (`incremental.rs` 157-162, `extensional/database.rs` 113-115): a relation that does not exist is
created with the default storage. -/
def tapAll (P : Program F) (edb : Db F T) : Db F T := fun r =>
  match edb r with
  | some a => some a
  | none => if decide (r ∈ P.relations) && (P.decl r).immutable then some (.sorted []) else none

omit [LinearOrder (Val F)] in
/-- The relations that only are in the extensional database (`incremental.rs` 186-203), for the intentional database. -/
def copyOutputs (P : Program F) (edb idb : Db F T) : Db F T := fun r =>
  match idb r with
  | some a => some a
  | none => if decide (r ∈ P.relations) && !(P.decl r).hidden then edb r else none

/-- Models `incremental_execute_helper` after the extensional database has been internalized (`incremental.rs` 154-203), with the part of the
intentional database that is kept. A relation that is read and belongs to no stratum is a panic (`incremental.rs` 698). -/
def executeFrom [LinearOrder W] (c : Prov T W) (R : Runtime F T) (P : Program F) (incremental : Bool) (fuel : Nat) (edb idb : Db F T) : Run (Db F T) :=
  if P.strata.all (fun st => (stratumDeps st).all (fun r => decide (r ∈ P.relations))) then
    (execStrata c R P incremental fuel (tapAll P edb) 0 P.strata idb).bind (fun idb' => .done (copyOutputs P (tapAll P edb) idb'))
  else .panic

end Scallop.Exec
