import Verif.Model.Exec

/-!
# Databases and execution contexts

Models `/repo/core/src/runtime/database/extensional/{relation,database}.rs`, `/repo/core/src/runtime/database/intentional/{relation,database}.rs`,
`DynamicExecutionContext` (`/repo/core/src/runtime/dynamic/incremental.rs`), and of `/repo/core/src/integrate/{context,interpret}.rs` the parts that add
facts, run a program and read relations.

Simplifications. The tag of a fact is a function of the tag it was given with, as are the internal and the external form of a tuple: the state of the
provenance context and of the symbol registry is not modelled. Dynamic and static input tags are one type. Facts are not loaded from files. The
compilation of programs is not part of this model: a run is given the compiled program. Monitors are not modelled.
-/

namespace Scallop.Exec

open Scallop.Ram

variable {F T W I O : Type}

/-- What the runtime environment and the provenance context say about facts that come in and go out (`internalize_tuple`, `externalize_tuple`,
`tagging_optional_fn`, `recover_fn`). -/
structure Boundary (F T I O : Type) where
  tag : Option I → T
  recover : T → O
  intern : Tup (Val F) → Option (Tup (Val F))
  extern : Tup (Val F) → Option (Tup (Val F))

/-- A fact with its input tag. -/
abbrev Fact (F I : Type) := Option I × Tup (Val F)

/-- Models `struct ExtensionalRelation` (`extensional/relation.rs` 19-44). Of the metadata only whether it is an indexed vector is kept. -/
structure ERel (F T I : Type) where
  indexed : Bool
  programFacts : List (Fact F I)
  internalizedProgramFacts : Bool
  dynamicInput : List (Fact F I)
  staticInput : List (Fact F I)
  internal : Coll F T
  internalized : Bool

namespace ERel

/-- Models `new_with_metadata` (`extensional/relation.rs` 57-69). -/
def new (indexed : Bool) : ERel F T I := ⟨indexed, [], false, [], [], Coll.empty indexed, false⟩

/-- Models `add_static_input_facts` (`extensional/relation.rs` 127-133). -/
def addStatic (r : ERel F T I) (fs : List (Fact F I)) : ERel F T I :=
  { r with internalized := r.internalized && fs.isEmpty, staticInput := r.staticInput ++ fs }

/-- Models `add_dynamic_input_facts` (`extensional/relation.rs` 119-125). -/
def addDynamic (r : ERel F T I) (fs : List (Fact F I)) : ERel F T I :=
  { r with internalized := r.internalized && fs.isEmpty, dynamicInput := r.dynamicInput ++ fs }

/-- The elements made of given facts (`extensional/relation.rs` 164-187): those that have no internal form are left out. -/
def elems (b : Boundary F T I O) (fs : List (Fact F I)) : List (Elem (Tup (Val F)) T) :=
  fs.filterMap (fun f => (b.intern f.2).map (fun t => ⟨t, b.tag f.1⟩))

/-- Models `internalize` (`extensional/relation.rs` 158-196): the facts of the program are added, again, each time; the others are moved. `none` is a
panic of the storage. -/
def internalize [LinearOrder (Val F)] (c : Prov T W) (b : Boundary F T I O) (r : ERel F T I) : Option (ERel F T I) :=
  (Coll.make c r.indexed (elems b r.programFacts ++ elems b r.dynamicInput ++ elems b r.staticInput ++ r.internal.elems)).map (fun a =>
    { r with
      internalizedProgramFacts := r.internalizedProgramFacts || !r.programFacts.isEmpty
      dynamicInput := []
      staticInput := []
      internal := a
      internalized := true })

end ERel

/-- A program with the facts it declares for its relations (`ram::Relation::facts`). -/
structure Compiled (F I : Type) extends Program F where
  facts : String → List (Fact F I)

/-- Models `struct ExtensionalDatabase` (`extensional/database.rs` 15-34). A type is the predicate it decides; the map of relations is a list of
pairs in which the first pair with a name counts. -/
structure Edb (F T I : Type) where
  typeCheck : Bool
  types : String → Option (Tup (Val F) → Bool)
  rels : List (String × ERel F T I)
  internalized : Bool

namespace Edb

/-- `extensional_relations.get`. -/
def get (e : Edb F T I) (r : String) : Option (ERel F T I) := e.rels.lookup r

/-- `extensional_relations.insert`. -/
def put (e : Edb F T I) (r : String) (x : ERel F T I) : Edb F T I := { e with rels := (r, x) :: e.rels.filter (fun q => decide (q.1 ≠ r)) }

/-- `extensional_relations.remove`. -/
def remove (e : Edb F T I) (r : String) : Edb F T I := { e with rels := e.rels.filter (fun q => decide (q.1 ≠ r)) }

/-- Models `check_tuples_type` (`extensional/database.rs` 278-306): whether the facts are accepted. -/
def accepts (e : Edb F T I) (r : String) (fs : List (Fact F I)) : Bool :=
  if e.typeCheck then
    match e.types r with
    | some ty => fs.all (fun f => ty f.2)
    | none => false
  else true

/-- Models `add_static_input_facts` (`extensional/database.rs` 153-166); `none` is an error. -/
def addStatic (e : Edb F T I) (r : String) (fs : List (Fact F I)) : Option (Edb F T I) :=
  if e.accepts r fs then some (e.put r (((e.get r).getD (ERel.new false)).addStatic fs)) else none

/-- Models `add_dynamic_input_facts` (`extensional/database.rs` 121-137); `none` is an error. -/
def addDynamic (e : Edb F T I) (r : String) (fs : List (Fact F I)) : Option (Edb F T I) :=
  if e.accepts r fs then some (e.put r (((e.get r).getD (ERel.new false)).addDynamic fs)) else none

/-- Models `populate_program_facts` for one relation (`extensional/database.rs` 213-234); the flag is false for an error. -/
def populateOne (P : Compiled F I) (e : Edb F T I) (r : String) : Edb F T I × Bool :=
  if (P.facts r).isEmpty then (e, true)
  else
    let x := (e.get r).getD (ERel.new (P.decl r).indexed)
    if x.internalizedProgramFacts && !x.programFacts.isEmpty && decide (x.programFacts.length < (P.facts r).length) then (e.put r x, false)
    else (e.put r { x with programFacts := x.programFacts ++ P.facts r }, true)

/-- Models the loop of `populate_program_facts` (`extensional/database.rs` 211-245): it ends with the first error. -/
def populate (P : Compiled F I) : List String → Edb F T I → Edb F T I × Bool
  | [], e => (e, true)
  | r :: rs, e =>
    match populateOne P e r with
    | (e', true) => populate P rs e'
    | (e', false) => (e', false)

/-- Models `internalize` (`extensional/database.rs` 262-267). -/
def internalize [LinearOrder (Val F)] (c : Prov T W) (b : Boundary F T I O) (e : Edb F T I) : Option (Edb F T I) :=
  (e.rels.mapM (fun (q : String × ERel F T I) => (q.2.internalize c b).map (fun x => (q.1, x)))).map (fun rels => { e with rels := rels, internalized := true })

/-- The collections of the relations (`get_dynamic_collection`, `extensional/database.rs` 182-184). -/
def colls (e : Edb F T I) : Db F T := fun r => (e.get r).map ERel.internal

/-- Models `tap_relation` (`extensional/database.rs` 113-115) for the immutable relations of the program (`incremental.rs` 157-162). -/
def tap (P : Program F) : List String → Edb F T I → Edb F T I
  | [], e => e
  | r :: rs, e => tap P rs (if (P.decl r).immutable && (e.get r).isNone then e.put r (ERel.new false) else e)

end Edb

/-- Models `struct IntentionalRelation` (`intentional/relation.rs` 8-20). -/
structure IRel (F T O : Type) where
  internal : Coll F T
  recovered : Bool
  facts : List (O × Tup (Val F))

namespace IRel

/-- Models `from_dynamic_collection` (`intentional/relation.rs` 66-73). -/
def fresh (a : Coll F T) : IRel F T O := ⟨a, false, []⟩

/-- What an element is shown as (`intentional/relation.rs` 98-102). -/
def shown (b : Boundary F T I O) (l : List (Elem (Tup (Val F)) T)) : List (O × Tup (Val F)) :=
  l.filterMap (fun e => (b.extern e.tuple).map (fun t => (b.recover e.tag, t)))

/-- Models `recover` (`intentional/relation.rs` 86-115). Draining leaves an empty collection. -/
def recover (b : Boundary F T I O) (drain : Bool) (r : IRel F T O) : IRel F T O :=
  if r.recovered then r
  else if r.internal.elems.isEmpty then { r with recovered := true }
  else
    { internal := if drain then (match r.internal with | .sorted _ => .sorted [] | .indexed k _ => .indexed k []) else r.internal
      recovered := true
      facts := r.facts ++ shown b r.internal.elems }

end IRel

/-- Models `struct DynamicExecutionContext` (`incremental.rs` 32-37) with its options (15-20). -/
structure Ctx (F T I O : Type) where
  incremental : Bool
  retain : Bool
  program : Compiled F I
  edb : Edb F T I
  idb : String → Option (IRel F T O)

namespace Ctx

/-- A program without relations (`ram::Program::new`). -/
def noProgram : Compiled F I := ⟨⟨[], fun _ => ⟨true, false, false, none, false⟩⟩, fun _ => []⟩

/-- Models `new_with_options` (`incremental.rs` 56-66) with the options `IntegrateContext` uses (`integrate/context.rs` 43-103): types are not checked by the
database. -/
def new (incremental retain : Bool) : Ctx F T I O := ⟨incremental, retain, noProgram, ⟨false, fun _ => none, [], false⟩, fun _ => none⟩

/-- Models `new_with_program_and_options` (`incremental.rs` 68-78), which `Interpreter` uses. -/
def withProgram (incremental retain typeCheck : Bool) (types : String → Option (Tup (Val F) → Bool)) (P : Compiled F I) : Ctx F T I O :=
  ⟨incremental, retain, P, ⟨typeCheck, types, [], false⟩, fun _ => none⟩

/-- Models `DynamicExecutionContext::add_facts` (`incremental.rs` 612-624): the result of the relation is dropped even if the facts are refused. -/
def addFacts (s : Ctx F T I O) (r : String) (fs : List (Fact F I)) : Ctx F T I O × Bool :=
  let s1 := if fs.isEmpty then s else { s with idb := fun q => if q = r then none else s.idb q }
  match s.edb.addStatic r fs with
  | some e => ({ s1 with edb := e }, true)
  | none => (s1, false)

/-- Models `IntegrateContext::add_facts` and `InternalIntegrateContext::add_facts` (`integrate/context.rs` 287-324, 612-648) with the type the relation is
declared with. -/
def addTyped (s : Ctx F T I O) (type : Option (Tup (Val F) → Bool)) (check : Bool) (r : String) (fs : List (Fact F I)) : Ctx F T I O × Bool :=
  if check then
    match type with
    | some ty => if fs.all (fun f => ty f.2) then s.addFacts r fs else (s, false)
    | none => (s, false)
  else s.addFacts r fs

/-- The visible relations that only are in the extensional database (`incremental.rs` 186-202) are taken out of it, unless maintenance is incremental. -/
def popOutputs (P : Program F) (idb : Db F T) : List String → Edb F T I → Edb F T I
  | [], e => e
  | r :: rs, e => popOutputs P idb rs (if !(P.decl r).hidden && (idb r).isNone then e.remove r else e)

/-- The strata are executed (`incremental.rs` 154-181), with the part of the intentional database that is kept. -/
def strataResults [LinearOrder (Val F)] [LinearOrder W] (c : Prov T W) (R : Runtime F T) (P : Program F) (incremental : Bool) (fuel : Nat) (edb idb : Db F T) :
    Run (Db F T) :=
  if P.strata.all (fun st => (stratumDeps st).all (fun r => decide (r ∈ P.relations))) then execStrata c R P incremental fuel edb 0 P.strata idb else .panic

/-- Models `incremental_execute_helper` (`incremental.rs` 110-214), with a new program (`incremental_execute`) or without (`execute`). The program and the
results are taken out of the context first: an error leaves it without them, and `persistent_relations` (`compiler/ram/incremental.rs` 14-75) compares
the new program with the empty one that has been put in place, so that it keeps nothing. Relations that are kept are not computed, so that no result
replaces one. The flag is false for an error. -/
def execute [LinearOrder (Val F)] [LinearOrder W] (c : Prov T W) (R : Runtime F T) (b : Boundary F T I O) (fuel : Nat) (new : Option (Compiled F I))
    (s : Ctx F T I O) : Run (Ctx F T I O × Bool) :=
  let P := new.getD s.program
  let old : String → Option (IRel F T O) := if new.isSome then fun _ => none else s.idb
  match s.edb.populate P P.relations with
  | (e, false) => .done ({ s with program := noProgram, edb := e, idb := fun _ => none }, false)
  | (e, true) =>
    (Run.ofOption (e.internalize c b)).bind (fun e1 =>
      let e2 := e1.tap P.toProgram P.relations
      (strataResults c R P.toProgram s.incremental fuel e2.colls (fun r => (old r).map IRel.internal)).bind (fun db =>
        .done ({ s with
          program := P
          edb := if s.incremental then e2 else popOutputs P.toProgram db P.relations e2
          idb := fun r => match old r with
            | some x => some x
            | none => (copyOutputs P.toProgram e2.colls db r).map IRel.fresh }, true)))

/-- Models `DynamicExecutionContext::recover` (`incremental.rs` 630-640) with `recover_from_edb` (`intentional/database.rs` 79-103). -/
def recover (b : Boundary F T I O) (s : Ctx F T I O) (r : String) : Ctx F T I O :=
  match s.idb r with
  | some x => { s with idb := fun q => if q = r then some (x.recover b (!s.retain)) else s.idb q }
  | none =>
    match s.edb.get r with
    | some x => { s with idb := fun q => if q = r then some ⟨.sorted [], true, IRel.shown b x.internal.elems⟩ else s.idb q }
    | none => s

/-- Models `computed_relation` (`integrate/context.rs` 715-718) with `get_output_collection` (`intentional/database.rs` 145-153). -/
def read (b : Boundary F T I O) (s : Ctx F T I O) (r : String) : Ctx F T I O × Option (List (O × Tup (Val F))) :=
  let s1 := s.recover b r
  (s1, (s1.idb r).bind (fun x => if x.recovered then some x.facts else none))

/-- Models `Interpreter::run` (`integrate/interpret.rs` 75-116): the visible relations are recovered, draining the collections, and all others are
dropped. Relations that go to files are not distinguished from other visible ones. -/
def interpret [LinearOrder (Val F)] [LinearOrder W] (c : Prov T W) (R : Runtime F T) (b : Boundary F T I O) (fuel : Nat) (s : Ctx F T I O) :
    Run (Ctx F T I O × Bool) :=
  (execute c R b fuel none s).bind (fun q =>
    if q.2 then
      .done ({ q.1 with idb := fun r => if (q.1.program.decl r).hidden || decide (r ∉ q.1.program.relations) then none else (q.1.idb r).map (IRel.recover b true) }, true)
    else .done q)

end Ctx

end Scallop.Exec
