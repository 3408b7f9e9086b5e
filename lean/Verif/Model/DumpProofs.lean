import Verif.Model.Clause

/-!
# Dumping proofs

Models `/repo/core/src/runtime/monitor/dump_proofs.rs`: the monitor `dump-proofs`, which writes a file with the given facts of each relation and with the proofs of the facts of each
relation that is read, for `topkproofs` and `difftopkproofs`. With other provenances all its methods are empty.

Simplified: tuples are the strings they are shown as; a file is what is written to it, not the JSON it is written as; the map from relations to lists is the list of its entries in the order in
which they are added, so that a relation is a key of the map if it has an entry (`or_default` is followed by `push`). Writing fails only if there is no directory.
-/

namespace Scallop.Dump

variable {P : Type}

/-- Models an entry of `tagged_tuples` (`dump_proofs.rs` 14). -/
structure Given (P : Type) where
  id : Nat
  prob : Option P
  tuple : String
  deriving DecidableEq

/-- Models an entry of `recovered_tuples` (`dump_proofs.rs` 16). -/
structure Derived (P : Type) where
  tuple : String
  prob : P
  proofs : List (List (Bool × Nat))
  deriving DecidableEq

/-- What a file has in it. -/
inductive Content (P : Type) where
  | given (l : List (Given P))
  | derived (l : List (Derived P))
  deriving DecidableEq

/-- Models `struct DumpProofsInternal` (`dump_proofs.rs` 11-17). -/
structure State (P : Type) where
  tagging : Option String
  tagged : List (String × Given P)
  recovering : Option String
  recovered : List (String × Derived P)

/-- Models `new` (`dump_proofs.rs` 24-33). -/
def State.new : State P := ⟨none, [], none, []⟩

/-- The files `{dir}/{relation}.json`, by relation. -/
abbrev Files (P : Type) := String → Option (Content P)

/-- The list of a relation in a map. -/
def entries {α : Type} (l : List (String × α)) (r : String) : List α := l.filterMap (fun q => if q.1 = r then some q.2 else none)

/-- Models `get_singleton_id` (`provenance/common/dnf_formula.rs` 15-28). -/
def singletonId (tag : List Clause) : Option Nat :=
  match tag with
  | [[.pos i]] => some i
  | _ => none

/-- A literal as it is written (`dump_proofs.rs` 71-74). -/
def code : Literal → Bool × Nat
  | .pos i => (true, i)
  | .neg i => (false, i)

/-- The proofs of a tag (`dump_proofs.rs` 63-78). -/
def proofsOf (tag : List Clause) : List (List (Bool × Nat)) := tag.map (List.map code)

/-- Models `record_tag` (`dump_proofs.rs` 41-52). -/
def State.recordTag (s : State P) (t : String) (p : Option P) (tag : List Clause) : State P :=
  match s.tagging, singletonId tag with
  | some r, some i => { s with tagged := s.tagged ++ [(r, ⟨i, p, t⟩)] }
  | _, _ => s

/-- Models `record_recover` (`dump_proofs.rs` 60-84). -/
def State.recordRecover (s : State P) (t : String) (p : P) (tag : List Clause) : State P :=
  match s.recovering with
  | some r => { s with recovered := s.recovered ++ [(r, ⟨t, p, proofsOf tag⟩)] }
  | none => s

/-- Models `dump_relation` (`dump_proofs.rs` 86-98): first the files of all relations with given facts are written, then that of the relation that has been read. `none` is the panic "Unable to write
file", with something to write and no directory. -/
def State.dump (dir : Bool) (s : State P) (r : String) (fs : Files P) : Option (Files P) :=
  if !dir && (!s.tagged.isEmpty || !(entries s.recovered r).isEmpty) then none
  else
    let fs1 : Files P := fun q => if (entries s.tagged q).isEmpty then fs q else some (.given (entries s.tagged q))
    some (fun q => if q = r && !(entries s.recovered r).isEmpty then some (.derived (entries s.recovered r)) else fs1 q)

/-- What the monitor is shown (`dump_proofs.rs` 127-145, 153-171). -/
inductive Event (P : Type) where
  | loading (r : String)
  | tagging (t : String) (p : Option P) (tag : List Clause)
  | recovering (r : String)
  | recover (t : String) (tag : List Clause) (p : P)
  | finish (r : String)

/-- Models the methods of the monitor (`dump_proofs.rs` 127-145, 153-171). -/
def step (dir : Bool) (q : State P × Files P) : Event P → Option (State P × Files P)
  | .loading r => some ({ q.1 with tagging := some r }, q.2)
  | .tagging t p tag => some (q.1.recordTag t p tag, q.2)
  | .recovering r => some ({ q.1 with recovering := some r }, q.2)
  | .recover t tag p => some (q.1.recordRecover t p tag, q.2)
  | .finish r => (q.1.dump dir r q.2).map (fun fs => (q.1, fs))

/-- All events, one after the other. -/
def run (dir : Bool) (es : List (Event P)) (q : State P × Files P) : Option (State P × Files P) := es.foldlM (step dir) q

/-- A relation whose facts are tagged (`extensional/database.rs` 269-276, `extensional/relation.rs` 198-239). -/
structure Load (P : Type) where
  relation : String
  facts : List (String × Option P × List Clause)

/-- A relation that is read (`intentional/database.rs` 114-127, `intentional/relation.rs` 117-142). -/
structure Reading (P : Type) where
  relation : String
  facts : List (String × List Clause × P)

/-- The events of a relation whose facts are tagged. -/
def Load.events (l : Load P) : List (Event P) := .loading l.relation :: l.facts.map (fun f => .tagging f.1 f.2.1 f.2.2)

/-- The events of a relation that is read. -/
def Reading.events (l : Reading P) : List (Event P) := [.recovering l.relation] ++ l.facts.map (fun f => .recover f.1 f.2.1 f.2.2) ++ [.finish l.relation]

/-- Facts are tagged, and then relations are read, with a new monitor. -/
def session (dir : Bool) (loads : List (Load P)) (reads : List (Reading P)) (fs : Files P) : Option (Files P) :=
  (run dir (loads.flatMap Load.events ++ reads.flatMap Reading.events) (State.new, fs)).map Prod.snd

end Scallop.Dump
