import Verif.Model.DumpProofs

/-!
# What the files of C120 should have in them

The given facts that have a probability are those whose tag is one variable; a proof is a set of signed variables.
-/

namespace Scallop.Dump

variable {P : Type}

/-- The given facts of a relation with a variable of their own, in order. -/
def givenFacts (loads : List (Load P)) (r : String) : List (Given P) :=
  ((loads.filter (fun l => l.relation = r)).flatMap Load.facts).filterMap (fun f => match f.2.2 with | [[.pos i]] => some ⟨i, f.2.1, f.1⟩ | _ => none)

/-- The facts of a relation that were read, in order. -/
def readFacts (reads : List (Reading P)) (r : String) : List (String × List Clause × P) := (reads.filter (fun l => l.relation = r)).flatMap Reading.facts

/-- A literal, from its sign and its variable. -/
def literal (q : Bool × Nat) : Literal := if q.1 then .pos q.2 else .neg q.2

/-- An entry is that of a fact: the tuple, its probability and all its proofs. -/
def Shows (f : String × List Clause × P) (d : Derived P) : Prop := d.tuple = f.1 ∧ d.prob = f.2.2 ∧ d.proofs.map (List.map literal) = f.2.1

/-- A file has the proofs of the facts, in order. -/
def HasProofs (c : Option (Content P)) (fs : List (String × List Clause × P)) : Prop := ∃ l, c = some (.derived l) ∧ List.Forall₂ Shows fs l

/-- A file has the given facts. -/
def HasGiven (c : Option (Content P)) (gs : List (Given P)) : Prop := c = some (.given gs)

end Scallop.Dump
