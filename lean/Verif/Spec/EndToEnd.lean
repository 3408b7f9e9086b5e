import Verif.Spec.Exec

/-!
# Compiling and executing a program

What a program, the declarations of its relations and the environment it runs in have to satisfy beyond the conditions of `ProgramOk`, so that what is
computed does not depend on how rules are evaluated.
-/

namespace Scallop.Exec

open Scallop.Ram Scallop.Plan

variable {F T W : Type}

/-- Beyond `ProgramOk`: no relation is stored as an indexed vector; relations with rules, and relations made up by the compiler, are not declared
immutable; no rule has the attribute `no_temp_relation`; no variable is repeated in an atom without constants; aggregates and negation do not look at
tags. -/
structure Runnable (c : Prov T W) (R : Runtime F T) (E : Plan.Env F) (rules : List (SRule F)) (strata : List (List String)) (decl : String → Decl) : Prop where
  plain : ∀ r, E.indexed r = false ∧ (decl r).indexed = false
  writable : ∀ r, (decl r).immutable = true → r ∈ strata.flatten ∧ ∀ q ∈ rules, headPred q.head ≠ some r
  temps : ∀ q ∈ rules, q.inPlace = false
  vars : ∀ q ∈ rules, ∀ a ∈ posOf q.body, (∀ t ∈ a.args, t.const? = none) → (atomVars a).Nodup
  aggs : ∀ q ∈ rules, ∀ r ∈ reducesOf q.body, R.TagFree r.aggregator
  neg : ∀ q ∈ rules, negOf q.body ≠ [] → ∀ a b, c.minus a b = none

end Scallop.Exec
