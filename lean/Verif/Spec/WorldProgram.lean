import Verif.Spec.WorldExec
import Verif.Spec.EndToEnd

/-!
# Compiling and executing a program in possible worlds

What a program has to satisfy, beyond the conditions of `ProgramOk`, so that the tags of its results say in which worlds they can be derived.
-/

namespace Scallop.Exec

open Scallop.Ram Scallop.Plan

variable {F T : Type}

/-- Beyond `ProgramOk`: no relation is stored as an indexed vector; relations with rules, and relations made up by the compiler, are not declared
immutable; no rule has the attribute `no_temp_relation`; no variable is repeated in an atom without constants; no aggregates; no disjunctive heads, and no
predicates made for magic sets; all relations have the default scheduler. -/
structure TagRunnable (R : Runtime F T) (E : Plan.Env F) (rules : List (SRule F)) (strata : List (List String)) (decl : String → Decl) : Prop where
  plain : ∀ r, E.indexed r = false ∧ (decl r).indexed = false
  writable : ∀ r, (decl r).immutable = true → r ∈ strata.flatten ∧ ∀ q ∈ rules, headPred q.head ≠ some r
  temps : ∀ q ∈ rules, q.inPlace = false
  vars : ∀ q ∈ rules, ∀ a ∈ posOf q.body, (∀ t ∈ a.args, t.const? = none) → (atomVars a).Nodup
  aggs : ∀ q ∈ rules, reducesOf q.body = []
  heads : ∀ q ∈ rules, ∃ a, q.head = .atom a ∧ E.magic a.predicate = false
  lfp : ∀ r, (decl r).sched.getD R.sched = .lfp

/-- The tuple `t` can be derived for predicate `p` in the world: it is in the model of the rules, stratum by stratum, over the facts that are true in the world
(there is exactly one: `c83_model_partial`). -/
def rulesHoldIn (R : Runtime F T) (E : Plan.Env F) (rules : List (SRule F)) (strata : List (List String)) (edb : Db F T) (v : T → Prop) (p : String)
    (t : Tup (Val F)) : Prop :=
  ∃ J, StratModel (edbIn v edb) (strata.map (srcLayer (R.settingIn v) E rules)) J ∧ J p t

/-- The program and the environment of its compilation, as far as they do not concern tags. -/
structure TagCompiled (R : Runtime F T) (E : Plan.Env F) (S : Search) (arity : String → Nat) (rules : List (SRule F)) (strata : List (List String))
    (decl : String → Decl) (edb : Db F T) (ram : List (Ram.Stratum F)) : Prop where
  floats : R.X.ExactFloats
  orders : E.Orders
  lawful : S.Lawful
  ok : ProgramOk (R.settingIn (fun _ => True)) E arity rules strata (edbIn (fun _ => True) edb)
  run : TagRunnable R E rules strata decl
  compile : compileStrata E S rules strata = some ram

end Scallop.Exec
