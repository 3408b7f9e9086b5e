import Verif.Model.B2R
import Mathlib.Data.List.Dedup

/-!
# From strata of rules to strata of updates

Models `/repo/core/src/compiler/back/b2r.rs` 92-222: the translation of all rules, stratum by stratum, and the placement of the permuted copies
of relations and of the temporary relations for negated operands.

Simplifications. Of the relations of a stratum only the names are kept (types, facts, outputs and storage are not). `BTreeMap`s and `HashSet`s of
relations and permutations are lists without a particular order; nothing that is proved depends on the order.
-/

namespace Scallop.Plan

open Scallop.Back Scallop.Ram

variable {F : Type}

/-- Models `struct Rule` (`back/ast.rs` 95-100), with the one attribute the translation looks at (`b2r.rs` 196). -/
structure SRule (F : Type) where
  head : Head String F
  body : List (Lit String F Reduce)
  inPlace : Bool := false

/-- Models `Head::predicate` (`back/ast.rs` 169-174); `none` is the panic of `disj[0]`. -/
def headPred : Head String F → Option String
  | .atom a => some a.predicate
  | .disj [] => none
  | .disj (a :: _) => some a.predicate

/-- Models `rules_of_predicate` (`back/ast.rs` 39-41). A disjunctive head without alternatives, which would panic, is skipped; none is ever built. -/
def rulesOf (rules : List (SRule F)) (p : String) : List (SRule F) := rules.filter (fun r => decide (headPred r.head = some p))

/-- Models the inner loop over the rules of a stratum (`b2r.rs` 194-201) with the targets of `plan_to_ram_update` (`b2r.rs` 378, 420); `none` is a
panic. -/
def rulesFlow (E : Env F) (S : Search) : List (SRule F) → St F → Option (List (Update F) × St F)
  | [], s => some ([], s)
  | r :: rs, s =>
    (headPred r.head).bind (fun p =>
      (ruleFlow E S r.head r.body r.inPlace s).bind (fun f =>
        (rulesFlow E S rs f.2).map (fun us => (⟨p, f.1⟩ :: us.1, us.2))))

/-- Models `stratum_to_ram_stratum` (`b2r.rs` 167-210): the list of temporary updates starts empty in every stratum, while the counter, the
permutations and the negative dataflows go on. -/
def stratumFlow (E : Env F) (S : Search) (rules : List (SRule F)) (preds : List String) (s : St F) : Option (Ram.Stratum F × St F) :=
  (rulesFlow E S (preds.flatMap (rulesOf rules)) { s with temps := [] }).map (fun r =>
    (⟨preds ++ r.2.temps.map Prod.fst, r.2.temps.map (fun q => ⟨q.1, q.2⟩) ++ r.1⟩, r.2))

/-- Models the first part of `strata_to_ram_strata` (`b2r.rs` 98-120). -/
def strataFlow (E : Env F) (S : Search) (rules : List (SRule F)) : List (List String) → St F → Option (List (Ram.Stratum F) × St F)
  | [], s => some ([], s)
  | ps :: rest, s =>
    (stratumFlow E S rules ps s).bind (fun r => (strataFlow E S rules rest r.2).map (fun q => (r.1 :: q.1, q.2)))

/-- The permutations asked for of a predicate (`pred_permutations.get`, `b2r.rs` 127). -/
def permsOf (perms : List (String × Perm)) (p : String) : List Perm := ((perms.filter (fun q => decide (q.1 = p))).map Prod.snd).dedup

/-- Models `perm_to_ram_update` (`b2r.rs` 1328-1333); `none` is a panic of `Permutation::expr`. -/
def permUpdate (p : String) (π : Perm) : Option (Update F) :=
  (permExpr π).map (fun e => ⟨permName p π, .project (.leaf (.rel p)) e⟩)

/-- Models the second part of `strata_to_ram_strata` (`b2r.rs` 122-144) for one stratum. -/
def addPerms (perms : List (String × Perm)) (st : Ram.Stratum F) : Option (Ram.Stratum F) :=
  ((st.relations.flatMap (fun p => (permsOf perms p).map (fun π => (p, π)))).mapM (fun q => permUpdate (F := F) q.1 q.2)).map (fun us =>
    ⟨st.relations ++ us.map Update.target, st.updates ++ us⟩)

/-- Models `Dataflow::source_relations` (`ram/ast.rs` 352-374). -/
def flowSources : Dataflow F → List String
  | .leaf (.unit _) | .leaf (.untagged _) | .leaf (.foreign _ _) => []
  | .leaf (.rel r) => [r]
  | .leaf (.reduce _ p _) => [p]
  | .un (.joinIndexedVec r) d => r :: flowSources d
  | .un _ d => flowSources d
  | .bin _ d1 d2 => flowSources d1 ++ flowSources d2
  | .project d _ => flowSources d

/-- Models the third part of `strata_to_ram_strata` (`b2r.rs` 146-167): every negative dataflow goes to the first stratum that, with the ones
before it, has all of its sources. The sources are collected before the negative dataflows of a stratum are added. -/
def placeNegs : List String → List (String × Dataflow F) → List (Ram.Stratum F) → List (Ram.Stratum F)
  | _, _, [] => []
  | acc, negs, st :: rest =>
    let acc' := acc ++ st.relations
    let now := negs.filter (fun n => (flowSources n.2).all (fun r => decide (r ∈ acc')))
    let later := negs.filter (fun n => !((flowSources n.2).all (fun r => decide (r ∈ acc'))))
    ⟨st.relations ++ now.map Prod.fst, st.updates ++ now.map (fun n => ⟨n.1, n.2⟩)⟩ :: placeNegs acc' later rest

/-- Models `strata_to_ram_strata` (`b2r.rs` 92-167); `none` is a panic. -/
def compileStrata (E : Env F) (S : Search) (rules : List (SRule F)) (strata : List (List String)) : Option (List (Ram.Stratum F)) :=
  (strataFlow E S rules strata {}).bind (fun r => (r.1.mapM (addPerms r.2.perms)).map (placeNegs [] r.2.negs))

end Scallop.Plan
