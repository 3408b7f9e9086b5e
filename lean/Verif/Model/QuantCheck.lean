import Verif.Model.Front
import Verif.Model.WeightedAgg

/-!
# The check of universal quantification and the aggregates that are left

Models `/repo/core/src/compiler/front/analyzers/aggregation.rs` (the check that the body of `forall` is an implication), its place in `compile_items`
(`front/compile.rs` 285-315: before the transformations of `Front.desugar`), and the lookup of the names of aggregates by type inference after them
(`type_inference/local.rs` 298-337, `unification.rs` 379-388 and 535-541); for rules written `rel r = op(...)` also `transformations/desugar_reduce_rule.rs`.

Not modelled: parameters of aggregates, and all the other errors of the analyses; type inference stops at its first error, here all unknown names are
reported. A body that is refused by another analysis is refused with other messages as well.
-/

namespace Scallop.Front

variable {F : Type}

/-- Models the match on the body of an aggregation (`aggregation.rs` 23-28). -/
def Formula.implication : Formula F → Bool
  | .implies _ _ => true
  | _ => false

/-- Models the walk of `AggregationAnalysis` (`aggregation.rs` 17-33) over a body: the visitor is called at nodes `Reduce` only, not at nodes
`ForallExistsReduce` (`ast/aggregate.rs` 49-70), whose parts are walked. The aggregation reported stands for its location. -/
def forallErrors : Formula F → List (Formula F)
  | .disj fs => all fs
  | .conj fs => all fs
  | .implies l r => forallErrors l ++ forallErrors r
  | .reduce left op args bindings body gv gb =>
    (if op = "forall" ∧ body.implication = false then [.reduce left op args bindings body gv gb] else []) ++ (forallErrors body ++ all gb)
  | .quant _ _ _ _ body _ gb => forallErrors body ++ all gb
  | _ => []
where
  /-- The walk over a list. -/
  all : List (Formula F) → List (Formula F)
    | [] => []
    | f :: fs => forallErrors f ++ all fs

/-- The operators of the aggregations in a body, in the order of the walk (`type_inference/local.rs` 298-306). -/
def reduceOps : Formula F → List String
  | .disj fs => all fs
  | .conj fs => all fs
  | .implies l r => reduceOps l ++ reduceOps r
  | .reduce _ op _ _ body _ gb => op :: (reduceOps body ++ all gb)
  | .quant _ _ _ _ body _ gb => reduceOps body ++ all gb
  | _ => []
where
  /-- The walk over a list. -/
  all : List (Formula F) → List String
    | [] => []
    | f :: fs => reduceOps f ++ all fs

/-- What compiling a body ends with, as far as aggregations are concerned. -/
inductive Checked (F : Type) where
  /-- "the body of forall aggregation must be an `implies` formula", at these aggregations. -/
  | notImplies (at_ : List (Formula F))
  /-- "unknown aggregate", for these names. -/
  | unknown (names : List String)
  /-- The compiler panics. -/
  | panic
  /-- The body goes on to the other passes. -/
  | passed (f : Formula F)

/-- Models the steps of `compile_items` (`compile.rs` 285-315) for one body: the check, the transformations, and the lookup of aggregates in the registry. -/
def checkForall (known : String → Bool) (f : Formula F) : Checked F :=
  match forallErrors f with
  | e :: es => .notImplies (e :: es)
  | [] =>
    match desugar f with
    | .ok f' =>
      match (reduceOps f').filter (fun op => !known op) with
      | [] => .passed f'
      | n :: ns => .unknown (n :: ns)
    | _ => .panic

/-- The names of the standard aggregates (`AggregateRegistry::std`, modelled for C104). -/
def stdKnown (name : String) : Bool := (WAgg.stdRegistry.lookup name).isSome

/-- Models `compile_items` for a rule `rel r = op(...)`, whose aggregation has no variables for results. `DesugarReduceRule` (`desugar_reduce_rule.rs` 18-63) makes
a rule of it if the registry has the aggregate, with the variables `outs` (`agg#n#outvar#i`, as many as the type of the aggregate says; errors in that number
are not modelled). Otherwise the declaration stays: its aggregation is not a formula, so the visitors of formulas only see its parts. -/
def checkReduceRule (known : String → Bool) (outs : List Name) (op : String) (args bindings : List Name) (body : Formula F) (gv : List Name)
    (gb : List (Formula F)) : Checked F :=
  match forallErrors (.reduce [] op args bindings body gv gb) with
  | e :: es => .notImplies (e :: es)
  | [] =>
    let f : Formula F := .reduce (if known op then outs.map some else []) op args bindings body gv gb
    match (if known op then desugar f else walkChildren (walk f.weight) f) with
    | .ok f' =>
      match (reduceOps f').filter (fun op => !known op) with
      | [] => .passed f'
      | n :: ns => .unknown (n :: ns)
    | _ => .panic

end Scallop.Front
