import Mathlib.Data.List.Dedup
import Verif.Model.Front

/-!
# Boundness analysis

Models `/repo/core/src/compiler/front/analyzers/boundness/` (`local.rs`, `dependency.rs`, `context.rs`, `foreign.rs` and, of
`boundness_analysis.rs`, the check of one rule, 42-77). The compiler refuses a program with a rule for which this analysis reports an error
(`compile.rs` 296-316).

A node of the syntax tree is identified in the code by a location whose number the annotators make unique (`annotation.rs` 26-32); here it is
identified by the path that leads to it. Two copies of one node made by a transformation share a number in the code, here they do not.
The errors that are reported are not modelled, only whether there are any.
-/

namespace Scallop.Front

variable {F : Type}

/-- Models `Loc` (`ast/utils.rs`): the path to a node. -/
abbrev Loc := List Nat

/-- Models `enum BoundnessDependency` (`dependency.rs` 3-35). -/
inductive Dep where
  | relationArg (l : Loc)
  | foreignArgs (bounded toBound : List Loc)
  | constant (l : Loc)
  | binaryOp (a b e : Loc)
  | constraintEq (a b : Loc)
  | addSub (a b e : Loc)
  | unaryOp (a e : Loc)
  | ifThenElse (c t f e : Loc)
  | callOp (args : List Loc) (e : Loc)
deriving DecidableEq

/-- Models the fields of `LocalBoundnessAnalysisContext` (`local.rs` 8-16) filled by walking: the dependencies, the places of variables (one
entry for every place instead of a map from names to places) and of constraints. -/
structure Walked where
  deps : List Dep := []
  vars : List (Name × Loc) := []
  constraints : List Loc := []

/-- Walking one thing after another. -/
def Walked.append (a b : Walked) : Walked := ⟨a.deps ++ b.deps, a.vars ++ b.vars, a.constraints ++ b.constraints⟩

/-- Models `is_add_sub`. -/
def isAddSub : BinOp → Bool
  | .add | .sub => true
  | _ => false

/-- The places of the `n` children of a node, from the `i`-th on. -/
def childLocs (p : Loc) : Nat → Nat → List Loc
  | _, 0 => []
  | i, n + 1 => (p ++ [i]) :: childLocs p (i + 1) n

mutual
/-- Models walking an expression with the visitors of `local.rs` (60-72 variables, 74-79 constants, 98-117 binary operators, 119-124 unary
operators, 126-134 conditionals, 136-142 calls). There is no visitor for `new` and for wildcards. -/
def FExpr.walkDeps (p : Loc) : FExpr F → Walked
  | .const _ => { deps := [.constant p] }
  | .var x => { vars := [(x, p)] }
  | .wild => {}
  | .bin op a b =>
    ({ deps := [if isAddSub op then .addSub (p ++ [0]) (p ++ [1]) p else .binaryOp (p ++ [0]) (p ++ [1]) p] } : Walked).append
      ((a.walkDeps (p ++ [0])).append (b.walkDeps (p ++ [1])))
  | .un _ a => ({ deps := [.unaryOp (p ++ [0]) p] } : Walked).append (a.walkDeps (p ++ [0]))
  | .ite c t e =>
    ({ deps := [.ifThenElse (p ++ [0]) (p ++ [1]) (p ++ [2]) p] } : Walked).append
      ((c.walkDeps (p ++ [0])).append ((t.walkDeps (p ++ [1])).append (e.walkDeps (p ++ [2]))))
  | .call _ args => ({ deps := [.callOp (childLocs p 0 args.length) p] } : Walked).append (FExpr.walkAll p 0 args)
  | .new _ args => FExpr.walkAll p 0 args
/-- The children of a node, from the `i`-th on. -/
def FExpr.walkAll (p : Loc) : Nat → List (FExpr F) → Walked
  | _, [] => {}
  | i, e :: es => (e.walkDeps (p ++ [i])).append (FExpr.walkAll p (i + 1) es)
end

/-- Models `ForeignPredicateBindings` (`foreign.rs`): arity and number of arguments that have to be bound, which come first
(`foreign_predicate.rs` 82-91), of a foreign predicate. -/
abbrev Bindings := String → Option (Nat × Nat)

/-- Models the visitor of atoms (`local.rs` 18-58). An atom of a foreign predicate with the wrong number of arguments adds nothing. -/
def atomDeps (B : Bindings) (p : Loc) (pred : String) (n : Nat) : List Dep :=
  match B pred with
  | some (arity, nb) =>
    if arity = n then [.foreignArgs ((childLocs p 0 n).take nb) ((childLocs p 0 n).drop nb)] else []
  | none => (childLocs p 0 n).map .relationArg

/-- Models the visitor of constraints (`local.rs` 81-96). -/
def constraintDeps (p : Loc) : FExpr F → List Dep
  | .bin .eq _ _ => [.constraintEq (p ++ [0]) (p ++ [1])]
  | _ => []

/-- Models walking a formula of a conjunction: an atom or a constraint (the only ones, see `fromFormula`). -/
def Formula.walkDeps (B : Bindings) (p : Loc) : Formula F → Walked
  | .atom pred args => ({ deps := atomDeps B p pred args.length } : Walked).append (FExpr.walkAll p 0 args)
  | .constraint e => ({ deps := constraintDeps p e, constraints := [p] } : Walked).append (e.walkDeps p)
  | _ => {}

/-- Walking the formulas of a conjunction, from the `i`-th on (`context.rs` 182-184). -/
def walkFormulas (B : Bindings) : Nat → List (Formula F) → Walked
  | _, [] => {}
  | i, f :: fs => (f.walkDeps B [i]).append (walkFormulas B (i + 1) fs)

/-- Walking the expressions that are known to be bound, from the `i`-th on (`context.rs` 187-190). -/
def walkExprs : Nat → List (FExpr F) → Walked
  | _, [] => {}
  | i, e :: es => (e.walkDeps [i]).append (walkExprs (i + 1) es)

/-- Models `update` (`local.rs` 152-154). The places that are known to be bound are in the list; the code has a map from places to booleans and
takes places that are not in the map to be unbound. -/
def mark (s : List Loc) (l : Loc) (b : Bool) : List Loc := if b && !s.contains l then l :: s else s

/-- Marks several places. -/
def markAll (s : List Loc) (ls : List Loc) (b : Bool) : List Loc := ls.foldl (fun s l => mark s l b) s

/-- Models one dependency in the loop of `compute_boundness` (`local.rs` 168-233). -/
def Dep.apply (s : List Loc) : Dep → List Loc
  | .relationArg l => mark s l true
  | .foreignArgs bounded toBound => if bounded.all s.contains then markAll s toBound true else s
  | .constant l => mark s l true
  | .binaryOp a b e => mark s e (s.contains a && s.contains b)
  | .constraintEq a b =>
    if s.contains a && !s.contains b then mark s b true else if !s.contains a && s.contains b then mark s a true else s
  | .addSub a b e =>
    if s.contains a && s.contains b && !s.contains e then mark s e true
    else if s.contains a && !s.contains b && s.contains e then mark s b true
    else if !s.contains a && s.contains b && s.contains e then mark s a true
    else s
  | .unaryOp a e => mark s e (s.contains a)
  | .ifThenElse c t f e => mark s e (s.contains c && s.contains t && s.contains f)
  | .callOp args e => mark s e (args.all s.contains)

/-- The places of a variable. -/
def locsOf (vars : List (Name × Loc)) (x : Name) : List Loc := (vars.filter (fun v => v.1 = x)).map Prod.snd

/-- The variables, each once. The code goes through a hash map; the order is that of the first occurrences here. -/
def varNames (vars : List (Name × Loc)) : List Name := (vars.map Prod.fst).dedup

/-- Models the propagation through variables (`local.rs` 236-242). -/
def applyVars (vars : List (Name × Loc)) (s : List Loc) : List Loc :=
  (varNames vars).foldl (fun s x => markAll s (locsOf vars x) ((locsOf vars x).any s.contains)) s

/-- Models the body of the loop (`local.rs` 166-242). -/
def boundStep (w : Walked) (s : List Loc) : List Loc := applyVars w.vars (w.deps.foldl Dep.apply s)

/-- Models the loop of `compute_boundness` (`local.rs` 162-243): until nothing changes. Places are only added, so nothing has changed when there are
as many as before. `none` if that takes more rounds than given. -/
def boundLoop (w : Walked) : Nat → List Loc → Option (List Loc)
  | 0, _ => none
  | n + 1, s => if (boundStep w s).length = s.length then some (boundStep w s) else boundLoop w n (boundStep w s)

/-- The places a dependency may mark. -/
def Dep.targets : Dep → List Loc
  | .relationArg l => [l]
  | .foreignArgs _ toBound => toBound
  | .constant l => [l]
  | .binaryOp _ _ e => [e]
  | .constraintEq a b => [a, b]
  | .addSub a b e => [a, b, e]
  | .unaryOp _ e => [e]
  | .ifThenElse _ _ _ e => [e]
  | .callOp _ e => [e]

/-- A number of rounds that suffices (`bound_terminates`). -/
def Walked.rounds (w : Walked) : Nat := (w.deps.flatMap Dep.targets).length + w.vars.length + 1

/-- Models `compute_boundness` (`local.rs` 150-268) on a context with the given bound variables and places: the variables found to be bound, or an
error (`undef`) if a variable or a constraint is not bound. -/
def Walked.compute (w : Walked) (known : List Name) (exprs : List Loc) : Outcome (List Name) :=
  match boundLoop w w.rounds (markAll exprs ((w.vars.filter (fun v => known.contains v.1)).map Prod.snd) true) with
  | none => .panic
  | some s =>
    if (varNames w.vars).all (fun x => (locsOf w.vars x).all s.contains) && w.constraints.all s.contains then
      .ok (known ++ varNames w.vars)
    else .undef

/-- Models the part of `ConjunctionContext::compute_boundness` (`context.rs` 180-198) after the aggregations, which have bound the variables
`known`. -/
def ConjCtx.local (B : Bindings) (demanded : List (FExpr F)) (known : List Name) (c : ConjCtx F) : Outcome (List Name) :=
  ((walkFormulas B 0 c.pos).append (walkExprs c.pos.length demanded)).compute known
    ((List.range demanded.length).map (fun i => [c.pos.length + i]))

/-- Models the intersection in `DisjunctionContext::compute_boundness` (`context.rs` 91-113). -/
def meetAll : List (List Name) → List Name
  | [] => []
  | s :: ss => s.filter (fun x => ss.all (fun t => t.contains x))

/-- Evaluates a list of checks, stopping at the first failure. -/
def collectOk {α β : Type} (f : α → Outcome β) : List α → Outcome (List β)
  | [] => .ok []
  | a :: as => (f a).bind (fun b => (collectOk f as).bind (fun bs => .ok (b :: bs)))

mutual
/-- The variables of an expression; models `collect_used_variables` (`ast/expr.rs` 41-82). -/
def FExpr.usedVars : FExpr F → List Name
  | .const _ | .wild => []
  | .var x => [x]
  | .bin _ a b => a.usedVars ++ b.usedVars
  | .un _ a => a.usedVars
  | .ite c t e => c.usedVars ++ (t.usedVars ++ e.usedVars)
  | .call _ args => FExpr.usedVarsAll args
  | .new _ args => FExpr.usedVarsAll args
/-- The same for a list. -/
def FExpr.usedVarsAll : List (FExpr F) → List Name
  | [] => []
  | e :: es => e.usedVars ++ FExpr.usedVarsAll es
end

/-- Models `RuleContext::compute_boundness` (`context.rs` 34-48) given the check of a conjunction: all the variables of the head have to be bound. -/
def checkBody (conj : ConjCtx F → Outcome (List Name)) (head : List Name) (body : Formula F) : Outcome (List Name) :=
  match fromFormula body with
  | none => .panic
  | some cs => (collectOk conj cs).bind (fun ss => if head.all (meetAll ss).contains then .ok (meetAll ss) else .undef)

/-- Models `AggregationContext::compute_boundness` (`context.rs` 266-303) given the check of a conjunction. -/
def checkAgg (conj : ConjCtx F → Outcome (List Name)) : Formula F → Outcome (List Name)
  | .reduce left _ args bindings body gv gb =>
    (match gb with
      | [] => Outcome.ok []
      | g :: _ => checkBody conj gv g).bind (fun _ =>
    (checkBody conj (bindings ++ args) (match gb with | [] => body | g :: _ => .conj [body, g])).bind (fun bound =>
      if args.all (fun x => bound.contains x && !bindings.contains x) then
        .ok (bound.filter (fun x => !bindings.contains x) ++ left.filterMap id ++ args)
      else .undef))
  | _ => .panic

/-- Models `ConjunctionContext::compute_boundness` (`context.rs` 163-199); the depth of nested aggregations is at most `n`. -/
def checkConj (B : Bindings) (demanded : List (FExpr F)) : Nat → ConjCtx F → Outcome (List Name)
  | 0, _ => .panic
  | n + 1, c => (collectOk (checkAgg (checkConj B demanded n)) c.agg).bind (fun ks => c.local B demanded ks.flatten)

/-- Models the check of a rule (`boundness_analysis.rs` 48-68): the arguments of the head marked `b` by a demand pattern are known to be bound. -/
def checkRule (B : Bindings) (demand : List Bool) (args : List (FExpr F)) (body : Formula F) : Outcome (List Name) :=
  checkBody (checkConj B (((args.zip demand).filter (fun a => a.2)).map Prod.fst) (body.weight + 1)) (FExpr.usedVarsAll args) body

end Scallop.Front
