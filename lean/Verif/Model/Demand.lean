import Verif.Model.Strata

/-!
# Demand transformation

Models `/repo/core/src/compiler/back/optimizations/demand_transform.rs`, the rewriting of programs with on-demand relations (magic sets): the rules of an
on-demand relation get an atom that says which facts are demanded, and rules that say what is demanded are added.

Simplifications. Of the declaration of a relation only the name, the number of arguments and the demand pattern are kept; of the added relations only
the names. Sets of variables are lists. `Adornment.types` is left out.
-/

namespace Scallop.Plan

open Scallop.Back

variable {F : Type}

/-- The parts of `struct Relation` (`back/ast.rs`) the transformation looks at: the pattern is that of a `DemandAttribute`. -/
structure RelDecl where
  predicate : String
  arity : Nat
  demand : Option String

/-- Models `Pattern::from_str` with `Boundness::from_char` (`demand_transform.rs` 323-331, 378-380); `true` is `Bound`. -/
def parsePattern (s : String) : Option (List Bool) :=
  s.toList.mapM (fun c => if c = 'b' then some true else if c = 'f' then some false else none)

/-- Models `struct Adornment` (`demand_transform.rs` 383-390). -/
structure Adornment where
  pattern : List Bool
  demandPredicate : String
deriving DecidableEq

/-- Models `Pattern::get_bounded_args` (`demand_transform.rs` 353-359). -/
def boundedArgs {α : Type} (pattern : List Bool) (args : List α) : List α :=
  (args.zip pattern).filterMap (fun q => if q.2 then some q.1 else none)

/-- Models `Pattern::get_bounded_vars` (`demand_transform.rs` 361-376). -/
def boundedVarsOf (pattern : List Bool) (args : List (Term String F)) : List String := (boundedArgs pattern args).filterMap Term.var?

/-- Models `collect_adornments` with `Adornment::try_new` (`demand_transform.rs` 37-50, 393-412); `none` is an error. The result is the `HashMap` as a list
with the latest entry first. -/
def collectAdornments : List RelDecl → Option (List (String × Adornment))
  | [] => some []
  | r :: rs =>
    match r.demand with
    | none => collectAdornments rs
    | some s =>
      (parsePattern s).bind (fun pat =>
        if r.arity = pat.length then
          (collectAdornments rs).map (fun as => as ++ [(r.predicate, ⟨pat, "d#" ++ r.predicate ++ "#" ++ s⟩)])
        else none)

/-- Models the lookup in the `HashMap`. -/
def adornment (A : List (String × Adornment)) (p : String) : Option Adornment := (A.find? (fun q => decide (q.1 = p))).map Prod.snd

/-- Models `compute_grounded_variables` (`demand_transform.rs` 236-243), first part: the variables of atoms. -/
def atomsVars (base : List (Lit String F Reduce)) : List String :=
  base.flatMap (fun l => match l with | .atom a => a.args.filterMap Term.var? | _ => [])

/-- Models one round of the loop (`demand_transform.rs` 247-264): the left-hand sides of assignments all of whose variables are grounded. -/
def groundStep (base : List (Lit String F Reduce)) (S : List String) : List String :=
  base.filterMap (fun l => match l with | .assign x e => if e.vars.all S.contains then some x else none | _ => none)

/-- Models the loop (`demand_transform.rs` 246-272); `none` means that the fuel ran out. -/
def groundLoop (base : List (Lit String F Reduce)) : Nat → List String → Option (List String)
  | 0, _ => none
  | fuel + 1, S => if (groundStep base S).all S.contains then some S else groundLoop base fuel (S ++ groundStep base S)

/-- Models `compute_grounded_variables` (`demand_transform.rs` 236-273). -/
def grounded (base : List (Lit String F Reduce)) : Option (List String) := groundLoop base (base.length + 1) (atomsVars base)

/-- Models `remove_ungrounded_literals` (`demand_transform.rs` 275-296). -/
def removeUngrounded (base : List (Lit String F Reduce)) : Option (List (Lit String F Reduce)) :=
  (grounded base).map (fun g => base.filter (fun l =>
    match l with
    | .assign _ e => e.vars.all g.contains
    | .cbin _ a b => ((a.var?).toList ++ (b.var?).toList).all g.contains
    | .cnot a => (a.var?).toList.all g.contains
    | _ => true))

/-- Models `is_identity_demand_rule` (`demand_transform.rs` 298-307). -/
def isIdentity [DecidableEq F] (base : List (Lit String F Reduce)) (goal : Atom String F) : Bool :=
  match base with
  | [.atom a] => decide (a = goal)
  | _ => false

/-- Models `generate_demand_rule` (`demand_transform.rs` 167-179). -/
def demandRule [DecidableEq F] (base : List (Lit String F Reduce)) (goal : Atom String F) (adm : Adornment) : Option (Option (SRule F)) :=
  (removeUngrounded base).map (fun base =>
    if isIdentity base goal then none
    else some { head := .atom ⟨adm.demandPredicate, boundedArgs adm.pattern goal.args⟩, body := base })

/-- Models `struct Arc` with `struct OnDemandAtom` (`demand_transform.rs` 465-476). -/
structure SipArc (F : Type) where
  lhs : List (Lit String F Reduce)
  rhs : List (Atom String F × Adornment)

/-- Models `generate_sips_with_max_num_atoms_per_layer` (`demand_transform.rs` 187-234); the inner `none` is a failure, the outer one means that the
fuel ran out. -/
def sips : Nat → List (Lit String F Reduce) → List (Atom String F × Adornment) → Option (Option (List (SipArc F)))
  | 0, _, _ => none
  | fuel + 1, base, todo =>
    (grounded base).bind (fun g =>
      let now := todo.filter (fun q => (boundedVarsOf q.2.pattern q.1.args).all g.contains)
      let later := todo.filter (fun q => !(boundedVarsOf q.2.pattern q.1.args).all g.contains)
      if later.isEmpty then some (some [⟨base, now⟩])
      else if now.isEmpty then some none
      else (sips fuel (base ++ now.map (fun q => .atom q.1)) later).map (fun r => r.map (fun arcs => ⟨base, now⟩ :: arcs)))

/-- The on-demand atom of a literal, positive or negated (`demand_transform.rs` 114-141). -/
def onDemand? (A : List (String × Adornment)) : Lit String F Reduce → Option (Atom String F × Adornment)
  | .atom a => (adornment A a.predicate).map (fun d => (a, d))
  | .neg a => (adornment A a.predicate).map (fun d => (a, d))
  | _ => none

/-- Applies a function that may fail to a list. -/
def allSome {α β : Type} (f : α → Option β) : List α → Option (List β)
  | [] => some []
  | a :: as => (f a).bind (fun b => (allSome f as).map (fun bs => b :: bs))

/-- Models `generate_demand_rules` (`demand_transform.rs` 108-165). -/
def demandRules [DecidableEq F] (A : List (String × Adornment)) (body : List (Lit String F Reduce)) : Option (List (SRule F)) :=
  let base := body.filter (fun l => (onDemand? A l).isNone)
  let todo := body.filterMap (onDemand? A)
  (sips (todo.length + 1) base todo).bind (fun r =>
    match r with
    | none => some []
    | some arcs => (allSome (fun arc => allSome (fun q : Atom String F × Adornment => demandRule arc.lhs q.1 q.2) arc.rhs) arcs).map (fun rss =>
        rss.flatten.filterMap id))

/-- Models `transform_on_demand_rule` (`demand_transform.rs` 84-98); `none` is the panic of `unwrap` for a disjunctive head. -/
def onDemandRule (adm : Adornment) (r : SRule F) : Option (SRule F) :=
  match r.head with
  | .atom a => some { r with body := r.body ++ [.atom ⟨adm.demandPredicate, boundedArgs adm.pattern a.args⟩] }
  | .disj _ => none

/-- What becomes of one rule (`demand_transform.rs` 61-78): the rewritten rule, and the rules for what it demands. -/
def transformRule [DecidableEq F] (A : List (String × Adornment)) (r : SRule F) : Option (SRule F × List (SRule F)) :=
  (headPred r.head).bind (fun p =>
    (match adornment A p with | some adm => onDemandRule adm r | none => some r).bind (fun r' =>
      (if r'.body.any (fun l => (onDemand? A l).isSome) then demandRules A r'.body else some []).map (fun ds => (r', ds))))

/-- Whether the relation defined by the rule is on demand. -/
def isOnDemand (A : List (String × Adornment)) (r : SRule F) : Bool := ((headPred r.head).bind (adornment A)).isSome

/-- Models `demand_transform_with_ctx` (`demand_transform.rs` 52-82). -/
def transformRules [DecidableEq F] (A : List (String × Adornment)) (rules : List (SRule F)) : Option (List (SRule F)) :=
  (allSome (transformRule A) rules).map (fun rs =>
    (rs.map Prod.fst).filter (isOnDemand A) ++ rs.flatMap Prod.snd ++ (rs.map Prod.fst).filter (fun r => !isOnDemand A r))

/-- Models `Program::demand_transform` (`demand_transform.rs` 10-34): the names of the added relations and the new rules. `undef` is an error. -/
def demandTransform [DecidableEq F] (rels : List RelDecl) (rules : List (SRule F)) : Outcome (List String × List (SRule F)) :=
  match collectAdornments rels with
  | none => .undef
  | some [] => .ok ([], rules)
  | some A => match transformRules A rules with
    | none => .panic
    | some rules' => .ok (A.map (fun q => q.2.demandPredicate), rules')

end Scallop.Plan
