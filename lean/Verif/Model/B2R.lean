import Verif.Model.Plan
import Verif.Model.Ram

/-!
# From query plans to dataflows

Models `/repo/core/src/compiler/back/b2r.rs` (346-1346): the translation of a query plan and the head of a rule into a RAM update, with the
temporary relations, the temporary relations for negated operands and the permuted copies of relations it asks for.

Simplifications. Types, facts, outputs and storage of relations are left out. The order in which a `HashSet` is iterated is an arbitrary function,
and so is the order by which variables are sorted. `NegativeDataflow::sources` is computed where it is used.
-/

namespace Scallop.Plan

open Scallop.Back Scallop.Ram

variable {F : Type}

/-- How the tuples of a relation are laid out (`AggregateBodyAttribute`, `AggregateGroupByAttribute`, `b2r.rs` 227-260). -/
inductive Shape where
  | normal
  | aggBody (numGroupBy : Nat)
  | aggGroupBy (numJoin : Nat)
deriving DecidableEq

/-- What the translation looks up in the program. -/
structure Env (F : Type) where
  /-- `get_relation` (`b2r.rs` 34-36): whether the relation is immutable and read from a file (589) -/
  static : String → Option Bool
  /-- the relation is stored as an indexed vector (`b2r.rs` 1308-1326) -/
  indexed : String → Bool
  /-- `num_bounded` of a foreign predicate -/
  numBounded : String → Option Nat
  /-- the attributes of the relation a rule defines (`b2r.rs` 1131-1155) -/
  shape : String → Option Shape
  /-- `is_magic_set_predicate` (`b2r.rs` 374) -/
  magic : String → Bool
  /-- the order in which a set of variables is iterated -/
  hashOrder : List String → List String
  /-- the order by which variables are sorted -/
  sortOrder : List String → List String

/-- Models the fields of `B2RContext` that are written (`b2r.rs` 20-27). -/
structure St (F : Type) where
  next : Nat := 0
  temps : List (String × Dataflow F) := []
  negs : List (String × Dataflow F) := []
  perms : List (String × Perm) := []
deriving DecidableEq

/-- Models `struct DataflowProp` (`b2r.rs` 47-56). -/
structure DProp where
  needSorted : Bool := false
  isNegative : Bool := false
  inPlace : Bool := false

/-- The results of a translation; `none` is a panic. -/
abbrev Res (F : Type) := Option (Dataflow F × St F)

/-- Models `create_temp_relation` (`b2r.rs` 1253-1268). -/
def createTemp (s : St F) (d : Dataflow F) : Dataflow F × St F :=
  let name := "#temp#" ++ toString s.next
  (.leaf (.rel name), { s with next := s.next + 1, temps := s.temps ++ [(name, d)] })

/-- Models `create_negative_temp_relation` (`b2r.rs` 1229-1251). -/
def createNeg (s : St F) (d : Dataflow F) : Dataflow F × St F :=
  let name := "#ntemp#" ++ toString s.next
  (.leaf (.rel name), { s with next := s.next + 1, negs := s.negs ++ [(name, d)] })

/-- Models `process_dataflow` (`b2r.rs` 1109-1128). -/
def process (p : DProp) (s : St F) (d : Dataflow F) : Dataflow F × St F :=
  if p.needSorted then
    if p.isNegative then createNeg s d
    else if p.inPlace then (.un .sorted d, s)
    else createTemp s d
  else (d, s)

/-- Models `permutated_predicate_name` (`b2r.rs` 1335-1337). -/
def permName (pred : String) (p : Perm) : String := pred ++ "#perm#" ++ permStr p

/-- Models `atom_eq_vars` (`b2r.rs` 1270-1286): pairs of the first position of a variable and a later one. The first argument maps the variables
seen to their first positions. -/
def eqVarsFrom (seen : List (String × Nat)) : Nat → List (Term String F) → List (Nat × Nat)
  | _, [] => []
  | i, .const _ :: ts => eqVarsFrom seen (i + 1) ts
  | i, .var x :: ts =>
    match seen.lookup x with
    | some j => (j, i) :: eqVarsFrom seen (i + 1) ts
    | none => eqVarsFrom ((x, i) :: seen) (i + 1) ts

/-- Conjunction of expressions, from the left (`b2r.rs` 499-504, 1222-1226, 1300-1303); `none` if there is none. -/
def conj : List (Expr F) → Option (Expr F)
  | [] => none
  | e :: es => some (es.foldl (fun a b => .bin .and a b) e)

/-- Access to a column (`TupleAccessor::from`, `common/tuple_access.rs` 72-76). -/
def col (i : Nat) : Option (Expr F) := mkAccess [i]

/-- The comparison of two columns (`b2r.rs` 1293-1299). -/
def eqCols (p : Nat × Nat) : Option (Expr F) := (col p.1).bind (fun a => (col p.2).map (fun b => .bin .eq a b))

/-- Models `atom_filter` (`b2r.rs` 1288-1306): the outer `none` is a failing access. -/
def atomFilter (a : Atom String F) : Option (Option (Expr F)) := ((eqVarsFrom [] 0 a.args).mapM eqCols).map conj

/-- Models `no_constant_ground_plan_to_ram_dataflow` (`b2r.rs` 596-632). -/
def groundNoConst (goal : VTuple) (a : Atom String F) (p : DProp) (s : St F) : Res F :=
  if matchesArgs goal a.args then some (.leaf (.rel a.predicate), s)
  else
    (permutation a.args [] goal).bind (fun r =>
      (permExpr r.1).bind (fun e =>
        (atomFilter a).bind (fun f =>
          match f with
          | some c =>
            let d : Dataflow F := .project (.un (.filter c) (.leaf (.rel a.predicate))) e
            if p.needSorted && !orderPreserving r.1 then
              let s' := { s with perms := s.perms ++ [(a.predicate, r.1)] }
              some (if p.isNegative then createNeg s' d else createTemp s' d)
            else some (d, s)
          | none =>
            if p.needSorted && !orderPreserving r.1 then
              some (.leaf (.rel (permName a.predicate r.1)), { s with perms := s.perms ++ [(a.predicate, r.1)] })
            else some (.project (.leaf (.rel a.predicate)) e, s))))

/-- Models `const_var` (`b2r.rs` 1340-1345). -/
def constVar (i : Nat) : String := "const#" ++ toString i

/-- The arguments of an atom with constants replaced by variables (`b2r.rs` 475-483, 529-537). -/
def constArgsFrom : Nat → List (Term String F) → List String
  | _, [] => []
  | i, .const _ :: ts => constVar i :: constArgsFrom (i + 1) ts
  | i, .var x :: ts => x :: constArgsFrom (i + 1) ts

/-- The constants of an atom with their positions (`const_var_partition`, `ast.rs` 466-483). -/
def constsFrom : Nat → List (Term String F) → List (Nat × Val F)
  | _, [] => []
  | i, .const c :: ts => (i, c) :: constsFrom (i + 1) ts
  | i, .var _ :: ts => constsFrom (i + 1) ts

/-- The atom with constants replaced by variables (`b2r.rs` 487-490, 527-538). -/
def subAtom (a : Atom String F) : Atom String F := { predicate := a.predicate, args := (constArgsFrom 0 a.args).map .var }

/-- A tuple of one component is that component (`b2r.rs` 541-560, 567-571). -/
def single {V : Type} : List V → Tup V
  | [v] => .val v
  | vs => .tup (vs.map .val)

/-- Models `static_with_constant_ground_plan_to_ram_dataflow` (`b2r.rs` 467-514). -/
def groundStatic (goal : VTuple) (a : Atom String F) (p : DProp) (s : St F) : Res F :=
  let subGoal := fromVars (constArgsFrom 0 a.args) true
  (groundNoConst subGoal (subAtom a) { p with needSorted := false } s).bind (fun r =>
    ((constsFrom 0 a.args).mapM (fun c => (col c.1).map (fun e => (.bin .eq e (.const c.2) : Expr F)))).bind (fun es =>
      (conj es).bind (fun f =>
        (projection subGoal goal).map (fun e => process p r.2 (.project (.un (.filter f) r.1) e)))))

/-- Models `dynamic_with_constant_ground_plan_to_ram_dataflow` (`b2r.rs` 516-579). -/
def groundDynamic (goal : VTuple) (a : Atom String F) (p : DProp) (s : St F) : Res F :=
  let consts := constsFrom 0 a.args
  let subGoal : VTuple := .tup [single (consts.map (fun c => constVar c.1)), single (atomVars a)]
  (groundNoConst subGoal (subAtom a) { p with needSorted := true } s).bind (fun r =>
    (projection subGoal goal).map (fun e => process p r.2 (.project (.un (.find (single (consts.map Prod.snd))) r.1) e)))

/-- Models `constant_args_are_upfront` (`ast.rs` 440-455). -/
def constsUpfront : List (Term String F) → Bool
  | [] => true
  | .const _ :: ts => constsUpfront ts
  | .var _ :: ts => ts.all (fun t => t.const?.isNone)

/-- Models `ground_plan_to_ram_dataflow` (`b2r.rs` 634-648) with `empty_ground_plan_to_ram_dataflow` (457-465) and
`with_constant_ground_plan_to_ram_dataflow` (581-594). -/
def groundFlow (E : Env F) (goal : VTuple) (a : Atom String F) (p : DProp) (s : St F) : Res F :=
  if a.args.isEmpty then
    if matchesArgs goal a.args then some (.leaf (.rel a.predicate), s)
    else (projection (.tup []) goal).map (fun e => (.project (.leaf (.rel a.predicate)) e, s))
  else if a.args.any (fun t => t.const?.isSome) then
    (E.static a.predicate).bind (fun st =>
      if st && !constsUpfront a.args then groundStatic goal a p s else groundDynamic goal a p s)
  else groundNoConst goal a p s

/-- The expression for a constraint (`b2r.rs` 1214-1221). -/
def conExpr (t : VTuple) : Con F → Option (Expr F)
  | .bin op a b => (termExpr t a).bind (fun x => (termExpr t b).map (fun y => .bin op.toBin x y))
  | .not a => (termExpr t a).map (.un .not)

/-- Models `constraints_to_ram_filter` (`b2r.rs` 1213-1227); `constraints[0]` panics if there is none. -/
def consExpr (t : VTuple) (cs : List (Con F)) : Option (Expr F) := (cs.mapM (conExpr t)).bind conj

/-- Models `sub_tuple` (`b2r.rs` 1199-1211). -/
def subTuple (E : Env F) (goal : VTuple) (d : Plan F) : VTuple :=
  match d.directAtom with
  | some a =>
    if a.args.all (fun t => t.var?.isSome) && decide (atomVars a).Nodup then subtuple goal (atomVars a)
    else subtuple goal (E.sortOrder (uniq d.bounded))
  | none => subtuple goal (E.sortOrder (uniq d.bounded))

/-- Equality of sets of variables. -/
def sameSet (a b : List String) : Bool := a.all (fun x => decide (x ∈ b)) && b.all (fun x => decide (x ∈ a))

/-- The sub-goal of an intersection or a difference (`b2r.rs` 767-771, 920-924). -/
def commonGoal (E : Env F) (goal : VTuple) (d1 d2 : Plan F) : VTuple :=
  match d1.directAtom, d2.directAtom with
  | some a, _ => fromVars (E.sortOrder (uniq (atomVars a))) false
  | none, some a => fromVars (E.sortOrder (uniq (atomVars a))) false
  | none, none => goal

/-- The shape of the results of an aggregation (`b2r.rs` 953-967). -/
def reduceTuple (r : Reduce) : VTuple :=
  if r.groupBy.isEmpty then fromVars r.leftVars true
  else
    match r.groupByPred with
    | some _ => .tup [fromVars r.groupBy true, fromVars r.otherGroupBy true, fromVars r.leftVars true]
    | none => .tup [fromVars r.groupBy true, fromVars r.leftVars true]

/-- The kind of grouping (`b2r.rs` 970-978). -/
def reduceGroupBy (r : Reduce) : GroupBy :=
  if r.groupBy.isEmpty then .none
  else
    match r.groupByPred with
    | some p => .join p
    | none => .implicit

/-- Models `reduce_plan_to_ram_dataflow` (`b2r.rs` 945-993). -/
def reduceFlow (goal : VTuple) (r : Reduce) (p : DProp) (s : St F) : Res F :=
  (projection (reduceTuple r) goal).map (fun e => process p s (.project (.leaf (.reduce r.aggregator r.body (reduceGroupBy r))) e))

/-- Models `project_plan_to_ram_dataflow` (`b2r.rs` 670-701); `sub` is the translation of the operand, `b` its variables. `none` is a panic. With
every level the list of assignments gets shorter or the next level ends the recursion, which bounds the fuel. -/
def projectFlow (E : Env F) (sub : VTuple → DProp → St F → Res F) (b : List String) :
    Nat → VTuple → List (String × AExpr String F) → DProp → St F → Res F
  | 0, _, _, _, _ => none
  | fuel + 1, goal, assigns, p, s =>
    let bounded := (vars goal).filter (fun v => decide (v ∈ b))
    let toBound := (vars goal).filter (fun v => decide (v ∉ b))
    if toBound.isEmpty then sub goal p s
    else if assigns.isEmpty then none
    else
      let current := assigns.filter (fun a => decide (a.1 ∈ toBound))
      let rest := assigns.filter (fun a => decide (a.1 ∉ toBound))
      let subGoal := fromVars (E.hashOrder bounded ++ current.flatMap (fun a => a.2.vars)) false
      (projectFlow E sub b fuel subGoal rest { p with needSorted := false } s).bind (fun r =>
        (projectionAssigns subGoal current goal).map (fun e => process p r.2 (.project r.1 e)))

/-- The key and the rest of the operands of a join (`b2r.rs` 800-824, 882-894). -/
def joinGoal (E : Env F) (joint : List String) (goal : VTuple) (d : Plan F) : VTuple :=
  fromVars (E.sortOrder ((vars goal).filter (fun v => decide (v ∈ d.bounded) && decide (v ∉ joint)))) true

/-- The variables bound by both plans (`b2r.rs` 711-715, 875-879). -/
def joinVars (d1 d2 : Plan F) : List String := (uniq d1.bounded).filter (fun v => decide (v ∈ d2.bounded))

/-- Models `get_right_join_indexed_vec` (`b2r.rs` 1308-1326). -/
def indexedVec? (E : Env F) : Dataflow F → Option String
  | .leaf (.rel r) => if E.indexed r then some r else none
  | _ => none

/-- Models `plan_to_ram_dataflow` (`b2r.rs` 436-455) with the functions for the nodes (650-943, 995-1107). -/
def toRam (E : Env F) : Plan F → VTuple → DProp → St F → Res F
  | .unit, goal, _, s => (unitValue goal).map (fun t => (.leaf (.unit t), s))
  | .reduce r, goal, p, s => reduceFlow goal r p s
  | .ground a, goal, p, s => groundFlow E goal a p s
  | .project _ d assigns, goal, p, s => projectFlow E (toRam E d) d.bounded (assigns.length + 2) goal assigns p s
  | .filter _ d cs, goal, p, s =>
    let subGoal := expand goal (cs.flatMap (fun c => E.sortOrder (uniq c.vars)))
    (toRam E d subGoal p s).bind (fun r =>
      (consExpr subGoal cs).bind (fun f =>
        (projection subGoal goal).map (fun e => process p r.2 (.project (.un (.filter f) r.1) e))))
  | .join d1 d2, goal, p, s =>
    let pos : DProp := { p with needSorted := true, isNegative := false }
    if (joinVars d1 d2).isEmpty then
      -- `product_to_ram_dataflow` (731-756)
      let g1 := subTuple E goal d1
      let g2 := subTuple E goal d2
      (toRam E d1 g1 pos s).bind (fun r1 => (toRam E d2 g2 pos r1.2).bind (fun r2 =>
        (projection (.tup [g1, g2]) goal).map (fun e => process p r2.2 (.project (.bin .product r1.1 r2.1) e))))
    else if sameSet d1.bounded d2.bounded then
      -- `intersect_to_ram_dataflow` (758-788)
      let g := commonGoal E goal d1 d2
      (toRam E d1 g pos s).bind (fun r1 => (toRam E d2 g pos r1.2).bind (fun r2 =>
        if g = goal then some (.bin .intersect r1.1 r2.1, r2.2)
        else (projection g goal).map (fun e => process p r2.2 (.project (.bin .intersect r1.1 r2.1) e))))
    else
      -- `join_to_ram_dataflow` (790-847)
      let key := fromVars (E.sortOrder (joinVars d1 d2)) true
      let g1 := joinGoal E (joinVars d1 d2) goal d1
      let g2 := joinGoal E (joinVars d1 d2) goal d2
      (toRam E d1 (.tup [key, g1]) pos s).bind (fun r1 => (toRam E d2 (.tup [key, g2]) pos r1.2).bind (fun r2 =>
        (projection (.tup [key, g1, g2]) goal).map (fun e =>
          match indexedVec? E r2.1 with
          | some rel => process p r2.2 (.project (.un (.joinIndexedVec rel) r1.1) e)
          | none => process p r2.2 (.project (.bin .join r1.1 r2.1) e))))
  | .antijoin d1 d2, goal, p, s =>
    let pos : DProp := { p with needSorted := true, isNegative := false }
    let neg : DProp := { p with needSorted := true, isNegative := true }
    if sameSet d1.bounded d2.bounded then
      -- `difference_to_ram_dataflow` (911-943)
      let g := commonGoal E goal d1 d2
      (toRam E d1 g pos s).bind (fun r1 => (toRam E d2 g neg r1.2).bind (fun r2 =>
        if g = goal then some (.bin .difference r1.1 r2.1, r2.2)
        else (projection g goal).map (fun e => process p r2.2 (.project (.bin .difference r1.1 r2.1) e))))
    else
      -- `antijoin_to_ram_dataflow` (867-909)
      let key := fromVars (E.sortOrder (joinVars d1 d2)) true
      let g1 := joinGoal E (joinVars d1 d2) goal d1
      (toRam E d1 (.tup [key, g1]) pos s).bind (fun r1 => (toRam E d2 key neg r1.2).bind (fun r2 =>
        (projection (.tup [key, g1]) goal).map (fun e => process p r2.2 (.project (.bin .antijoin r1.1 r2.1) e))))
  | .fpGround a free, goal, p, s =>
    -- `fp_ground_plan_to_ram_dataflow` (995-1028)
    (a.args.mapM Term.const?).bind (fun cs =>
      (projection (fromVars free false) goal).map (fun e => process p s (.project (.leaf (.foreign a.predicate cs)) e)))
  | .fpConstraint _ d a, goal, p, s =>
    -- `fp_constraint_plan_to_ram_dataflow` (1030-1060)
    let subGoal := fromVars (E.hashOrder d.bounded) false
    (toRam E d subGoal { p with needSorted := false } s).bind (fun r =>
      (termExprs subGoal a.args).bind (fun es =>
        (projection subGoal goal).map (fun e => process p r.2 (.project (.un (.foreignConstraint a.predicate es) r.1) e))))
  | .fpJoin d a free, goal, p, s =>
    -- `fp_join_plan_to_ram_dataflow` (1062-1107)
    let left := fromVars (E.hashOrder d.bounded) false
    (toRam E d left { p with needSorted := false } s).bind (fun r =>
      (termExprs left a.args).bind (fun es =>
        (projection (.tup [left, fromVars free false]) goal).map (fun e =>
          process p r.2 (.project (.un (.foreignJoin a.predicate es) r.1) e))))

/-! ## Heads -/

/-- Models `head_atom_variable_tuple` (`b2r.rs` 1130-1179): the shape of the head and whether it has constants; `none` is a panic. -/
def headTuple (E : Env F) (a : Atom String F) : Option (VTuple × Bool) :=
  (E.shape a.predicate).bind (fun sh =>
    match sh with
    | .aggBody n =>
      let agg := fromVars ((atomVars a).drop n) true
      if n ≤ (atomVars a).length then some (if n = 0 then agg else .tup [fromVars ((atomVars a).take n) true, agg], false) else none
    | .aggGroupBy n =>
      if n ≤ (atomVars a).length then some (.tup [fromVars ((atomVars a).take n) true, fromVars ((atomVars a).drop n) true], false) else none
    | .normal => some (.tup ((atomVars a).map .val), a.args.any (fun t => t.const?.isSome)))

/-- Models `projection_to_atom_head` (`b2r.rs` 1181-1197). -/
def headProjection (t : VTuple) (a : Atom String F) : Option (Expr F) := (termExprs t a.args).map .tuple

/-- Models the case of an atomic head in `plan_to_ram_update` (`b2r.rs` 355-381). -/
def atomHeadFlow (E : Env F) (a : Atom String F) (d : Plan F) (inPlace : Bool) (s : St F) : Res F :=
  (headTuple E a).bind (fun h =>
    let subGoal := dedupTuple h.1
    (toRam E d subGoal { inPlace := inPlace } s).bind (fun r =>
      (if h.2 then (headProjection subGoal a).map (Flow.project r.1)
        else if h.1 ≠ subGoal then (projection subGoal h.1).map (Flow.project r.1)
        else some r.1).map (fun f => (if E.magic a.predicate then .un .overwriteOne f else f, r.2))))

/-- The projection that puts variables and constants of an alternative back in place (`b2r.rs` 403-419): `v` and `c` count them. -/
def disjProjection : Nat → Nat → List (Term String F) → Option (List (Expr F))
  | _, _, [] => some []
  | v, c, .var _ :: ts => (mkAccess [0, v]).bind (fun e => (disjProjection (v + 1) c ts).map (e :: ·))
  | v, c, .const _ :: ts => (mkAccess [1, c]).bind (fun e => (disjProjection v (c + 1) ts).map (e :: ·))

/-- The pattern of an atom (`ast.rs` 209-216): variables by name, constants as `none` (the code uses the empty name). -/
def pattern (a : Atom String F) : List (Option String) := a.args.map Term.var?

/-- Models `has_multiple_patterns` (`ast.rs` 202-238), the `zip` of which does not look beyond the end of an atom shorter than the first. -/
def multiplePatterns : List (Atom String F) → Bool
  | [] => false
  | a :: as => !(as.all (fun b => decide (pattern b <+: pattern a)))

/-- Models the case of a disjunctive head in `plan_to_ram_update` (`b2r.rs` 382-426); `none` is a panic. -/
def disjHeadFlow (E : Env F) (as : List (Atom String F)) (d : Plan F) (inPlace : Bool) (s : St F) : Res F :=
  match as with
  | [] => none
  | a :: _ =>
    if multiplePatterns as then none
    else
      (toRam E d (fromVars (atomVars a) false) { inPlace := inPlace } s).bind (fun r =>
        (disjProjection 0 0 a.args).map (fun es =>
          (.project (.un (.exclusion (as.map (fun b => .tup ((constsFrom 0 b.args).map (fun c => .val c.2))))) r.1) (.tuple es), r.2)))

/-- Models `plan_to_ram_update` (`b2r.rs` 346-434); the target of the update is the predicate of the head. -/
def headFlow (E : Env F) (h : Head String F) (d : Plan F) (inPlace : Bool) (s : St F) : Res F :=
  match h with
  | .atom a => atomHeadFlow E a d inPlace s
  | .disj as => disjHeadFlow E as d inPlace s

/-- Models the translation of a rule (`b2r.rs` 195-199): its plan, then its update. `none` is a panic. -/
def ruleFlow (E : Env F) (S : Search) (h : Head String F) (body : List (Lit String F Reduce)) (inPlace : Bool) (s : St F) : Res F :=
  (Ctx.fromRule E.numBounded body).bind (fun c => (queryPlan S c).bind (fun d => headFlow E h d inPlace s))

end Scallop.Plan
