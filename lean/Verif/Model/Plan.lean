import Verif.Model.VarTuple

/-!
# Query plans

Models `/repo/core/src/compiler/back/query_plan/{arc,state,context,plan}.rs`: from the body of a rule to a tree of joins, filters, projections
and negations.

Simplifications. A variable is a name; a set of variables is a list, compared by mutual inclusion. The sets of indices of literals already
applied (`applied_assigns`, `applied_constraints`, `applied_foreign_predicates`) are modelled by the lists of the literals not yet applied. The
weights that steer the search for an order of the atoms (`arc.rs` 15-20, `context.rs` 66-143) are arbitrary, and so is the order in which equally
good states leave a `BinaryHeap` or a sort.
-/

namespace Scallop.Plan

open Scallop.Back

variable {F : Type}

/-- Models `struct Reduce` (`ast.rs` 714-737). The parameters and the exclamation mark are part of the aggregator's name, types are left out, of
the body and the group-by formula only the predicates are kept (their arguments are the variables listed). -/
structure Reduce where
  aggregator : String
  leftVars : List String
  groupBy : List String
  otherGroupBy : List String
  argVars : List String
  body : String
  groupByPred : Option String
deriving DecidableEq

/-- Models `Reduce::variable_args` (`ast.rs` 773-779). -/
def Reduce.vars (r : Reduce) : List String := r.leftVars ++ r.argVars ++ r.groupBy

/-- Models `enum Constraint` (`ast.rs` 592-595). -/
inductive Con (F : Type) where
  | bin (op : COp) (a b : Term String F)
  | not (a : Term String F)
deriving DecidableEq

/-- Models `Constraint::variable_args` (`ast.rs` 622-634). -/
def Con.vars : Con F → List String
  | .bin _ a b => [a, b].filterMap Term.var?
  | .not a => [a].filterMap Term.var?

/-- Models `Atom::variable_args` (`ast.rs` 422-427). -/
def atomVars (a : Atom String F) : List String := a.args.filterMap Term.var?

/-- Models `struct Plan` with `enum HighRamNode` (`plan.rs` 5-9, 76-88); the first argument of a constructor is `bounded_vars` where it is not
determined by the node. -/
inductive Plan (F : Type) where
  | unit
  | reduce (r : Reduce)
  | ground (a : Atom String F)
  | project (b : List String) (d : Plan F) (assigns : List (String × AExpr String F))
  | filter (b : List String) (d : Plan F) (cons : List (Con F))
  | join (d1 d2 : Plan F)
  | antijoin (d1 d2 : Plan F)
  | fpGround (a : Atom String F) (free : List String)
  | fpConstraint (b : List String) (d : Plan F) (a : Atom String F)
  | fpJoin (d : Plan F) (a : Atom String F) (free : List String)
deriving DecidableEq

/-- The field `bounded_vars` (`plan.rs` 7), as it is filled in where the nodes are built (`context.rs` 353-356, 411-419, 500-504, 611-614, 628-645,
658-691, 703-712). -/
def Plan.bounded : Plan F → List String
  | .unit => []
  | .reduce r => r.vars
  | .ground a => atomVars a
  | .project b _ _ => b
  | .filter b _ _ => b
  | .join d1 d2 => d1.bounded ++ d2.bounded
  | .antijoin d1 _ => d1.bounded
  | .fpGround _ free => free
  | .fpConstraint b _ _ => b
  | .fpJoin d _ free => d.bounded ++ free

/-- Models `HighRamNode::direct_atom` (`plan.rs` 116-122). -/
def Plan.directAtom : Plan F → Option (Atom String F)
  | .ground a => some a
  | .filter _ d _ => d.directAtom
  | _ => none

/-- Models `struct QueryPlanContext` (`context.rs` 10-20). `numBounded` is the registry of foreign predicates with `num_bounded` of each. -/
structure Ctx (F : Type) where
  reduces : List Reduce := []
  pos : List (Atom String F) := []
  neg : List (Atom String F) := []
  assigns : List (String × AExpr String F) := []
  cons : List (Con F) := []
  fps : List (Atom String F) := []
  numBounded : String → Option Nat := fun _ => none

/-- Models the loop of `QueryPlanContext::from_rule` (`context.rs` 43-61); `none` is the panic on a `false` literal. -/
def Ctx.addLit (c : Ctx F) : Lit String F Reduce → Option (Ctx F)
  | .reduce r _ => some { c with reduces := c.reduces ++ [r] }
  | .atom a => some (if (c.numBounded a.predicate).isSome then { c with fps := c.fps ++ [a] } else { c with pos := c.pos ++ [a] })
  | .neg a => some { c with neg := c.neg ++ [a] }
  | .assign x e => some { c with assigns := c.assigns ++ [(x, e)] }
  | .cbin op a b => some { c with cons := c.cons ++ [.bin op a b] }
  | .cnot a => some { c with cons := c.cons ++ [.not a] }
  | .tt => some c
  | .ff => none

/-- The loop over the literals (`context.rs` 43-61). -/
def Ctx.addLits (c : Ctx F) : List (Lit String F Reduce) → Option (Ctx F)
  | [] => some c
  | l :: ls => (c.addLit l).bind (fun c' => c'.addLits ls)

/-- Models `QueryPlanContext::from_rule` (`context.rs` 24-63). -/
def Ctx.fromRule (numBounded : String → Option Nat) (body : List (Lit String F Reduce)) : Option (Ctx F) :=
  Ctx.addLits { numBounded := numBounded } body

/-! ## The order of the atoms -/

/-- Models `struct State` (`state.rs` 8-12): the atoms visited, in order. An arc is given by its right end; its left end only enters the weight. -/
abbrev SState := List Nat

/-- Everything the search leaves open: the weight of a state (`state.rs` 35-37), how `sort_by_key` orders equal states and which of the states of
largest weight a heap pops. -/
structure Search where
  sort : List SState → List SState
  pop : List SState → Option (SState × List SState)

/-- Models the states generated by `State::next_states` before sorting (`state.rs` 43-71): for every atom not visited and every subset of the
visited ones (the left end of the arc) a state. -/
def candidates (n : Nat) (s : SState) : List SState :=
  ((List.range n).filter (fun i => decide (i ∉ s))).flatMap (fun i => List.replicate (2 ^ s.length) (s ++ [i]))

/-- Models `State::next_states` (`state.rs` 39-75). -/
def nextStates (S : Search) (n beam : Nat) (s : SState) : List SState :=
  if n ≤ s.length then [] else (S.sort (candidates n s)).take beam

/-- Models the inner loop of the search (`context.rs` 165-174): pop all states of the queue, and sort their successors into final states and
others. The fuel is the size of the queue. -/
def expandQueue (S : Search) (n beam : Nat) : Nat → List SState → List SState × List SState → List SState × List SState
  | 0, _, r => r
  | fuel + 1, q, r =>
    match S.pop q with
    | none => r
    | some (top, q') =>
      let next := nextStates S n beam top
      expandQueue S n beam fuel q' (r.1 ++ next.filter (fun s => decide (s.length = n)), r.2 ++ next.filter (fun s => decide (s.length ≠ n)))

/-- Models `for _ in 0..beam_size { pop }` (`context.rs` 177-183). -/
def popMany (S : Search) : Nat → List SState → List SState
  | 0, _ => []
  | k + 1, q =>
    match S.pop q with
    | none => []
    | some (s, q') => s :: popMany S k q'

/-- Models the outer loop of the search (`context.rs` 161-184); `none` means that the fuel ran out. -/
def searchLoop (S : Search) (n beam : Nat) : Nat → List SState → List SState → Option (List SState)
  | _, [], finals => some finals
  | 0, _ :: _, _ => none
  | fuel + 1, q, finals =>
    let r := expandQueue S n beam q.length q (finals, [])
    searchLoop S n beam fuel (popMany S beam r.2) r.1

/-- Models `pos_atom_arcs` (`context.rs` 145-188) for `n` atoms; `none` is the panic of `unwrap` (or exhausted fuel). -/
def atomOrder (S : Search) (n beam : Nat) : Option SState :=
  if n = 0 then some []
  else (searchLoop S n beam n [[]] []).bind (fun finals => (S.pop finals).map Prod.fst)

/-! ## Applying literals -/

/-- The literals not yet applied. -/
structure Pending (F : Type) where
  assigns : List (String × AExpr String F)
  cons : List (Con F)
  fps : List (Atom String F)

/-- Models `term_is_bounded` (`context.rs` 744-749). -/
def termBounded (b : List String) : Term String F → Bool
  | .var x => decide (x ∈ b)
  | .const _ => true

/-- Models `try_apply_constraint` (`context.rs` 190-213). -/
def tryCons (p : Pending F) (d : Plan F) : Pending F × Plan F :=
  let ok := fun c : Con F => c.vars.all (fun v => decide (v ∈ d.bounded))
  match p.cons.filter ok with
  | [] => (p, d)
  | c :: cs => ({ p with cons := p.cons.filter (fun c => !ok c) }, .filter d.bounded d (c :: cs))

/-- Models `AssignExpr::is_new_expr` (`ast.rs` 546-551). -/
def isNew : AExpr String F → Bool
  | .new _ _ => true
  | _ => false

/-- The condition under which an assignment is applied (`context.rs` 224-227). -/
def assignApplies (b : List String) (a : String × AExpr String F) : Bool :=
  decide (a.1 ∉ b) && !isNew a.2 && a.2.vars.all (fun v => decide (v ∈ b))

/-- Models the loop of `try_apply_non_new_assigns` (`context.rs` 216-245). The fuel is the number of pending assignments. -/
def tryAssigns : Nat → Pending F → Plan F → Pending F × Plan F
  | 0, p, d => (p, d)
  | fuel + 1, p, d =>
    match p.assigns.filter (assignApplies d.bounded) with
    | [] => (p, d)
    | a :: as =>
      tryAssigns fuel { p with assigns := p.assigns.filter (fun a => !assignApplies d.bounded a) }
        (.project (d.bounded ++ (a :: as).map Prod.fst) d (a :: as))

/-- The arguments of a foreign predicate atom with their positions: to be bound, and free (`foreign_predicate_atom_info`, `context.rs` 248-260);
`none` is the panic of `unwrap`. -/
def fpInfo (c : Ctx F) (a : Atom String F) : Option (List (Term String F) × List (Nat × Term String F)) :=
  (c.numBounded a.predicate).map (fun n => (a.args.take n, (a.args.zipIdx.drop n).map (fun p => (p.2, p.1))))

/-- The name given to the position of a constant (`context.rs` 267, 328). -/
def constName (pred : String) (i : Nat) : String := "c#" ++ pred ++ "#" ++ toString i

/-- Models `foreign_predicate_constant_constraints` (`context.rs` 262-274). -/
def fpConstCons (pred : String) (free : List (Nat × Term String F)) : List (Con F) :=
  free.filterMap (fun p => match p.2 with | .const v => some (.bin .eq (.var (constName pred p.1)) (.const v)) | .var _ => none)

/-- Models the renaming in `rename_free_arguments` (`context.rs` 303-330). The table maps a variable to its latest name and to the number of its
occurrences; the results are the new names and the equalities between successive names. -/
def renameFree (pred : String) : List (String × String × Nat) → List (Nat × Term String F) → List String × List (String × String)
  | _, [] => ([], [])
  | tab, (i, .const _) :: as =>
    let r := renameFree pred tab as
    (constName pred i :: r.1, r.2)
  | tab, (_, .var x) :: as =>
    match tab.lookup x with
    | some (old, occ) =>
      let new := x ++ "#" ++ toString occ
      let r := renameFree pred ((x, new, occ + 1) :: tab) as
      (new :: r.1, (old, new) :: r.2)
    | none =>
      let r := renameFree pred ((x, x, 1) :: tab) as
      (x :: r.1, r.2)

/-- Models `rename_free_arguments` (`context.rs` 293-332). -/
def renameFreeArgs (pred : String) (free : List (Nat × Term String F)) (occurred : List String) : List String × List (String × String) :=
  renameFree pred (occurred.map (fun v => (v, v, 0))) free

/-- Models `foreign_predicate_equality_constraints` (`context.rs` 276-281). -/
def fpEqCons (eqs : List (String × String)) : List (Con F) := eqs.map (fun p => .bin .eq (.var p.1) (.var p.2))

/-- The variables among the free arguments (`context.rs` 369-375, 432-438). -/
def freeVars (free : List (Nat × Term String F)) : List String := free.filterMap (fun p => p.2.var?)

/-- Models `compute_foreign_predicate_ground_atom` (`context.rs` 335-387). -/
def fpGroundPlan (a : Atom String F) (bound : List (Term String F)) (free : List (Nat × Term String F)) : Plan F :=
  let r := renameFreeArgs a.predicate free []
  let g : Plan F := .fpGround { predicate := a.predicate, args := bound } r.1
  match fpConstCons a.predicate free ++ fpEqCons r.2 with
  | [] => g
  | c :: cs => .filter (freeVars free) g (c :: cs)

/-- Models `compute_foreign_predicate_join_atom` (`context.rs` 389-455). -/
def fpJoinPlan (left : Plan F) (a : Atom String F) (bound : List (Term String F)) (free : List (Nat × Term String F)) : Plan F :=
  let r := renameFreeArgs a.predicate free left.bounded
  let g : Plan F := .fpJoin left { predicate := a.predicate, args := bound } r.1
  match fpConstCons a.predicate free ++ fpEqCons r.2 with
  | [] => g
  | c :: cs => .filter (left.bounded ++ freeVars free) g (c :: cs)

/-- Models the treatment of one applicable foreign predicate atom (`context.rs` 483-508). `b` is the set of variables taken at the beginning of
`try_apply_foreign_predicate_atom`. -/
def applyFp (b : List String) (d : Plan F) (a : Atom String F) (bound : List (Term String F)) (free : List (Nat × Term String F)) : Plan F :=
  if free.isEmpty then .fpConstraint b d a
  else if bound.all (fun t => t.const?.isSome) then .join d (fpGroundPlan a bound free)
  else fpJoinPlan d a bound free

/-- Models `try_apply_foreign_predicate_atom` (`context.rs` 462-521). Which atoms apply depends on `b`, which the code does not update in its
loop, so that all of them are found in the first round; the model has only this round. -/
def tryFps (c : Ctx F) (b : List String) : List (Atom String F) → Plan F → Option (List (Atom String F) × Plan F)
  | [], d => some ([], d)
  | a :: as, d =>
    (fpInfo c a).bind (fun r =>
      if r.1.all (termBounded b) then tryFps c b as (applyFp b d a r.1 r.2)
      else (tryFps c b as d).map (fun q => (a :: q.1, q.2)))

/-- Models one round of `try_apply` (`context.rs` 535-537). -/
def tryRound (c : Ctx F) (p : Pending F) (d : Plan F) : Option (Pending F × Plan F) :=
  let r1 := tryAssigns p.assigns.length p d
  let r2 := tryCons r1.1 r1.2
  (tryFps c r2.2.bounded r2.1.fps r2.2).map (fun r3 => ({ r2.1 with fps := r3.1 }, r3.2))

/-- The number of literals not yet applied. -/
def Pending.size (p : Pending F) : Nat := p.assigns.length + p.cons.length + p.fps.length

/-- Models `try_apply` (`context.rs` 523-553). Every round but the last applies something, so that the number of pending literals bounds the
rounds; `none` means a panic (or exhausted fuel). -/
def tryApply (c : Ctx F) : Nat → Pending F → Plan F → Option (Pending F × Plan F)
  | 0, _, _ => none
  | fuel + 1, p, d =>
    (tryRound c p d).bind (fun r => if r.1.size = p.size then some r else tryApply c fuel r.1 r.2)

/-- `try_apply` with enough fuel. -/
def tryApplyAll (c : Ctx F) (p : Pending F) (d : Plan F) : Option (Pending F × Plan F) := tryApply c (p.size + 1) p d

/-- Models `is_ground_foreign_atom` (`context.rs` 555-558). -/
def isGroundFp (c : Ctx F) (a : Atom String F) : Bool :=
  match fpInfo c a with
  | some r => r.1.all (fun t => t.const?.isSome)
  | none => false

/-- The first ground foreign predicate atom and the others (`context.rs` 588-594). -/
def takeGroundFp (c : Ctx F) : List (Atom String F) → Option (Atom String F × List (Atom String F))
  | [] => none
  | a :: as => if isGroundFp c a then some (a, as) else (takeGroundFp c as).map (fun r => (r.1, a :: r.2))

/-- Models the construction of the first fringe (`context.rs` 572-655), with the order of the atoms still to be joined; `none` is a panic. -/
def firstFringe (c : Ctx F) (order : List Nat) : Option (Pending F × Plan F × List Nat) :=
  let p : Pending F := { assigns := c.assigns, cons := c.cons, fps := c.fps }
  match c.reduces with
  | [] =>
    match order with
    | [] =>
      match c.fps with
      | [] => (tryApplyAll c p .unit).map (fun r => (r.1, r.2, []))
      | _ :: _ =>
        (takeGroundFp c c.fps).bind (fun g =>
          (fpInfo c g.1).bind (fun i =>
            (tryApplyAll c { p with fps := g.2 } (fpGroundPlan g.1 i.1 i.2)).map (fun r => (r.1, r.2, []))))
    | i :: rest => (c.pos[i]?).bind (fun a => (tryApplyAll c p (.ground a)).map (fun r => (r.1, r.2, rest)))
  | r :: rs => (tryApplyAll c p (rs.foldl (fun d r => .join d (.reduce r)) (.reduce r))).map (fun q => (q.1, q.2, order))

/-- Models the loop over the arcs (`context.rs` 658-700). The two branches build the same node. -/
def joinAtoms (c : Ctx F) : List Nat → Pending F → Plan F → Option (Pending F × Plan F)
  | [], p, d => some (p, d)
  | i :: is, p, d =>
    (c.pos[i]?).bind (fun a => (tryApplyAll c p (.join d (.ground a))).bind (fun r => joinAtoms c is r.1 r.2))

/-- Models stage 5 (`context.rs` 714-732). -/
def applyNew (c : Ctx F) (d : Plan F) : Plan F :=
  match c.assigns.filter (fun a => isNew a.2) with
  | [] => d
  | a :: as => .project ((a :: as).map Prod.fst ++ d.bounded) d (a :: as)

/-- Models `get_query_plan` (`context.rs` 561-735). -/
def queryPlanOf (c : Ctx F) (order : List Nat) : Option (Plan F) :=
  (firstFringe c order).bind (fun f =>
    (joinAtoms c f.2.2 f.1 f.2.1).map (fun r => applyNew c (c.neg.foldl (fun d a => .antijoin d (.ground a)) r.2)))

/-- Models `query_plan` (`context.rs` 737-741). -/
def queryPlan (S : Search) (c : Ctx F) : Option (Plan F) := (atomOrder S c.pos.length 5).bind (queryPlanOf c)

end Scallop.Plan
