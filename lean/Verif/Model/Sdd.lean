import Verif.Model.VTree

/-!
# Sentential decision diagrams

Models `/repo/lib/sdd/src/{formula,semiring,sdd,bottom_up}.rs`. A result `none` is a panic (or a recursion deeper than the bound given).
-/

namespace Scallop

/-- Models `enum BooleanFormula` (`formula.rs` 4-24). -/
inductive BoolForm where
  | fls
  | tru
  | pos (v : Nat)
  | neg (v : Nat)
  | not (f : BoolForm)
  | and (l r : BoolForm)
  | or (l r : BoolForm)
deriving DecidableEq

namespace Sdd

/-- Models `enum SDDLiteral` (`sdd.rs` 18-23). -/
inductive Lit where
  | pos (v : Nat)
  | neg (v : Nat)
  | tru
  | fls
deriving DecidableEq

/-- Models `enum SDDNode` (`sdd.rs` 37-40); a child is a pair of a prime and a sub (`SDDElement`, 6-9). -/
inductive Node where
  | lit (l : Lit)
  | or (children : List (Nat × Nat))
deriving DecidableEq

/-- Models `enum ApplyOp` (`bottom_up.rs` 64-67). -/
inductive Op where
  | conjoin
  | disjoin
deriving DecidableEq

/-- Models `struct SDDBuilder` (`bottom_up.rs` 40-61). Nodes get consecutive indices (`SDDNodes::add_node`, `sdd.rs` 74-79), so they are a
list; the hash maps are association lists in which the first entry counts. Statistics are left out. -/
structure Builder where
  vtree : Option VTree
  nodes : List Node
  falseNode : Nat
  trueNode : Nat
  posVars : List (Nat × Nat)
  negVars : List (Nat × Nat)
  negMap : List (Nat × Nat)
  vmap : List (Nat × Nat)
  cache : List ((Nat × Nat × Op) × Nat)

/-- Models `SDDBuilder::with_config` (`bottom_up.rs` 70-163). The hash maps are filled in an unspecified order; for different variables this
makes no difference. -/
def withConfig (vtree : Option VTree) (vars : List Nat) : Option Builder :=
  let n := vars.length
  let posVars := vars.zipIdx.map (fun p => (p.1, p.2 + 2))
  let negVars := vars.zipIdx.map (fun p => (p.1, p.2 + 2 + n))
  match vars.mapM (fun v => vtree.bind (fun t => t.varNode v)) with
  | none => none
  | some vs => some {
      vtree := vtree
      nodes := [.lit .fls, .lit .tru] ++ vars.map (fun v => .lit (.pos v)) ++ vars.map (fun v => .lit (.neg v))
      falseNode := 0
      trueNode := 1
      posVars := posVars
      negVars := negVars
      negMap := vars.zipIdx.map (fun p => (p.2 + 2, p.2 + 2 + n)) ++ vars.zipIdx.map (fun p => (p.2 + 2 + n, p.2 + 2)) ++ [(0, 1), (1, 0)]
      vmap := vs.zipIdx.map (fun p => (p.2 + 2, p.1)) ++ vs.zipIdx.map (fun p => (p.2 + 2 + n, p.1))
      cache := [] }

/-- Models `SDDBuilderConfig::new` (`bottom_up.rs` 11-14) followed by `with_config`. Without variables the linear trees panic, and the balanced
tree is empty. -/
def configure (vars : List Nat) (kind : VTree.Kind) : Option Builder :=
  match VTree.newWithType vars kind with
  | some t => withConfig (some t) vars
  | none =>
    match vars, kind with
    | [], .balanced => withConfig none []
    | _, _ => none

namespace Builder

/-- Models `negation_of` (`bottom_up.rs` 254-256). -/
def negationOf (b : Builder) (n : Nat) : Option Nat := b.negMap.lookup n

/-- Models `zero` (`bottom_up.rs` 258-263). -/
def zero (b : Builder) : Op → Nat
  | .conjoin => b.falseNode
  | .disjoin => b.trueNode

/-- Models `one` and `is_one` (`bottom_up.rs` 266-271, 289-294). -/
def one (b : Builder) : Op → Nat
  | .conjoin => b.trueNode
  | .disjoin => b.falseNode

/-- The condition of the shortcuts of `add_or_node` (`bottom_up.rs` 302-312): the node to return instead of a new one. -/
def shortcut (b : Builder) : List (Nat × Nat) → Option Nat
  | [c0, c1] =>
    if some c0.1 = b.negationOf c1.1 then
      if c0.2 = b.falseNode ∧ c1.2 = b.trueNode then some c1.1
      else if c0.2 = b.trueNode ∧ c1.2 = b.falseNode then some c0.1
      else if c0.2 = c1.2 then some c0.2
      else none
    else none
  | _ => none

/-- Models `add_or_node` (`bottom_up.rs` 300-323). -/
def addOrNode (b : Builder) (children : List (Nat × Nat)) (v : Nat) : Nat × Builder :=
  match b.shortcut children with
  | some n => (n, b)
  | none => (b.nodes.length, { b with nodes := b.nodes ++ [.or children], vmap := (b.nodes.length, v) :: b.vmap })

/-- The loop of `negate_node` (`bottom_up.rs` 341-346); `rec` is the recursive call. -/
def negateChildren (rec : Builder → Nat → Option (Nat × Builder)) : Builder → List (Nat × Nat) → Option (List (Nat × Nat) × Builder)
  | b, [] => some ([], b)
  | b, c :: cs =>
    match rec b c.2 with
    | none => none
    | some (n, b1) =>
      match negateChildren rec b1 cs with
      | none => none
      | some (ds, b2) => some ((c.1, n) :: ds, b2)

/-- Models `negate_node` (`bottom_up.rs` 333-356). The first argument bounds the depth of the recursion. -/
def negateNode : Nat → Builder → Nat → Option (Nat × Builder)
  | 0, _, _ => none
  | fuel + 1, b, n =>
    match b.negationOf n with
    | some m => some (m, b)
    | none =>
      match b.nodes[n]? with
      | none => none
      | some node =>
        match negateChildren (negateNode fuel) b (match node with | .or cs => cs | .lit _ => []) with
        | none => none
        | some (cs, b1) =>
          match b1.vmap.lookup n with
          | none => none
          | some v =>
            let r := b1.addOrNode cs v
            some (r.1, { r.2 with negMap := (r.1, n) :: (n, r.1) :: r.2.negMap })

/-- The type of `apply`. -/
abbrev Apply := Builder → Nat → Nat → Op → Option (Nat × Builder)

/-- The inner loop of `apply_equal` (`bottom_up.rs` 371-387), for one child `(p1, s1)` of the left node. -/
def equalInner (ap : Apply) (op : Op) (c1 : Nat × Nat) : Builder → List (Nat × Nat) → Option (List (Nat × Nat) × Builder)
  | b, [] => some ([], b)
  | b, c2 :: cs =>
    match ap b c1.1 c2.1 .conjoin with
    | none => none
    | some (p, b1) =>
      if p = b1.falseNode then equalInner ap op c1 b1 cs
      else
        match ap b1 c1.2 c2.2 op with
        | none => none
        | some (s, b2) =>
          match equalInner ap op c1 b2 cs with
          | none => none
          | some (ds, b3) => some ((p, s) :: ds, b3)

/-- The outer loop of `apply_equal` (`bottom_up.rs` 370-388). -/
def equalOuter (ap : Apply) (op : Op) (cs2 : List (Nat × Nat)) : Builder → List (Nat × Nat) → Option (List (Nat × Nat) × Builder)
  | b, [] => some ([], b)
  | b, c1 :: cs1 =>
    match equalInner ap op c1 b cs2 with
    | none => none
    | some (ds, b1) =>
      match equalOuter ap op cs2 b1 cs1 with
      | none => none
      | some (es, b2) => some (ds ++ es, b2)

/-- Models `apply_equal` (`bottom_up.rs` 358-391). -/
def applyEqual (ap : Apply) (b : Builder) (n1 n2 : Nat) (op : Op) (lca : Nat) : Option (Nat × Builder) :=
  match b.nodes[n1]?, b.nodes[n2]? with
  | some (.or cs1), some (.or cs2) =>
    match equalOuter ap op cs2 b cs1 with
    | none => none
    | some (ds, b1) => some (b1.addOrNode ds lca)
  | _, _ => none

/-- The loop of `apply_left` (`bottom_up.rs` 410-418). -/
def leftLoop (ap : Apply) (n : Nat) : Builder → List (Nat × Nat) → Option (List (Nat × Nat) × Builder)
  | b, [] => some ([], b)
  | b, c :: cs =>
    match ap b c.1 n .conjoin with
    | none => none
    | some (p, b1) =>
      match leftLoop ap n b1 cs with
      | none => none
      | some (ds, b2) => some (if p = b1.falseNode then ds else (p, c.2) :: ds, b2)

/-- Models `apply_left` (`bottom_up.rs` 393-425). -/
def applyLeft (ap : Apply) (neg : Builder → Nat → Option (Nat × Builder)) (b : Builder) (n1 n2 : Nat) (op : Op) (lca : Nat) :
    Option (Nat × Builder) :=
  match neg b n1 with
  | none => none
  | some (n1Neg, b1) =>
    let n := match op with | .conjoin => n1 | .disjoin => n1Neg
    match b1.negationOf n, b1.nodes[n2]? with
    | some nn, some (.or cs) =>
      match leftLoop ap n b1 cs with
      | none => none
      | some (ds, b2) => some (b2.addOrNode ((nn, b1.zero op) :: ds) lca)
    | _, _ => none

/-- The loop of `apply_right` (`bottom_up.rs` 432-438). -/
def rightLoop (ap : Apply) (n2 : Nat) (op : Op) : Builder → List (Nat × Nat) → Option (List (Nat × Nat) × Builder)
  | b, [] => some ([], b)
  | b, c :: cs =>
    match ap b c.2 n2 op with
    | none => none
    | some (s, b1) =>
      match rightLoop ap n2 op b1 cs with
      | none => none
      | some (ds, b2) => some ((c.1, s) :: ds, b2)

/-- Models `apply_right` (`bottom_up.rs` 427-445). -/
def applyRight (ap : Apply) (b : Builder) (n1 n2 : Nat) (op : Op) (lca : Nat) : Option (Nat × Builder) :=
  match b.nodes[n1]? with
  | some (.or cs) =>
    match rightLoop ap n2 op b cs with
    | none => none
    | some (ds, b1) => some (b1.addOrNode ds lca)
  | _ => none

/-- Models `apply_disjoint` (`bottom_up.rs` 447-461). -/
def applyDisjoint (ap : Apply) (neg : Builder → Nat → Option (Nat × Builder)) (b : Builder) (n1 n2 : Nat) (op : Op) (lca : Nat) :
    Option (Nat × Builder) :=
  match neg b n1 with
  | none => none
  | some (n1Neg, b1) =>
    match ap b1 n2 b1.trueNode op with
    | none => none
    | some (s1, b2) =>
      match ap b2 n2 b2.falseNode op with
      | none => none
      | some (s2, b3) => some (b3.addOrNode [(n1, s1), (n1Neg, s2)] lca)

/-- Bound on the depth of `negate_node`: one more than the number of nodes. -/
def negateFuel (b : Builder) : Nat := b.nodes.length + 1

/-- Models `apply` (`bottom_up.rs` 463-532). The first argument bounds the depth of the recursion. -/
def apply : Nat → Builder → Nat → Nat → Op → Option (Nat × Builder)
  | 0, _, _, _, _ => none
  | fuel + 1, b, lhs, rhs, op =>
    if lhs = rhs then some (lhs, b)
    else if some lhs = b.negationOf rhs then some (b.zero op, b)
    else if lhs = b.zero op ∨ rhs = b.zero op then some (b.zero op, b)
    else if lhs = b.one op then some (rhs, b)
    else if rhs = b.one op then some (lhs, b)
    else
      match b.cache.lookup (lhs, rhs, op) with
      | some r => some (r, b)
      | none =>
        match b.vtree, b.vmap.lookup lhs, b.vmap.lookup rhs with
        | some t, some lv0, some rv0 =>
          match t.position lv0, t.position rv0 with
          | some lp, some rp =>
            let (l, lv, r, rv) := if rp < lp then (rhs, rv0, lhs, lv0) else (lhs, lv0, rhs, rv0)
            let neg := fun b' n => negateNode (negateFuel b') b' n
            match t.lowestCommonAncestor lv rv with
            | none => none
            | some (kind, lca) =>
              let result := match kind with
                | .equal => applyEqual (apply fuel) b l r op lca
                | .left => applyLeft (apply fuel) neg b l r op lca
                | .right => applyRight (apply fuel) b l r op lca
                | .disjoint => applyDisjoint (apply fuel) neg b l r op lca
              match result with
              | none => none
              | some (n, b1) => some (n, { b1 with cache := ((l, r, op), n) :: b1.cache })
          | _, _ => none
        | _, _, _ => none

/-- Bound on the depth of `apply`: one more than the number of nodes of the variable tree. -/
def applyFuel (b : Builder) : Nat :=
  match b.vtree with
  | none => 1
  | some t => t.inOrder.length + 1

/-- Models `build_sdd` (`bottom_up.rs` 231-252). -/
def buildSdd : Builder → BoolForm → Option (Nat × Builder)
  | b, .tru => some (b.trueNode, b)
  | b, .fls => some (b.falseNode, b)
  | b, .pos v => (b.posVars.lookup v).map (fun n => (n, b))
  | b, .neg v => (b.negVars.lookup v).map (fun n => (n, b))
  | b, .not f =>
    match buildSdd b f with
    | none => none
    | some (n, b1) => negateNode (negateFuel b1) b1 n
  | b, .and l r =>
    match buildSdd b l with
    | none => none
    | some (n1, b1) =>
      match buildSdd b1 r with
      | none => none
      | some (n2, b2) => apply (applyFuel b2) b2 n1 n2 .conjoin
  | b, .or l r =>
    match buildSdd b l with
    | none => none
    | some (n1, b1) =>
      match buildSdd b1 r with
      | none => none
      | some (n2, b2) => apply (applyFuel b2) b2 n1 n2 .disjoin

/-- What two visits insert together. -/
def bothVisits : Option (List Nat) → Option (List Nat) → Option (List Nat)
  | some a, some b => some (a ++ b)
  | _, _ => none

/-- Models `mark_visited` (`bottom_up.rs` 204-215): the nodes it inserts. The first argument bounds the depth of the recursion. -/
def markVisited (nodes : List Node) : Nat → Nat → Option (List Nat)
  | 0, _ => none
  | fuel + 1, n =>
    match nodes[n]? with
    | none => none
    | some (.lit _) => some [n]
    | some (.or cs) =>
      match cs.mapM (fun c => bothVisits (markVisited nodes fuel c.1) (markVisited nodes fuel c.2)) with
      | none => none
      | some ls => some (n :: ls.flatten)

/-- Models `garbage_collect` (`bottom_up.rs` 221-229): keep the nodes visited from the roots, as a map from indices to nodes. -/
def garbageCollect (b : Builder) (roots : List Nat) : Option (List (Nat × Node)) :=
  if roots.isEmpty then some (b.nodes.zipIdx.map (fun p => (p.2, p.1)))
  else
    match roots.mapM (markVisited b.nodes (b.nodes.length + 1)) with
    | none => none
    | some vs => some ((b.nodes.zipIdx.map (fun p => (p.2, p.1))).filter (fun p => decide (p.1 ∈ vs.flatten)))

end Builder

/-- Models `struct SDD` (`sdd.rs` 116-119). -/
structure Diagram where
  nodes : List (Nat × Node)
  roots : List Nat

/-- Models `SDDBuilder::build` (`bottom_up.rs` 169-184). -/
def Builder.build (b : Builder) (f : BoolForm) (gc : Bool) : Option Diagram :=
  match b.buildSdd f with
  | none => none
  | some (root, b1) =>
    if gc then (b1.garbageCollect [root]).map (fun ns => ⟨ns, [root]⟩)
    else some ⟨b1.nodes.zipIdx.map (fun p => (p.2, p.1)), [root]⟩

namespace Diagram

/-- The loop of `eval_node` over children (`sdd.rs` 133-142): `none` is the panic when no prime holds. -/
def evalChildren (rec : Nat → Option Bool) : List (Nat × Nat) → Option Bool
  | [] => none
  | c :: cs =>
    match rec c.1 with
    | none => none
    | some true => rec c.2
    | some false => evalChildren rec cs

/-- Models `eval_node` (`sdd.rs` 130-151). The assignment is a map, indexing it with an unassigned variable panics. The first argument bounds
the depth of the recursion. -/
def evalNode (d : Diagram) (assign : Nat → Option Bool) : Nat → Nat → Option Bool
  | 0, _ => none
  | fuel + 1, n =>
    match d.nodes.lookup n with
    | none => none
    | some (.or cs) => evalChildren (evalNode d assign fuel) cs
    | some (.lit (.pos v)) => assign v
    | some (.lit (.neg v)) => (assign v).map (!·)
    | some (.lit .tru) => some true
    | some (.lit .fls) => some false

/-- Models `eval` (`sdd.rs` 122-124); the depth of the recursion is bounded by the largest index. -/
def eval (d : Diagram) (assign : Nat → Option Bool) : Option Bool :=
  match d.roots with
  | [] => none
  | r :: _ => evalNode d assign (r + 1) r

/-- Models `trait Semiring` (`semiring.rs` 1-13). -/
structure Algebra (E : Type*) where
  zero : E
  one : E
  add : E → E → E
  mult : E → E → E
  negate : E → E

/-- The fold of `eval_node_t` over children (`sdd.rs` 167-171). -/
def foldChildren {E : Type*} (s : Algebra E) (rec : Nat → Option E) : E → List (Nat × Nat) → Option E
  | acc, [] => some acc
  | acc, c :: cs =>
    match rec c.1, rec c.2 with
    | some p, some q => foldChildren s rec (s.add acc (s.mult p q)) cs
    | _, _ => none

/-- Models `eval_node_t` (`sdd.rs` 161-179). -/
def evalNodeT {E : Type*} (d : Diagram) (s : Algebra E) (assign : Nat → E) : Nat → Nat → Option E
  | 0, _ => none
  | fuel + 1, n =>
    match d.nodes.lookup n with
    | none => none
    | some (.or cs) => foldChildren s (evalNodeT d s assign fuel) s.zero cs
    | some (.lit (.pos v)) => some (assign v)
    | some (.lit (.neg v)) => some (s.negate (assign v))
    | some (.lit .tru) => some s.one
    | some (.lit .fls) => some s.zero

/-- Models `eval_t` (`sdd.rs` 153-159). -/
def evalT {E : Type*} (d : Diagram) (s : Algebra E) (assign : Nat → E) : Option E :=
  match d.roots with
  | [] => none
  | r :: _ => evalNodeT d s assign (r + 1) r

end Diagram

end Sdd

end Scallop
