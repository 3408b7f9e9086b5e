import Verif.Model.Base
import Mathlib.Data.List.Basic

/-!
# Dependency graph and stratification

Models `/repo/core/src/compiler/back/scc.rs`. The graph library (`petgraph`) is represented by lists: a node is its index, edges are kept in the
order in which they were added, and iteration over the edges of a node visits the most recent one first, as in the library. The strongly
connected components (`kosaraju_scc`) are a parameter, see `Spec/Strat.lean` for what is assumed of them.
-/

namespace Scallop

namespace Strat

/-- Models `enum DependencyGraphEdge` (`scc.rs` 14-19). -/
inductive EdgeKind where
  | positive
  | negative
  | aggregation
deriving DecidableEq

/-- Models `needs_stratification` (`scc.rs` 33-38). -/
def EdgeKind.needsStratification : EdgeKind → Bool
  | .positive => false
  | _ => true

/-- An edge from one node to another. -/
structure Edge where
  source : Nat
  target : Nat
  kind : EdgeKind
deriving DecidableEq

/-- Models `struct DependencyGraph` (`scc.rs` 43-47). The map `predicate_to_node_id` is the search for a name among the nodes. -/
structure Graph where
  nodes : List String
  edges : List Edge
deriving DecidableEq

namespace Graph

/-- Models `new` (`scc.rs` 51-57). -/
def empty : Graph := ⟨[], []⟩

/-- Models the lookup in `predicate_to_node_id` (`scc.rs` 71-73, 77-78). -/
def node (g : Graph) (p : String) : Option Nat := g.nodes.idxOf? p

/-- Models `add_predicate` (`scc.rs` 60-68). -/
def addPredicate (g : Graph) (p : String) : Graph :=
  match g.node p with
  | some _ => g
  | none => { g with nodes := g.nodes ++ [p] }

/-- Models `add_dependency` (`scc.rs` 76-80); `none` is the panic on an unknown predicate. -/
def addDependency (g : Graph) (src dst : String) (k : EdgeKind) : Option Graph :=
  match g.node src, g.node dst with
  | some s, some d => some { g with edges := g.edges ++ [⟨s, d, k⟩] }
  | _, _ => none

/-- Models the edges `graph.edges(n)` of a node in the order of the library. -/
def edgesOf (g : Graph) (n : Nat) : List Edge := (g.edges.filter (fun e => e.source == n)).reverse

/-- The first loop of `stratify` (`scc.rs` 104-116): the first edge inside a component that needs stratification. -/
def badEdge (g : Graph) (sccs : List (List Nat)) : Option Edge :=
  sccs.findSome? (fun scc => scc.findSome? (fun n =>
    (g.edgesOf n).find? (fun e => e.kind.needsStratification && scc.contains e.target)))

/-- The component of a node (`node_map` in the library function `condensation`, called in `scc.rs` 119). -/
def sccOf (sccs : List (List Nat)) (n : Nat) : Option Nat := sccs.findIdx? (fun c => c.contains n)

/-- Edges of the condensed graph (`condensation` with `make_acyclic`, called in `scc.rs` 119): no edge inside a component, none twice. `none` is
an index out of bounds. -/
def condense (sccs : List (List Nat)) : List Edge → List (Nat × Nat) → Option (List (Nat × Nat))
  | [], acc => some acc
  | e :: es, acc =>
    match sccOf sccs e.source, sccOf sccs e.target with
    | some s, some t => condense sccs es (if s = t ∨ (s, t) ∈ acc then acc else acc ++ [(s, t)])
    | _, _ => none

/-- The names in a component of the condensed graph, in the order of the nodes (`condensation`). -/
def members (g : Graph) (sccs : List (List Nat)) (c : Nat) : List String :=
  (g.nodes.zipIdx.filter (fun p => sccOf sccs p.2 == some c)).map Prod.fst

/-- Models `has_cycle` (`scc.rs` 168-177); `none` is the panic on an unknown predicate. -/
def hasCycle (g : Graph) : List String → Option Bool
  | [] => some false
  | [p] => (g.node p).map (fun n => g.edges.any (fun e => e.source == n && e.target == n))
  | _ => some true

end Graph

/-- Models `struct Stratum` (`scc.rs` 180-184). -/
structure Stratum where
  predicates : List String
  isRecursive : Bool
deriving DecidableEq

/-- The targets of the edges of a component. -/
def targets (ce : List (Nat × Nat)) (c : Nat) : List Nat := (ce.filter (fun e => e.1 == c)).map Prod.snd

/-- The sources of the edges to a component, the most recent edge first. -/
def sources (ce : List (Nat × Nat)) (c : Nat) : List Nat := ((ce.filter (fun e => e.2 == c)).map Prod.fst).reverse

/-- The loop over the edges to a component (`scc.rs` 150-161): visited components and fringe. -/
def enqueue (ce : List (Nat × Nat)) : List Nat → List Nat × List Nat → List Nat × List Nat
  | [], st => st
  | n :: ns, (visited, fringe) =>
    if visited.contains n then enqueue ce ns (visited, fringe)
    else if (targets ce n).all (fun t => visited.contains t) then enqueue ce ns (visited ++ [n], fringe ++ [n])
    else enqueue ce ns (visited, fringe)

/-- The `while` loop of `stratify` (`scc.rs` 137-162) for at most the given number of turns. -/
def loop (g : Graph) (sccs : List (List Nat)) (ce : List (Nat × Nat)) : Nat → List Nat → List Nat → List Stratum → Option (List Stratum)
  | _, _, [], strata => some strata
  | 0, _, _ :: _, _ => none
  | fuel + 1, visited, c :: fringe, strata =>
    match g.hasCycle (g.members sccs c) with
    | none => none
    | some r =>
      let st := enqueue ce (sources ce c) (visited, fringe)
      loop g sccs ce fuel st.1 st.2 (strata ++ [⟨g.members sccs c, r⟩])

/-- Models `stratify` (`scc.rs` 102-166): an error names an edge. `none` would be a panic or the end of the turns granted to the loop. -/
def stratify (g : Graph) (sccs : List (List Nat)) : Option (Except Edge (List Stratum)) :=
  match g.badEdge sccs with
  | some e => some (.error e)
  | none =>
    match Graph.condense sccs g.edges [] with
    | none => none
    | some ce =>
      let src := (List.range sccs.length).filter (fun c => (targets ce c).isEmpty)
      (loop g sccs ce sccs.length src src []).map .ok

/-! ### The dependency graph of a program -/

/-- The literals of a rule, as far as `dependency_graph` looks at them (`scc.rs` 306-330). -/
inductive BodyLit where
  | atom (p : String)
  | negAtom (p : String)
  | reduce (body : String) (groupBy : Option String)
  | other
deriving DecidableEq

/-- A rule as `dependency_graph` sees it: its head; whether the head is a relation with the goal attribute; the functors that the rule creates
(computed by `needs_dynamically_parse_entity` and `collect_new_expr_functors`, `scc.rs` 276-291, not modelled); its body. -/
structure Rule where
  head : String
  isGoal : Bool
  functors : List String
  body : List BodyLit

/-- A program as `dependency_graph` sees it; `foreign` is the predicate registry. -/
structure Program where
  relations : List String
  foreign : List String
  rules : List Rule

/-- Models `record_dependency` (`scc.rs` 300-305). -/
def recordDependency (r : Rule) (g : Graph) (pred : String) (k : EdgeKind) : Option Graph :=
  (g.addDependency r.head pred k).bind (fun g1 => r.functors.foldlM (fun g f => g.addDependency f pred k) g1)

/-- Step 1 for one literal (`scc.rs` 264-272). -/
def goalLit (P : Program) (r : Rule) (g : Graph) : BodyLit → Option Graph
  | .atom p => if P.foreign.contains p then some g else g.addDependency p r.head .positive
  | _ => some g

/-- The last loop for one literal (`scc.rs` 306-328). -/
def bodyLit (P : Program) (r : Rule) (g : Graph) : BodyLit → Option Graph
  | .atom p => if P.foreign.contains p then some g else recordDependency r g p .positive
  | .negAtom p => if P.foreign.contains p then some g else recordDependency r g p .negative
  | .reduce b gb =>
    (recordDependency r g b .aggregation).bind (fun g1 =>
      match gb with
      | some q => recordDependency r g1 q .aggregation
      | none => some g1)
  | .other => some g

/-- The functors of a rule and its head depend on each other (`scc.rs` 294-297). -/
def functorDeps (r : Rule) (g : Graph) : Option Graph :=
  r.functors.foldlM (fun g f => (g.addDependency f r.head .positive).bind (fun g1 => g1.addDependency r.head f .positive)) g

/-- One turn of the loop over rules (`scc.rs` 257-329). -/
def ruleDeps (P : Program) (g : Graph) (r : Rule) : Option Graph :=
  (if r.isGoal then r.body.foldlM (goalLit P r) g else some g).bind (fun g1 =>
    (functorDeps r g1).bind (fun g2 => r.body.foldlM (bodyLit P r) g2))

/-- Models `dependency_graph` (`scc.rs` 244-333). -/
def dependencyGraph (P : Program) : Option Graph :=
  P.rules.foldlM (ruleDeps P) (P.relations.foldl Graph.addPredicate Graph.empty)

/-- Models `unused_relations` (`scc.rs` 82-96). `reach` is the library's `has_path_connecting`; `none` is the `unwrap` of an unknown target. -/
def unusedRelations (g : Graph) (reach : Nat → Nat → Bool) (targets : List String) : Option (List String) :=
  match targets.mapM g.node with
  | none => none
  | some ids => some ((g.nodes.zipIdx.filter (fun p => !targets.contains p.1 && !ids.any (fun o => reach o p.2))).map Prod.fst)

/-- Models `remove_unused_relations` (`compile.rs` 54-69) on relations and rules. -/
def Program.remove (P : Program) (rem : List String) : Program :=
  { P with relations := P.relations.filter (fun p => !rem.contains p), rules := P.rules.filter (fun r => !rem.contains r.head) }

end Strat

end Scallop
