import Verif.Model.Strat
import Mathlib.Logic.Relation

/-!
# What a stratification is
-/

namespace Scallop

namespace Strat

/-- One node depends on another. -/
def Graph.DependsOn (g : Graph) (a b : Nat) : Prop := ∃ e ∈ g.edges, e.source = a ∧ e.target = b

/-- Dependence over any number of steps, none included. -/
def Graph.Reaches (g : Graph) : Nat → Nat → Prop := Relation.ReflTransGen g.DependsOn

/-- Edges join nodes of the graph, and no two nodes have the same name. -/
structure Graph.WellFormed (g : Graph) : Prop where
  bounds : ∀ e ∈ g.edges, e.source < g.nodes.length ∧ e.target < g.nodes.length
  names : g.nodes.Nodup

/-- What the library's `kosaraju_scc` returns: each node in exactly one component; two nodes in the same component exactly when each
reaches the other. Nothing is assumed about the order. -/
structure Graph.IsScc (g : Graph) (sccs : List (List Nat)) : Prop where
  nonempty : ∀ c ∈ sccs, c ≠ []
  partition : List.Perm sccs.flatten (List.range g.nodes.length)
  same : ∀ c ∈ sccs, ∀ u ∈ c, ∀ v, v < g.nodes.length → (v ∈ c ↔ g.Reaches u v ∧ g.Reaches v u)

/-- The predicate is in the `i`-th stratum. -/
def InStratum (strata : List Stratum) (p : String) (i : Nat) : Prop := ∃ s, strata[i]? = some s ∧ p ∈ s.predicates

end Strat

end Scallop
