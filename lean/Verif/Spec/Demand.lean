import Verif.Spec.Strata
import Verif.Model.Demand

/-!
# What the demand transformation must keep

Which relations are on demand, which variables of a rule are known when its on-demand atoms are looked up, and stratified programs with foreign predicates.
-/

namespace Scallop.Plan

open Scallop.Back Scallop.Ram

variable {F : Type}

/-- The relation is declared with the demand pattern (`true`: the argument must be given); `d` is the relation for what is demanded. -/
def OnDemand (rels : List RelDecl) (p : String) (pat : List Bool) (d : String) : Prop :=
  ∃ r ∈ rels, r.predicate = p ∧ ∃ s, r.demand = some s ∧ s.toList = pat.map (fun b => if b then 'b' else 'f') ∧ d = "d#" ++ p ++ "#" ++ s

/-- The arguments that must be given. -/
def givenPart {α : Type} : List Bool → List α → List α
  | true :: pat, x :: xs => x :: givenPart pat xs
  | false :: pat, _ :: xs => givenPart pat xs
  | _, _ => []

/-- The atom occurs in the body, positive or negated. -/
def Occurs (body : List (Lit String F Reduce)) (a : Atom String F) : Prop := .atom a ∈ body ∨ .neg a ∈ body

/-- The variables of a rule that are known after `n` rounds of looking up on-demand atoms: those in the demanded arguments of the head, in ordinary
atoms, assigned ones, and the variables of on-demand atoms whose given arguments were known a round earlier. -/
inductive Known (rels : List RelDecl) (r : SRule F) : Nat → String → Prop
  | head {n a pat d x} : r.head = .atom a → OnDemand rels a.predicate pat d → .var x ∈ givenPart pat a.args → Known rels r n x
  | atom {n a x} : .atom a ∈ r.body → (∀ pat d, ¬ OnDemand rels a.predicate pat d) → .var x ∈ a.args → Known rels r n x
  | assign {n x e} : .assign x e ∈ r.body → (∀ y ∈ e.vars, Known rels r n y) → Known rels r n x
  | call {n a pat d x} : Occurs r.body a → OnDemand rels a.predicate pat d → (∀ y, .var y ∈ givenPart pat a.args → Known rels r n y) →
      .var x ∈ a.args → Known rels r (n + 1) x

/-- The given arguments of the on-demand atom are known after `n` rounds. -/
def Ready (rels : List RelDecl) (r : SRule F) (n : Nat) (a : Atom String F) : Prop :=
  ∀ pat d, OnDemand rels a.predicate pat d → ∀ y, .var y ∈ givenPart pat a.args → Known rels r n y

/-- All on-demand atoms of the rule can be looked up. -/
def CanPass (rels : List RelDecl) (r : SRule F) : Prop :=
  ∀ a pat d, Occurs r.body a → OnDemand rels a.predicate pat d → ∃ n, Ready rels r n a

/-- Negated on-demand atoms are looked up last: in the round in which all others have been or are looked up. -/
def NegatedLast (rels : List RelDecl) (r : SRule F) : Prop :=
  ∀ a pat d, .neg a ∈ r.body → OnDemand rels a.predicate pat d → ∀ n, Ready rels r n a →
    ∀ b pat' d', Occurs r.body b → OnDemand rels b.predicate pat' d' → Ready rels r n b

/-- The strata order the program: what a rule looks at is in its stratum or an earlier one, what it negates or aggregates in an earlier one, unless it is not
defined by the program at all. -/
structure Stratified (rules : List (SRule F)) (strata : List (List String)) : Prop where
  nodup : strata.flatten.Nodup
  pos : ∀ (k : Nat) D, strata[k]? = some D → ∀ r ∈ rules, ∀ p ∈ D, headPred r.head = some p →
    ∀ a ∈ posOf r.body, a.predicate ∈ (strata.take (k + 1)).flatten ∨ a.predicate ∉ strata.flatten
  neg : ∀ (k : Nat) D, strata[k]? = some D → ∀ r ∈ rules, ∀ p ∈ D, headPred r.head = some p →
    ∀ a ∈ negOf r.body, a.predicate ∈ (strata.take k).flatten ∨ a.predicate ∉ strata.flatten
  red : ∀ (k : Nat) D, strata[k]? = some D → ∀ r ∈ rules, ∀ p ∈ D, headPred r.head = some p →
    ∀ q ∈ reducesOf r.body, (q.body ∈ (strata.take k).flatten ∨ q.body ∉ strata.flatten) ∧
      ∀ g, q.groupByPred = some g → g ∈ (strata.take k).flatten ∨ g ∉ strata.flatten

/-- Conditions on a program with on-demand relations: they are declared once, are defined by the program and are flat relations, as are the relations for
what is demanded, whose names are not used otherwise; aggregations do not look at on-demand relations directly (the compiler makes relations for what is
aggregated). -/
structure DemandOk (E : Env F) (rels : List RelDecl) (rules : List (SRule F)) (strata : List (List String)) : Prop where
  declared : (rels.map RelDecl.predicate).Nodup
  defined : ∀ p pat d, OnDemand rels p pat d → p ∈ strata.flatten ∧ E.shape p = some .normal ∧ E.shape d = some .normal
  fresh : ∀ p pat d, OnDemand rels p pat d → d ∉ strata.flatten ∧ ∀ r ∈ rules, headPred r.head ≠ some d ∧ (∀ a, Occurs r.body a → a.predicate ≠ d) ∧
    ∀ q ∈ reducesOf r.body, q.body ≠ d ∧ q.groupByPred ≠ some d
  aggregated : ∀ r ∈ rules, ∀ q ∈ reducesOf r.body, ∀ pat d, ¬ OnDemand rels q.body pat d ∧ ∀ g, q.groupByPred = some g → ¬ OnDemand rels g pat d

/-- The variables of the head, of constraints and of assigned expressions of the rule get values. -/
structure Plannable (r : SRule F) : Prop where
  head : ∀ x ∈ headVars r.head, Bound r.body (fun _ => False) x
  con : ∀ c ∈ consOf r.body, ∀ x ∈ c.vars, Bound r.body (fun _ => False) x
  assign : ∀ a ∈ assignsOf r.body, ∀ x ∈ a.2.vars, Bound r.body (fun _ => False) x

end Scallop.Plan
