import Mathlib.Data.Set.Finite.Basic
import Verif.Model.Boundness
import Verif.Spec.Front

/-!
# When a rule derives finitely many facts
-/

namespace Scallop

variable {F : Type}

/-- The value is one the program can have: an integer is in the range of its type. -/
def Val.Proper : Val F → Prop
  | .int k n => k.lo ≤ n ∧ n ≤ k.hi
  | _ => True

/-- Casts and foreign functions give such values. -/
structure Ext.Proper (X : Ext F) : Prop where
  cast : ∀ st ty v w, X.cast st ty v = .ok w → w.Proper
  call : ∀ f vs w, X.call f vs = .ok w → w.Proper

end Scallop

namespace Scallop.Front

variable {F : Type}

/-- Relations hold finitely many facts, and a foreign predicate gives finitely many results for given values of its bound arguments. -/
structure FiniteDB (B : Bindings) (D : DB F) : Prop where
  relation : ∀ p, B p = none → {vs | D p vs}.Finite
  foreign : ∀ p arity nb, B p = some (arity, nb) → ∀ vs : List (Val F), vs.length = nb → {ws | D p (vs ++ ws)}.Finite

mutual
/-- No wildcard, and all constants are proper. -/
def FExpr.Ordinary : FExpr F → Prop
  | .const c => c.Proper
  | .var _ => True
  | .wild => False
  | .bin _ a b => a.Ordinary ∧ b.Ordinary
  | .un _ a => a.Ordinary
  | .ite c t e => c.Ordinary ∧ t.Ordinary ∧ e.Ordinary
  | .call _ args => FExpr.AllOrdinary args
  | .new _ args => FExpr.AllOrdinary args
/-- The same for a list. -/
def FExpr.AllOrdinary : List (FExpr F) → Prop
  | [] => True
  | e :: es => e.Ordinary ∧ FExpr.AllOrdinary es
end

/-- Wildcards occur only as arguments of atoms, and not where a foreign predicate needs a value; foreign predicates have their number of arguments;
there are no aggregations. -/
def Formula.Ordinary (B : Bindings) : Formula F → Prop
  | .atom p args =>
    (∀ e ∈ args, e = .wild ∨ e.Ordinary) ∧
      ∀ arity nb, B p = some (arity, nb) → arity = args.length ∧ nb ≤ arity ∧ ∀ e ∈ args.take nb, e.Ordinary
  | .constraint e => e.Ordinary
  | .disj fs => allOrdinary fs
  | .conj fs => allOrdinary fs
  | .neg _ _ => True
  | _ => False
where
  /-- The same for a list. -/
  allOrdinary : List (Formula F) → Prop
    | [] => True
    | f :: fs => f.Ordinary B ∧ allOrdinary fs

/-- The facts a rule `p(args) = body` derives with proper values of the variables. -/
def DerivesProper (X : Ext F) (D : DB F) (G : Aggs F) (V : Name → Prop) (args : List (FExpr F)) (body : Formula F) (vs : List (Val F)) : Prop :=
  ∃ σ, (∀ x, (σ x).Proper) ∧ body.Holds X D G V σ ∧ FExpr.AllEvalTo X σ args vs

/-- The values of an expression over a set of assignments. -/
def valuesOf (X : Ext F) (H : Set (Name → Val F)) (e : FExpr F) : Set (Val F) := {v | ∃ σ ∈ H, e.EvalsTo X σ v}

/-- The assignments of proper values for which a formula is true. -/
def solutions (X : Ext F) (D : DB F) (G : Aggs F) (V : Name → Prop) (f : Formula F) : Set (Name → Val F) :=
  {σ | (∀ x, (σ x).Proper) ∧ f.Holds X D G V σ}

/-- An atom, a negated atom or a constraint. -/
def Formula.IsLit : Formula F → Prop
  | .atom _ _ | .neg _ _ | .constraint _ => True
  | _ => False

/-- The variables of an atom or a constraint. -/
def Formula.posVars : Formula F → List Name
  | .atom _ args => FExpr.usedVarsAll args
  | .constraint e => e.usedVars
  | _ => []

mutual
/-- No wildcard and no `new`. -/
def FExpr.Computable : FExpr F → Prop
  | .const _ | .var _ => True
  | .wild => False
  | .bin _ a b => a.Computable ∧ b.Computable
  | .un _ a => a.Computable
  | .ite c t e => c.Computable ∧ t.Computable ∧ e.Computable
  | .call _ args => FExpr.AllComputable args
  | .new _ _ => False
/-- The same for a list. -/
def FExpr.AllComputable : List (FExpr F) → Prop
  | [] => True
  | e :: es => e.Computable ∧ FExpr.AllComputable es
end

/-! ## How many facts a rule derives -/

/-- A relation holds at most `n` facts, and a foreign predicate gives at most `n` results for given values of its bound arguments. -/
structure SmallDB (n : Nat) (B : Bindings) (D : DB F) : Prop where
  relation : ∀ p, B p = none → ∃ L : List (List (Val F)), L.length ≤ n ∧ ∀ vs, D p vs → vs ∈ L
  foreign : ∀ p arity nb, B p = some (arity, nb) → ∀ vs : List (Val F), vs.length = nb →
    ∃ L : List (List (Val F)), L.length ≤ n ∧ ∀ ws, D p (vs ++ ws) → ws ∈ L

/-- No other proper operand gives the same result. Sums of integers cancel unless they are clipped to the range of the type; so do strings. -/
def Cancels (X : Ext F) (op : BinOp) (x y : Val F) : Prop :=
  (∀ x', x'.Proper → evalBin X .run op x' y = evalBin X .run op x y → x' = x) ∧
    ∀ y', y'.Proper → evalBin X .run op x y' = evalBin X .run op x y → y' = y

mutual
/-- All sums and differences in the expression cancel. -/
def FExpr.SumsCancel (X : Ext F) (σ : Name → Val F) : FExpr F → Prop
  | .const _ | .var _ | .wild => True
  | .bin op a b => a.SumsCancel X σ ∧ b.SumsCancel X σ ∧
      (op = .add ∨ op = .sub → ∀ x y, a.EvalsTo X σ x → b.EvalsTo X σ y → Cancels X op x y)
  | .un _ a => a.SumsCancel X σ
  | .ite c t e => c.SumsCancel X σ ∧ t.SumsCancel X σ ∧ e.SumsCancel X σ
  | .call _ args => FExpr.AllSumsCancel X σ args
  | .new _ args => FExpr.AllSumsCancel X σ args
/-- The same for a list. -/
def FExpr.AllSumsCancel (X : Ext F) (σ : Name → Val F) : List (FExpr F) → Prop
  | [] => True
  | e :: es => e.SumsCancel X σ ∧ FExpr.AllSumsCancel X σ es
end

/-- All sums and differences in the atoms and constraints of the formula cancel. -/
def Formula.SumsCancel (X : Ext F) (σ : Name → Val F) : Formula F → Prop
  | .atom _ args => FExpr.AllSumsCancel X σ args
  | .constraint e => e.SumsCancel X σ
  | .disj fs => allSumsCancel fs
  | .conj fs => allSumsCancel fs
  | _ => True
where
  /-- The same for a list. -/
  allSumsCancel : List (Formula F) → Prop
    | [] => True
    | f :: fs => f.SumsCancel X σ ∧ allSumsCancel fs

/-- In how many ways the atoms of the formula can be matched: at most `n` for each atom, the sum of the disjuncts, the product of the conjuncts. -/
def Formula.count (n : Nat) : Formula F → Nat
  | .atom _ _ => n
  | .disj fs => sumCount fs
  | .conj fs => prodCount fs
  | _ => 1
where
  /-- The sum for a list. -/
  sumCount : List (Formula F) → Nat
    | [] => 0
    | f :: fs => f.count n + sumCount fs
  /-- The product for a list. -/
  prodCount : List (Formula F) → Nat
    | [] => 1
    | f :: fs => f.count n * prodCount fs

/-! ## Aggregations -/

/-- The assignment is one the group of `σ` is made of: it has proper values, agrees with `σ` on the shared variables, those the aggregation binds
apart, and makes its body true. -/
def InGroup (X : Ext F) (D : DB F) (G : Aggs F) (V : Name → Prop) (bindings : List Name) (body : Formula F) (σ τ : Name → Val F) : Prop :=
  (∀ x, (τ x).Proper) ∧ AgreeOn V bindings σ τ ∧ body.Holds X D G (fun x => V x ∨ x ∈ bindings) τ

/-- The body of the aggregation has a variable shared with the rest of the rule, so that its results are grouped. -/
def SharesVariable (V : Name → Prop) (bindings : List Name) (body : Formula F) : Prop := ¬ body.NamesIn (fun x => ¬ V x ∨ x ∈ bindings)

/-- When the body of a rule with aggregations is true: as `Formula.Holds`, but values are proper, and without `where` clause there are only results for
groups with at least one member. -/
def Formula.Grouped (X : Ext F) (D : DB F) (G : Aggs F) (V : Name → Prop) (σ : Name → Val F) : Formula F → Prop
  | .disj fs => anyGrouped fs
  | .conj fs => allGrouped fs
  | .reduce left op args bindings body _ gb =>
    Formula.Holds.allHold X D G V σ gb ∧
      (gb = [] → SharesVariable V bindings body → ∃ τ, InGroup X D G V bindings body σ τ) ∧
      (if op = "exists" then ∀ b, some b ∈ left → ∃ t : Bool, σ b = .bool t ∧ (t = true ↔ ∃ τ, InGroup X D G V bindings body σ τ)
      else G op (left.map (Option.map σ)) (args.map σ) (fun vs => ∃ τ, InGroup X D G V bindings body σ τ ∧ bindings.map τ = vs))
  | f => f.Holds X D G V σ
where
  /-- Some formula of the list is true. -/
  anyGrouped : List (Formula F) → Prop
    | [] => False
    | f :: fs => f.Grouped X D G V σ ∨ anyGrouped fs
  /-- All formulas of the list are true. -/
  allGrouped : List (Formula F) → Prop
    | [] => True
    | f :: fs => f.Grouped X D G V σ ∧ allGrouped fs

/-- The facts a rule with aggregations derives. -/
def DerivesGrouped (X : Ext F) (D : DB F) (G : Aggs F) (V : Name → Prop) (args : List (FExpr F)) (body : Formula F) (vs : List (Val F)) : Prop :=
  ∃ σ, (∀ x, (σ x).Proper) ∧ body.Grouped X D G V σ ∧ FExpr.AllEvalTo X σ args vs

/-- Aggregates have finitely many results for finitely many values. -/
def FiniteAggs (G : Aggs F) : Prop := ∀ op vs (S : List (Val F) → Prop), {v | S v}.Finite → {rs | G op rs vs S}.Finite

/-- Aggregations are not nested, and `V` are the variables outside of them. A `where` clause has no other variables, and the variables the aggregation
shares with the rest of the rule are those it lists. -/
def Formula.Flat (B : Bindings) (V : Name → Prop) : Formula F → Prop
  | .disj fs => allFlat fs
  | .conj fs => allFlat fs
  | .reduce _ _ args bindings body gv gb =>
    body.Ordinary B ∧ body.NonEmpty ∧ (∀ x ∈ args, V x) ∧
      (gb = [] ∨ ∃ g, gb = [g] ∧ g.Ordinary B ∧ g.NonEmpty ∧ g.NamesIn (fun x => V x ∧ x ∉ bindings) ∧
        ∀ x, V x → x ∉ bindings → x ∉ gv → body.NamesIn (· ≠ x) ∧ g.NamesIn (· ≠ x))
  | f => f.Ordinary B ∧ f.NamesIn V
where
  /-- The same for a list. -/
  allFlat : List (Formula F) → Prop
    | [] => True
    | f :: fs => f.Flat B V ∧ allFlat fs

/-- The aggregations of a formula. -/
def Formula.aggregations : Formula F → List (Formula F)
  | .disj fs => allAggregations fs
  | .conj fs => allAggregations fs
  | .reduce left op args bindings body gv gb => [.reduce left op args bindings body gv gb]
  | _ => []
where
  /-- Those of a list. -/
  allAggregations : List (Formula F) → List (Formula F)
    | [] => []
    | f :: fs => f.aggregations ++ allAggregations fs

/-- The values an aggregation ranges over: those of its variables when its body and its `where` clause are true. -/
def aggregated (X : Ext F) (D : DB F) (G : Aggs F) (V : Name → Prop) : Formula F → Set (List (Val F))
  | .reduce _ _ _ bindings body _ gb => {vs | ∃ τ : Name → Val F, (∀ x, (τ x).Proper) ∧ body.Holds X D G V τ ∧ Formula.Holds.allHold X D G V τ gb ∧ bindings.map τ = vs}
  | _ => ∅

end Scallop.Front
