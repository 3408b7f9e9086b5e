import Verif.Spec.Plan
import Verif.Model.Strata

/-!
# What a stratified program means

The contents of all relations together are an interpretation. A layer defines some relations by rules; a layered program is a list of layers. An
interpretation is a model of the program if in every layer the relations defined there hold the least sets that contain the given facts and are
closed under the rules of the layer, the relations of other layers being as they are in the interpretation.
-/

namespace Scallop.Plan

open Scallop.Back Scallop.Ram

variable {F T : Type}

/-- The contents of all relations. -/
abbrev Interp (T : Type) := String → T → Prop

/-- A rule: the relation it adds to, and what it adds, given the contents of all relations. -/
structure Defn (T : Type) where
  target : String
  gen : Interp T → T → Prop

/-- The relations defined together, with the rules that define them. -/
structure Layer (T : Type) where
  names : List String
  defs : Set (Defn T)

/-- The contents `X` for the relations in `D`, and `J` for all others. -/
def patch (D : List String) (X J : Interp T) : Interp T := fun p t => (p ∈ D ∧ X p t) ∨ (p ∉ D ∧ J p t)

/-- `X` contains the given facts and what the rules of the layer derive from `X` and, for the relations of other layers, `J`. -/
def Layer.Closed (L : Layer T) (facts J X : Interp T) : Prop :=
  (∀ p ∈ L.names, ∀ t, facts p t → X p t) ∧ ∀ d ∈ L.defs, ∀ t, d.gen (patch L.names X J) t → X d.target t

/-- `J` is a model of the program: in every layer, the least interpretation closed under the rules. -/
def StratModel (facts : Interp T) (layers : List (Layer T)) (J : Interp T) : Prop :=
  ∀ L ∈ layers, ∀ p ∈ L.names, ∀ t, J p t ↔ ∀ X, L.Closed facts J X → X p t

/-- What does not change while a program runs: how expressions are evaluated, what foreign predicates return, and the results of aggregations
over given contents of the relations. -/
structure Setting (F : Type) where
  X : Ext F
  Fp : String → List (Val F) → List (Val F) → Prop
  red : Interp (Tup (Val F)) → String → String → GroupBy → Tup (Val F) → Prop

/-- The world for given contents of the relations. -/
def Setting.world (G : Setting F) (J : Interp (Tup (Val F))) : World F := ⟨G.X, J, G.Fp, G.red J⟩

/-- An aggregation looks at the relation it aggregates and, if there is one, the relation of groups. -/
def Setting.Local (G : Setting F) : Prop :=
  ∀ J J' a p g, (∀ t, J p t ↔ J' p t) → (∀ r, g = .join r → ∀ t, J r t ↔ J' r t) → ∀ t, G.red J a p g t ↔ G.red J' a p g t

/-! ## Source programs -/

/-- How a list of values is stored in a relation: as a flat tuple, or, for the relations made for aggregations, with the group apart. -/
def arranged : Shape → List (Val F) → Tup (Val F)
  | .normal, vs => flat vs
  | .aggBody n, vs => if n = 0 then single vs else .tup [single (vs.take n), single (vs.drop n)]
  | .aggGroupBy n, vs => .tup [single (vs.take n), single (vs.drop n)]

/-- The tuples a rule derives under an assignment: the arguments of its head, or of one of the alternatives of its head. -/
def Derives (E : Env F) (σ : Asg F) : Head String F → Tup (Val F) → Prop
  | .atom a, t => ∃ sh, E.shape a.predicate = some sh ∧ t = arranged sh (a.args.map (Term.val σ))
  | .disj as, t => ∃ a ∈ as, t = flat (a.args.map (Term.val σ))

/-- A stratum of rules: from every assignment under which all literals of the body are true, the head is derived. -/
def srcLayer (G : Setting F) (E : Env F) (rules : List (SRule F)) (preds : List String) : Layer (Tup (Val F)) where
  names := preds
  defs := {d | ∃ r ∈ rules, ∃ p ∈ preds, headPred r.head = some p ∧
    d = ⟨p, fun J t => ∃ σ, (∀ l ∈ r.body, LitHolds (G.world J) σ l) ∧ Derives E σ r.head t⟩}

/-- A stratum of updates: the tuples of the dataflow are added to the target. -/
def ramLayer (G : Setting F) (st : Ram.Stratum F) : Layer (Tup (Val F)) where
  names := st.relations
  defs := {d | ∃ u ∈ st.updates, d = ⟨u.target, fun J t => Den (G.world J) u.flow t⟩}

/-! ## Conditions on programs -/

/-- The name is not one the compiler makes up. -/
def UserName (p : String) : Prop :=
  (∀ i : Nat, p ≠ "#temp#" ++ toString i) ∧ (∀ i : Nat, p ≠ "#ntemp#" ++ toString i) ∧ ∀ q s : String, p ≠ q ++ "#perm#" ++ s

/-- A negated atom with a constant has no repeated variable (see `c75_unplaced_refuted`). -/
def NoChain (a : Atom String F) : Prop := (∃ t ∈ a.args, t.const?.isSome) → (atomVars a).Nodup

/-- Facts of relations other than those made for aggregations are flat tuples of the right length. -/
def Layout (E : Env F) (arity : String → Nat) (p : String) (t : Tup (Val F)) : Prop :=
  E.shape p = some .normal → ∃ vs : List (Val F), vs.length = arity p ∧ t = flat vs

/-- The world in which every relation holds all tuples of the right form, and every aggregation all results it may have. -/
def topWorld (G : Setting F) (E : Env F) (arity : String → Nat) : World F :=
  ⟨G.X, Layout E arity, G.Fp, fun a p g t => ∃ J, G.red J a p g t⟩

/-- Conditions on heads: the right number of arguments; variables only, and none twice, for the relations made for aggregations; no repeated
variable in a disjunction (see `c73_disjunctive_repeated_refuted`). -/
def HeadGood (E : Env F) (arity : String → Nat) : Head String F → Prop
  | .atom a => (E.shape a.predicate = some .normal ∧ a.args.length = arity a.predicate) ∨
      (E.shape a.predicate ≠ some .normal ∧ a.args = (atomVars a).map .var ∧ (atomVars a).Nodup)
  | .disj [] => True
  | .disj (a :: as) => E.shape a.predicate = some .normal ∧ a.args.length = arity a.predicate ∧ (atomVars a).Nodup ∧
      ∀ b ∈ as, b.predicate = a.predicate ∧ b.args.length = a.args.length

/-- The conditions under which programs are shown to be compiled correctly: every predicate is in one stratum, with a name of its own; facts have
the right form; rules satisfy the conditions of `c73_exact`; what a rule looks at is in its stratum or an earlier one, what it negates or aggregates
in an earlier one (see `c19_rules`). -/
structure ProgramOk (G : Setting F) (E : Env F) (arity : String → Nat) (rules : List (SRule F)) (strata : List (List String))
    (facts : Interp (Tup (Val F))) : Prop where
  nodup : strata.flatten.Nodup
  names : ∀ p ∈ strata.flatten, UserName p
  facts : ∀ p t, facts p t → p ∈ strata.flatten ∧ Layout E arity p t
  rule : ∀ (k : Nat) D, strata[k]? = some D → ∀ r ∈ rules, ∀ p ∈ D, headPred r.head = some p →
    RuleOk (topWorld G E arity) E E.numBounded r.body (headVars r.head) ∧ HeadGood E arity r.head ∧ ∀ l ∈ r.body, Kept r.body l
  pos : ∀ (k : Nat) D, strata[k]? = some D → ∀ r ∈ rules, ∀ p ∈ D, headPred r.head = some p →
    ∀ a ∈ posOf r.body, a.predicate ∈ (strata.take (k + 1)).flatten
  neg : ∀ (k : Nat) D, strata[k]? = some D → ∀ r ∈ rules, ∀ p ∈ D, headPred r.head = some p →
    ∀ a ∈ negOf r.body, a.predicate ∈ (strata.take k).flatten ∧ NoChain a
  red : ∀ (k : Nat) D, strata[k]? = some D → ∀ r ∈ rules, ∀ p ∈ D, headPred r.head = some p →
    ∀ q ∈ reducesOf r.body, q.body ∈ (strata.take k).flatten ∧ ∀ g, q.groupByPred = some g → g ∈ (strata.take k).flatten

end Scallop.Plan
