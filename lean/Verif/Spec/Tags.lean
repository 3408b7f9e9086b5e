import Verif.Model.Tags
import Verif.Spec.Semiring

/-!
# Specification of what tags mean

The derivations of a fact, read off the history of operations that computed its tag, and what the tag should say about them.
-/

namespace Scallop

/-- The derivations of a fact: each is the list of input facts it uses. A sum offers the derivations of both sides, a product combines
every derivation of the one side with every derivation of the other. -/
def TagExpr.derivations {X : Type*} : TagExpr X → List (List X)
  | .input x => [[x]]
  | .zero => []
  | .one => [[]]
  | .add a b => a.derivations ++ b.derivations
  | .mult a b => a.derivations.flatMap (fun p => b.derivations.map (fun q => p ++ q))

variable {K : Type*} [Field K] [LinearOrder K]

/-- Formulas over input facts with "or", "and" and "not", as computed by the min-max provenances. -/
inductive LatExpr (K : Type*) where
  | var (i : Nat)
  | const (c : K)
  | or (a b : LatExpr K)
  | and (a b : LatExpr K)
  | not (a : LatExpr K)

/-- The degree of truth of a formula, for given degrees of truth of the input facts. -/
def LatExpr.value (v : Nat → K) : LatExpr K → K
  | .var i => v i
  | .const c => c
  | .or a b => max (a.value v) (b.value v)
  | .and a b => min (a.value v) (b.value v)
  | .not a => 1 - a.value v

/-- The input facts of a formula. -/
def LatExpr.vars : LatExpr K → List Nat
  | .var i => [i]
  | .const _ => []
  | .or a b => a.vars ++ b.vars
  | .and a b => a.vars ++ b.vars
  | .not a => a.vars

/-- The constants of a formula. -/
def LatExpr.consts : LatExpr K → List K
  | .var _ => []
  | .const c => [c]
  | .or a b => a.consts ++ b.consts
  | .and a b => a.consts ++ b.consts
  | .not a => a.consts

/-- The degrees of truth of the literals and the constants of a formula are all different. -/
structure LatExpr.NoTies (v : Nat → K) (e : LatExpr K) : Prop where
  vars : ∀ i ∈ e.vars, ∀ j ∈ e.vars, i ≠ j → v i ≠ v j
  negs : ∀ i ∈ e.vars, ∀ j ∈ e.vars, v i ≠ 1 - v j
  consts : ∀ i ∈ e.vars, ∀ c ∈ e.consts, v i ≠ c ∧ v i ≠ 1 - c

/-- The formula computed with a provenance from tagged inputs. -/
def LatExpr.tag {T W : Type*} (c : Prov T W) (inp : Nat → T) (cst : K → T) : LatExpr K → Option T
  | .var i => some (inp i)
  | .const r => some (cst r)
  | .or a b => (a.tag c inp cst).bind (fun x => (b.tag c inp cst).map (fun y => c.add x y))
  | .and a b => (a.tag c inp cst).bind (fun x => (b.tag c inp cst).map (fun y => c.mult x y))
  | .not a => (a.tag c inp cst).bind c.negate

/-- The number a min-max tag with derivative claims to be, as a function of the inputs: an input, the complement of an input, or a
constant. -/
def claimed (t : K × Derivative) (v : Nat → K) : K :=
  match t.2 with
  | .pos i => v i
  | .neg i => 1 - v i
  | .zero => t.1

/-- The tag of a formula with diff-min-max-prob: input `i` has degree of truth `v i` and derivative `i`. -/
def LatExpr.diffTag (thr : K) (v : Nat → K) (e : LatExpr K) : Option (K × Derivative) :=
  e.tag (diffMinMaxProv K thr) (fun i => (v i, .pos i)) (fun c => (c, .zero))

end Scallop
