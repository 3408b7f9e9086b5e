import Verif.Model.B2R
import Verif.Spec.Back

/-!
# What plans and dataflows mean

The contents of relations, foreign predicates and aggregates are sets; tags are looked at elsewhere. A plan stands for the assignments of values
to variables that satisfy it; a dataflow stands for a set of tuples. A tuple of a dataflow stands for an assignment by way of its shape.
-/

namespace Scallop.Plan

open Scallop.Back Scallop.Ram

variable {F : Type}

/-- An assignment of values to variables. -/
abbrev Asg (F : Type) := String → Val F

/-- Everything outside a rule: evaluation of expressions, the facts of relations, the facts of foreign predicates (values given, values found) and
the results of aggregations. -/
structure World (F : Type) where
  X : Ext F
  I : String → Tup (Val F) → Prop
  Fp : String → List (Val F) → List (Val F) → Prop
  Red : String → String → GroupBy → Tup (Val F) → Prop

/-- A flat tuple. -/
def flat (vs : List (Val F)) : Tup (Val F) := .tup (vs.map .val)

/-! ## Dataflows -/

/-- Evaluation of the arguments of a foreign predicate. -/
def argVals (X : Ext F) (es : List (Expr F)) (t : Tup (Val F)) (vs : List (Val F)) : Prop :=
  Expr.evalList X es t = .ok (vs.map .val)

/-- The tuples of a dataflow. -/
def Den (W : World F) : Dataflow F → Tup (Val F) → Prop
  | .leaf (.unit u), t => t = u
  | .leaf (.untagged ts), t => t ∈ ts
  | .leaf (.rel r), t => W.I r t
  | .leaf (.reduce a p g), t => W.Red a p g t
  | .leaf (.foreign n vs), t => ∃ ws, W.Fp n vs ws ∧ t = flat ws
  | .un (.filter e) d, t => Den W d t ∧ e.eval W.X t = .ok (.val (.bool true))
  | .un (.find k) d, t => Den W d t ∧ t.at? 0 = some k
  | .un .sorted d, t => Den W d t
  | .un (.joinIndexedVec r) d, t => ∃ k a b, (∃ x, Den W d x ∧ x.at? 0 = some k ∧ x.at? 1 = some a) ∧ W.I r (.tup [k, b]) ∧ t = .tup [k, a, b]
  | .un .overwriteOne d, t => Den W d t
  | .un (.exclusion cs) d, t => ∃ u c, Den W d u ∧ c ∈ cs ∧ t = .tup [u, c]
  | .un (.foreignConstraint n es) d, t => Den W d t ∧ ∃ vs, argVals W.X es t vs ∧ W.Fp n vs []
  | .un (.foreignJoin n es) d, t => ∃ u vs ws, Den W d u ∧ argVals W.X es u vs ∧ W.Fp n vs ws ∧ t = .tup [u, flat ws]
  | .bin .union d1 d2, t => Den W d1 t ∨ Den W d2 t
  | .bin .join d1 d2, t => ∃ k a b, (∃ x, Den W d1 x ∧ x.at? 0 = some k ∧ x.at? 1 = some a) ∧
      (∃ y, Den W d2 y ∧ y.at? 0 = some k ∧ y.at? 1 = some b) ∧ t = .tup [k, a, b]
  | .bin .intersect d1 d2, t => Den W d1 t ∧ Den W d2 t
  | .bin .product d1 d2, t => ∃ u v, Den W d1 u ∧ Den W d2 v ∧ t = .tup [u, v]
  | .bin .antijoin d1 d2, t => Den W d1 t ∧ ∀ k, t.at? 0 = some k → ¬ Den W d2 k
  | .bin .difference d1 d2, t => Den W d1 t ∧ ¬ Den W d2 t
  | .project d e, t => ∃ u, Den W d u ∧ e.eval W.X u = .ok t

/-- The relations a translation asks for contain what they are meant to contain: the temporary relations the tuples of their dataflows, the
permuted relations the permuted tuples. -/
structure Solves (W : World F) (s : St F) : Prop where
  temps : ∀ n d, (n, d) ∈ s.temps → ∀ t, W.I n t ↔ Den W d t
  negs : ∀ n d, (n, d) ∈ s.negs → ∀ t, W.I n t ↔ Den W d t
  perms : ∀ p π, (p, π) ∈ s.perms → ∀ t, W.I (permName p π) t ↔ ∃ u e, W.I p u ∧ permExpr π = some e ∧ e.eval W.X u = .ok t

/-! ## Plans -/

/-- Two assignments agree on a set of variables. -/
def Agree (b : List String) (σ τ : Asg F) : Prop := ∀ x ∈ b, σ x = τ x

/-- A constraint is satisfied. -/
def Con.Holds (X : Ext F) (σ : Asg F) : Con F → Prop
  | .bin op a b => evalBin X .run op.toBin (a.val σ) (b.val σ) = .ok (.bool true)
  | .not a => evalUn X .run .not (a.val σ) = .ok (.bool true)

mutual
/-- The tuple of shape `g` for an assignment. -/
def evalV (σ : Asg F) : VTuple → Tup (Val F)
  | .val x => .val (σ x)
  | .tup ts => .tup (evalVs σ ts)
/-- `evalV` on a list. -/
def evalVs (σ : Asg F) : List VTuple → List (Tup (Val F))
  | [] => []
  | t :: ts => evalV σ t :: evalVs σ ts
end

/-- The assignments that satisfy a plan. -/
def Sat (W : World F) : Plan F → Asg F → Prop
  | .unit, _ => True
  | .reduce r, σ => W.Red r.aggregator r.body (reduceGroupBy r) (evalV σ (reduceTuple r))
  | .ground a, σ => W.I a.predicate (flat (a.args.map (Term.val σ)))
  | .project _ d as, σ => Sat W d σ ∧ ∀ a ∈ as, a.2.val W.X σ = .ok (σ a.1)
  | .filter b d cs, σ => ∃ τ, Agree b σ τ ∧ Sat W d τ ∧ ∀ c ∈ cs, c.Holds W.X τ
  | .join d1 d2, σ => Sat W d1 σ ∧ Sat W d2 σ
  | .antijoin d1 d2, σ => Sat W d1 σ ∧ ¬ ∃ τ, Agree (joinVars d1 d2) σ τ ∧ Sat W d2 τ
  | .fpGround a free, σ => W.Fp a.predicate (a.args.map (Term.val σ)) (free.map σ)
  | .fpConstraint b d a, σ => ∃ τ, Agree b σ τ ∧ Sat W d τ ∧ W.Fp a.predicate (a.args.map (Term.val τ)) []
  | .fpJoin d a free, σ => Sat W d σ ∧ W.Fp a.predicate (a.args.map (Term.val σ)) (free.map σ)

/-! ## Conditions on plans -/

/-- The variables of an atom do not use the names reserved for constants. -/
def NoConstNames (vs : List String) : Prop := ∀ i, constVar i ∉ vs

/-- The facts of the predicate of an atom are flat tuples of its arity. -/
def FlatRel (W : World F) (a : Atom String F) : Prop :=
  ∀ t, W.I a.predicate t → ∃ vs : List (Val F), vs.length = a.args.length ∧ t = flat vs

/-- The plan is of the form for which its dataflow is shown to compute what the plan means. `need` are variables that are certainly part of what
is asked for, `dup` says that what is asked for may contain a variable twice.

* the facts of relations are flat, results of aggregations have the form they are read in;
* an atom with a variable occurring twice is neither read from a file nor asked for twice the same variable (see `c72_repeated_variable_refuted` and
  `c72_file_repeated_refuted`);
* all variables of an aggregation's result are taken into account when joining (see `c72_other_group_by_refuted`);
* a variable is assigned once, and either asked for or defined (see `c71_unused_assign_refuted`);
* two operands with the same variables are joined only if one of them is an atom (see `c72_blind_intersect_refuted`);
* free arguments of foreign predicates have new names. -/
def Fits (W : World F) (E : Env F) : Plan F → (String → Prop) → Bool → Prop
  | .unit, _, _ => True
  | .reduce r, _, _ =>
    (∀ t, W.Red r.aggregator r.body (reduceGroupBy r) t → ∃ σ, t = evalV σ (reduceTuple r)) ∧ ∀ x ∈ leaves (reduceTuple r), x ∈ r.vars
  | .ground a, _, dup =>
    FlatRel W a ∧ NoConstNames (atomVars a) ∧ (dup = true → (∀ t ∈ a.args, t.const? = none) → (atomVars a).Nodup) ∧
      (E.static a.predicate = some true → (atomVars a).Nodup)
  | .project b d as, need, dup =>
    (∀ x, x ∈ b ↔ x ∈ d.bounded ∨ ∃ a ∈ as, a.1 = x) ∧ (∀ a ∈ as, a.1 ∉ d.bounded ∧ ∀ x ∈ a.2.vars, x ∈ d.bounded) ∧
      (as.map Prod.fst).Nodup ∧ (∀ a ∈ as, need a.1 ∨ ∀ σ, Sat W d σ → ∃ v, a.2.val W.X σ = .ok v) ∧
      Fits W E d (fun x => need x ∨ ∃ a ∈ as, need a.1 ∧ x ∈ a.2.vars) dup
  | .filter b d cs, need, dup =>
    (∀ x ∈ b, x ∈ d.bounded) ∧ (∀ c ∈ cs, ∀ x ∈ c.vars, x ∈ d.bounded) ∧ (d.directAtom.isSome → ∀ x ∈ d.bounded, x ∈ b) ∧
      Fits W E d (fun x => (need x ∧ x ∈ b) ∨ ∃ c ∈ cs, x ∈ c.vars) (dup || !decide (cs.flatMap (fun c => uniq c.vars)).Nodup)
  | .join d1 d2, need, _ =>
    (sameSet d1.bounded d2.bounded = true → joinVars d1 d2 = [] ∨ d1.directAtom.isSome ∨ d2.directAtom.isSome) ∧
      Fits W E d1 (fun x => need x ∨ x ∈ joinVars d1 d2) false ∧ Fits W E d2 (fun x => need x ∨ x ∈ joinVars d1 d2) false
  | .antijoin d1 d2, need, _ =>
    (sameSet d1.bounded d2.bounded = true → d1.directAtom.isSome ∨ d2.directAtom.isSome) ∧
      Fits W E d1 (fun x => need x ∨ x ∈ joinVars d1 d2) false ∧ Fits W E d2 (fun x => x ∈ joinVars d1 d2) false
  | .fpGround a free, _, _ =>
    atomVars a = [] ∧ free.Nodup ∧ ∀ vs ws, W.Fp a.predicate vs ws → ws.length = free.length
  | .fpConstraint b d a, _, _ => (∀ x ∈ b, x ∈ d.bounded) ∧ (∀ x ∈ atomVars a, x ∈ d.bounded) ∧ Fits W E d (fun _ => True) false
  | .fpJoin d a free, _, _ =>
    free.Nodup ∧ (∀ x ∈ free, x ∉ d.bounded) ∧ (∀ x ∈ atomVars a, x ∈ d.bounded) ∧
      (∀ vs ws, W.Fp a.predicate vs ws → ws.length = free.length) ∧ Fits W E d (fun _ => True) false

/-- The iteration orders only reorder. -/
structure Env.Orders (E : Env F) : Prop where
  hash : ∀ l, (E.hashOrder l).Perm l
  sort : ∀ l, (E.sortOrder l).Perm l

/-- Sorting only reorders, and a heap gives back one of its elements (that it is one of largest weight does not matter for what follows). -/
structure Search.Lawful (S : Search) : Prop where
  sort : ∀ l, (S.sort l).Perm l
  pop : ∀ q, q ≠ [] → ∃ s q', S.pop q = some (s, q') ∧ q.Perm (s :: q')
  pop_nil : S.pop [] = none

/-! ## Rules -/

/-- The literals of a body by kind. -/
def posOf (body : List (Lit String F Reduce)) : List (Atom String F) := body.filterMap (fun l => match l with | .atom a => some a | _ => none)
/-- Negated atoms. -/
def negOf (body : List (Lit String F Reduce)) : List (Atom String F) := body.filterMap (fun l => match l with | .neg a => some a | _ => none)
/-- Assignments. -/
def assignsOf (body : List (Lit String F Reduce)) : List (String × AExpr String F) :=
  body.filterMap (fun l => match l with | .assign x e => some (x, e) | _ => none)
/-- Constraints. -/
def consOf (body : List (Lit String F Reduce)) : List (Con F) :=
  body.filterMap (fun l => match l with | .cbin op a b => some (.bin op a b) | .cnot a => some (.not a) | _ => none)
/-- Aggregations. -/
def reducesOf (body : List (Lit String F Reduce)) : List Reduce := body.filterMap (fun l => match l with | .reduce r _ => some r | _ => none)

/-- An aggregation relates the values of its variables. -/
def ReduceHolds (W : World F) (σ : Asg F) (r : Reduce) : Prop := W.Red r.aggregator r.body (reduceGroupBy r) (evalV σ (reduceTuple r))

/-- What it means for a literal of a rule to be true under an assignment. -/
def LitHolds (W : World F) (σ : Asg F) : Lit String F Reduce → Prop
  | .atom a => W.I a.predicate (flat (a.args.map (Term.val σ)))
  | .neg a => ¬ W.I a.predicate (flat (a.args.map (Term.val σ)))
  | .assign x e => e.val W.X σ = .ok (σ x)
  | .cbin op a b => (Con.bin op a b).Holds W.X σ
  | .cnot a => (Con.not a).Holds W.X σ
  | .reduce r _ => ReduceHolds W σ r
  | .tt => True
  | .ff => False

/-- The variable gets a value from the atoms, aggregations and assignments of the body (other than assignments of new entities) that do not
mention a variable to be avoided. -/
inductive Bound (body : List (Lit String F Reduce)) (avoid : String → Prop) : String → Prop
  | atom {a x} : a ∈ posOf body → x ∈ atomVars a → (∀ y ∈ atomVars a, ¬ avoid y) → Bound body avoid x
  | reduce {r x} : r ∈ reducesOf body → x ∈ r.vars → (∀ y ∈ r.vars, ¬ avoid y) → Bound body avoid x
  | assign {x e} : (x, e) ∈ assignsOf body → isNew e = false → ¬ avoid x → (∀ y ∈ e.vars, Bound body avoid y) → Bound body avoid x

/-- The assignment can be computed before its left-hand side is known. -/
def Live (body : List (Lit String F Reduce)) (x : String) (e : AExpr String F) : Prop :=
  isNew e = false ∧ ∀ y ∈ e.vars, Bound body (fun z => z = x) y

/-- The assignment is the only source of the values of its left-hand side among atoms, aggregations and computable assignments (of the latter by
`RuleOk.once`). -/
def Sole (body : List (Lit String F Reduce)) (x : String) (e : AExpr String F) : Prop :=
  Live body x e ∧ (∀ a ∈ posOf body, x ∉ atomVars a) ∧ ∀ r ∈ reducesOf body, x ∉ r.vars

/-- The value of the variable is looked at: by the head, a constraint, an atom, or to compute a variable that is looked at. -/
inductive Used (body : List (Lit String F Reduce)) (head : List String) : String → Prop
  | head {x} : x ∈ head → Used body head x
  | con {c x} : c ∈ consOf body → x ∈ c.vars → Used body head x
  | pos {a x} : a ∈ posOf body → x ∈ atomVars a → Used body head x
  | neg {a x} : a ∈ negOf body → x ∈ atomVars a → Used body head x
  | assign {y e x} : (y, e) ∈ assignsOf body → Sole body y e → Used body head y → x ∈ e.vars → Used body head x
  | new {y e x} : (y, e) ∈ assignsOf body → isNew e = true → Used body head y → x ∈ e.vars → Used body head x

/-- The literals the compiled rule checks: all but assignments to variables that get their values elsewhere. -/
def Kept (body : List (Lit String F Reduce)) : Lit String F Reduce → Prop
  | .assign x e => isNew e = true ∨ Sole body x e
  | _ => True

/-- The conditions under which a rule without foreign predicates is shown to be compiled correctly. `nb` are the foreign predicates. -/
structure RuleOk (W : World F) (E : Env F) (nb : String → Option Nat) (body : List (Lit String F Reduce)) (head : List String) : Prop where
  /-- No foreign predicates. -/
  nofp : ∀ a ∈ posOf body, nb a.predicate = none
  noff : Lit.ff ∉ body
  /-- Facts are flat tuples. -/
  flat : ∀ a, a ∈ posOf body ∨ a ∈ negOf body → FlatRel W a ∧ NoConstNames (atomVars a)
  /-- No variable is repeated in an atom read from a file, or in an atom of a rule whose constraints mention a variable twice. -/
  static : ∀ a, a ∈ posOf body ∨ a ∈ negOf body → E.static a.predicate = some true → (atomVars a).Nodup
  dup : ∀ a ∈ posOf body, (∀ t ∈ a.args, t.const? = none) → (atomVars a).Nodup ∨ ((consOf body).flatMap (fun c => uniq c.vars)).Nodup
  /-- Results of aggregations have the form they are read in, all of their variables are joined, each has a variable of its own. -/
  red : ∀ r ∈ reducesOf body, (∀ t, W.Red r.aggregator r.body (reduceGroupBy r) t → ∃ σ, t = evalV σ (reduceTuple r)) ∧
    ∀ x ∈ leaves (reduceTuple r), x ∈ r.vars
  redOwn : ∀ pre r post, reducesOf body = pre ++ r :: post → pre ≠ [] → ∃ x ∈ r.vars, ∀ r' ∈ pre, x ∉ r'.vars
  /-- Every variable gets a value. -/
  safeNeg : ∀ a ∈ negOf body, ∀ x ∈ atomVars a, Bound body (fun _ => False) x
  safeCon : ∀ c ∈ consOf body, ∀ x ∈ c.vars, Bound body (fun _ => False) x
  safeAssign : ∀ a ∈ assignsOf body, ∀ x ∈ a.2.vars, Bound body (fun _ => False) x
  safeHead : ∀ x ∈ head, Bound body (fun _ => False) x ∨ ∃ e, (x, e) ∈ assignsOf body ∧ isNew e = true
  /-- No two computable assignments to the same variable. -/
  once : (assignsOf body).Pairwise (fun a b => Live body a.1 a.2 → Live body b.1 b.2 → a.1 ≠ b.1)
  /-- Variables for new entities get no value in another way. -/
  newFresh : ∀ a ∈ assignsOf body, isNew a.2 = true → ¬ Bound body (fun _ => False) a.1
  newOnce : (((assignsOf body).filter (fun a => isNew a.2)).map Prod.fst).Nodup
  /-- What is assigned is looked at, or always defined. -/
  used : ∀ a ∈ assignsOf body, Live body a.1 a.2 → Used body head a.1 ∨ ∀ σ, ∃ v, a.2.val W.X σ = .ok v

/-- The variables of a head. -/
def headVars : Head String F → List String
  | .atom a => atomVars a
  | .disj [] => []
  | .disj (a :: _) => atomVars a

/-! ## What a plan looks at -/

/-- The atoms a plan looks up. -/
def Plan.scans : Plan F → List (Atom String F)
  | .unit | .reduce _ | .fpGround _ _ => []
  | .ground a => [a]
  | .project _ d _ | .filter _ d _ | .fpConstraint _ d _ | .fpJoin d _ _ => d.scans
  | .join d1 d2 => d1.scans ++ d2.scans
  | .antijoin d1 _ => d1.scans

/-- The atoms a plan requires to be absent. -/
def Plan.denied : Plan F → List (Atom String F)
  | .unit | .reduce _ | .fpGround _ _ | .ground _ => []
  | .project _ d _ | .filter _ d _ | .fpConstraint _ d _ | .fpJoin d _ _ => d.denied
  | .join d1 d2 => d1.denied ++ d2.denied
  | .antijoin d1 d2 => d1.denied ++ d2.scans

/-- The constraints a plan checks. -/
def Plan.checks : Plan F → List (Con F)
  | .unit | .reduce _ | .fpGround _ _ | .ground _ => []
  | .project _ d _ | .fpConstraint _ d _ | .fpJoin d _ _ => d.checks
  | .filter _ d cs => d.checks ++ cs
  | .join d1 d2 | .antijoin d1 d2 => d1.checks ++ d2.checks

end Scallop.Plan
