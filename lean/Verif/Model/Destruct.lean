import Mathlib.Data.List.Forall2

/-!
# Constructors as patterns in arguments of atoms

Models `/repo/core/src/compiler/front/transformations/desugar_destruct.rs`: arguments `C(a, b)` of atoms in bodies and heads are replaced by new variables, with
atoms `adt#C(v, a, b)` that take the entities apart; and what becomes of such arguments where the transformation does not reach (`front/f2b/flatten_expr.rs` 84-100, 279-301).

Simplified: an expression that is not a pattern is of an arbitrary type `E` (it cannot contain patterns, `grammar.lalrpop` 677-687); locations are left out but for the
number of a pattern, which names its variable. Facts with patterns are those of `transformations/non_constant_fact_to_rule.rs`. Names of the new variables contain a `#` and differ from those of the program; they are separate here.
-/

namespace Scallop.Destr

variable {E : Type}

/-- Models an argument of an atom: `Expr::Destruct` with its location id, functor and arguments (`ast/expr.rs` 373-380), or another expression. -/
inductive Arg (E : Type) where
  | expr (e : E)
  | destr (id : Nat) (functor : String) (args : List (Arg E))

/-- The new variables: `adt#destr#var#root#id` (`desugar_destruct.rs` 27) and `adt#destr#var#id#n` (71). -/
inductive Var where
  | root (id : Nat)
  | sub (id n : Nat)
deriving DecidableEq, Repr

/-- An argument without patterns. -/
inductive Out (E : Type) where
  | expr (e : E)
  | var (x : Var)
deriving DecidableEq, Repr

/-- An atom without patterns. -/
structure OAtom (E : Type) where
  pred : String
  args : List (Out E)
deriving DecidableEq, Repr

mutual
/-- Models the treatment of one argument of a pattern (`desugar_destruct.rs` 65-81) with the recursive call (51-91): the argument to use, the atoms added, and the
next number. A number is taken before the arguments are visited, the atom is added after them. -/
def argOf (parent : Nat) : Arg E → Nat → Out E × List (OAtom E) × Nat
  | .expr e, n => (.expr e, [], n)
  | .destr _ f args, n =>
    let r := argsOf parent args (n + 1)
    (.var (.sub parent n), r.2.1 ++ [⟨"adt#" ++ f, .var (.sub parent n) :: r.1⟩], r.2.2)
/-- The arguments of a pattern, from left to right. -/
def argsOf (parent : Nat) : List (Arg E) → Nat → List (Out E) × List (OAtom E) × Nat
  | [], n => ([], [], n)
  | a :: as, n =>
    let r := argOf parent a n
    let s := argsOf parent as r.2.2
    (r.1 :: s.1, r.2.1 ++ s.2.1, s.2.2)
end

/-- Models the loop of `transform_atom_with_destructor_to_formula` (`desugar_destruct.rs` 18-48) over the arguments of an atom: one counter for the atom. -/
def rootArgs : List (Arg E) → Nat → List (Out E) × List (OAtom E)
  | [], _ => ([], [])
  | .expr e :: as, n =>
    let s := rootArgs as n
    (.expr e :: s.1, s.2)
  | .destr id f args :: as, n =>
    let r := argsOf id args n
    let s := rootArgs as r.2.2
    (.var (.root id) :: s.1, r.2.1 ++ [⟨"adt#" ++ f, .var (.root id) :: r.1⟩] ++ s.2)

/-- Models `has_destruct_in_atom` (`desugar_destruct.rs` 14-16). -/
def hasDestruct (args : List (Arg E)) : Bool := args.any (fun a => match a with | .destr .. => true | .expr _ => false)

/-- Models the visit of an atom of a body (`desugar_destruct.rs` 94-109): the atoms of the conjunction that replaces it. An atom without patterns is left as it
is, which is the same list. -/
def visitAtom (p : String) (args : List (Arg E)) : List (OAtom E) :=
  let r := rootArgs args 0
  ⟨p, r.1⟩ :: r.2

/-- Models `RuleHead` (`ast/rule.rs`). -/
inductive Head (E : Type) where
  | atom (p : String) (args : List (Arg E))
  | conj (as : List (String × List (Arg E)))
  | disj (as : List (String × List (Arg E)))

/-- Models the visit of a rule (`desugar_destruct.rs` 111-137): the head atoms and the atoms added to the body; `none` is a panic. The rule with a conjunction as
head is still there when it is visited: it is removed after the walk (`transform.rs` 62-82, `conjunctive_head.rs` 19-58). -/
def visitHead : Head E → Option (List (OAtom E) × List (OAtom E))
  | .atom p args =>
    let r := rootArgs args 0
    some ([⟨p, r.1⟩], r.2)
  | .conj as => if as.any (fun a => hasDestruct a.2) then none else some (as.map (fun a => ⟨a.1, (rootArgs a.2 0).1⟩), [])
  | .disj as => if as.any (fun a => hasDestruct a.2) then none else some (as.map (fun a => ⟨a.1, (rootArgs a.2 0).1⟩), [])

/-- Models the arguments of a negated atom, which the transformation does not visit (its atom is not a formula), when literals are made of them
(`flatten_expr.rs` 279-289 with `get_loc_term` 84-95): a pattern is neither an inner node nor a leaf, so that the lookup panics (`none`). -/
def negatedArgs : List (Arg E) → Option (List (Out E))
  | [] => some []
  | .expr e :: as => (negatedArgs as).map (.expr e :: ·)
  | .destr .. :: _ => none

/-- A formula of the body made for a fact: an atom, or an equation between a new variable and an expression. -/
inductive Lit (E : Type) where
  | atom (a : OAtom E)
  | eq (x : Var) (e : E)
deriving DecidableEq, Repr

/-- Models `TransformNonConstantFactToRule` (`non_constant_fact_to_rule.rs` 25-93) for the arguments from the `i`-th on: the arguments of the head and the formulas of
the body. Constants stay; other expressions are equated with the variable `fnc#i`, written `root i` here; a pattern becomes `case fnc#i is …`, which
`DesugarCaseIs` (`desugar_case_is.rs` 14-96) replaces by atoms with variables `adt#var#fnc#i#n`, written `sub i n`, numbered from 0 for each argument as `argsOf` does it. -/
def factArgs (isConst : E → Bool) : List (Arg E) → Nat → List (Out E) × List (Lit E)
  | [], _ => ([], [])
  | .expr e :: as, i =>
    let s := factArgs isConst as (i + 1)
    if isConst e then (.expr e :: s.1, s.2) else (.var (.root i) :: s.1, .eq (.root i) e :: s.2)
  | .destr _ f args :: as, i =>
    let r := argsOf i args 0
    let s := factArgs isConst as (i + 1)
    (.var (.root i) :: s.1, (r.2.1 ++ [(⟨"adt#" ++ f, .var (.root i) :: r.1⟩ : OAtom E)]).map Lit.atom ++ s.2)

end Scallop.Destr
