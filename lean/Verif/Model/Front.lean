import Verif.Model.Back

/-!
# Surface formulas, their desugaring and their translation into back rules

Models `/repo/core/src/compiler/front/ast/formula.rs` and `ast/expr.rs` (syntax), the transformations that act on formulas
(`front/transformations/desugar_case_is.rs`, `desugar_forall_exists.rs`, `desugar_range.rs`, `forall_to_not_exists.rs`,
`implies_to_disjunction.rs`, `conjunctive_head.rs`) with the order in which they visit the tree (`front/transform.rs` 42-100 and
`lib/astnode-derive/src/lib.rs` 404, 518), the normalisation of rule bodies (`front/analyzers/boundness/context.rs`) and the
flattening of expressions (`front/f2b/flatten_expr.rs`, `front/f2b/f2b.rs` 219-378).

Not modelled: destructor expressions (`desugar_destruct.rs`), type annotations inside arguments, rule tags, locations (apart from
the identifier used to name the variable of a quantifier), types of variables.
-/

namespace Scallop.Front

open Scallop.Back (Term Atom AExpr COp Lit Head Rule)

variable {F : Type}

/-- Names of variables. Those generated by the compiler contain a `#`, which users cannot write; here they are separate constructors:
`r#desugar#n` (`desugar_forall_exists.rs` 37), `v#forall#temp` (`forall_to_not_exists.rs` 36), `adt#var#(v)#i`
(`desugar_case_is.rs` 69), `flat#n` and `wc#n` (`flatten_expr.rs` 78-84). -/
inductive Name where
  | user (x : String)
  | quant (n : Nat)
  | forallTemp (v : Name)
  | adtVar (v : Name) (i : Nat)
  | flat (n : Nat)
  | wc (n : Nat)
deriving DecidableEq, Repr

/-- Models `enum Expr` (`ast/expr.rs`), after resolution of constants. -/
inductive FExpr (F : Type) where
  | const (c : Val F)
  | var (x : Name)
  | wild
  | bin (op : BinOp) (a b : FExpr F)
  | un (op : UnOp) (a : FExpr F)
  | ite (c t e : FExpr F)
  | call (f : String) (args : List (FExpr F))
  | new (f : String) (args : List (FExpr F))

/-- Models `enum Entity` (`ast/entity.rs`): a pattern of a `case` formula. -/
inductive Entity (F : Type) where
  | expr (e : FExpr F)
  | object (functor : String) (args : List (Entity F))

/-- Models `enum Formula` (`formula.rs` 4-16). `range` and the predicates of atoms are as written; a reduce has result variables
(`none` is `_`), an operator, arguments, bindings, a body, and optionally a `where` clause (variables and formula, the formula in a
list of length at most one). -/
inductive Formula (F : Type) where
  | atom (p : String) (args : List (FExpr F))
  | neg (p : String) (args : List (FExpr F))
  | case (v : Name) (e : Entity F)
  | disj (fs : List (Formula F))
  | conj (fs : List (Formula F))
  | implies (l r : Formula F)
  | constraint (e : FExpr F)
  | reduce (left : List (Option Name)) (op : String) (args bindings : List Name) (body : Formula F)
      (groupVars : List Name) (groupBody : List (Formula F))
  | quant (id : Nat) (negated : Bool) (op : String) (bindings : List Name) (body : Formula F)
      (groupVars : List Name) (groupBody : List (Formula F))
  | range (x : Name) (lo hi : FExpr F) (inclusive : Bool)

/-! ## Desugaring -/

/-- Models `Formula::negate` (`formula.rs` 19-43) with `Constraint::negate` (133-137): `none` is a panic. -/
def Formula.negate : Formula F → Option (Formula F)
  | .atom p args => some (.neg p args)
  | .neg p args => some (.atom p args)
  | .case _ _ => none
  | .disj fs => (negateAll fs).map .conj
  | .conj fs => (negateAll fs).map .disj
  | .implies l r => r.negate.map (fun r' => .conj [l, r'])
  | .constraint _ => none
  | .reduce .. => none
  | .quant .. => none
  | .range .. => none
where
  /-- The map over the arguments of a connective. -/
  negateAll : List (Formula F) → Option (List (Formula F))
    | [] => some []
    | f :: fs => f.negate.bind (fun f' => (negateAll fs).map (f' :: ·))

mutual
/-- Models the treatment of one argument of an object in `transform_object_to_formula_helper` (`desugar_case_is.rs` 60-76): the
expression to use for it, the formulas it contributes, and the next fresh number. -/
def Entity.arg (parent : Name) : Entity F → Nat → FExpr F × List (Formula F) × Nat
  | .expr e, n => (e, [], n)
  | .object f as, n =>
    let v : Name := .adtVar parent n
    let r := Entity.args parent as (n + 1)
    (.var v, r.2.1 ++ [.atom ("adt#" ++ f) (.var v :: r.1)], r.2.2)
/-- All the arguments of an object, from left to right. -/
def Entity.args (parent : Name) : List (Entity F) → Nat → List (FExpr F) × List (Formula F) × Nat
  | [], n => ([], [], n)
  | e :: es, n =>
    let r := Entity.arg parent e n
    let s := Entity.args parent es r.2.2
    (r.1 :: s.1, r.2.1 ++ s.2.1, s.2.2)
end

/-- Models `DesugarCaseIs` (`desugar_case_is.rs` 14-96): the counter starts at 0 for every `case` formula. -/
def desugarCaseIs : Formula F → Formula F
  | .case v (.expr e) => .constraint (.bin .eq (.var v) e)
  | .case v (.object f as) =>
    let r := Entity.args v as 0
    .conj (r.2.1 ++ [.atom ("adt#" ++ f) (.var v :: r.1)])
  | f => f

/-- Models `DesugarForallExists` (`desugar_forall_exists.rs` 29-75). -/
def desugarForallExists : Formula F → Formula F
  | .quant n negated op bindings body gv gb =>
    .conj [.reduce [some (.quant n)] op [] bindings body gv gb,
      .constraint (.bin .eq (.var (.quant n)) (.const (.bool !negated)))]
  | f => f

/-- Models `DesugarRange` (`desugar_range.rs` 29-58). -/
def desugarRange : Formula F → Formula F
  | .range x lo hi true => .atom "range#i32" [lo, .bin .add hi (.const (.int .i32 1)), .var x]
  | .range x lo hi false => .atom "range#i32" [lo, hi, .var x]
  | f => f

/-- Models `TransformForall` (`forall_to_not_exists.rs` 28-99): `none` is a panic (of `negate`). -/
def transformForall : Formula F → Option (Formula F)
  | .reduce [some b] "forall" args bindings (.implies l r) gv gb =>
    r.negate.map (fun r' =>
      .conj [.constraint (.bin .eq (.var b) (.un .not (.var (.forallTemp b)))),
        .reduce [some (.forallTemp b)] "exists" args bindings (.conj [l, r']) gv gb])
  | f => some f

/-- Models `TransformImplies` (`implies_to_disjunction.rs` 9-22): `none` is a panic. -/
def transformImplies : Formula F → Option (Formula F)
  | .implies l r => l.negate.map (fun l' => .disj [l', r])
  | f => some f

/-- The visitors of a formula, in order (`transform.rs` 62-78): each sees what the previous one left. -/
def visit (f : Formula F) : Option (Formula F) :=
  (transformForall (desugarRange (desugarForallExists (desugarCaseIs f)))).bind transformImplies

/-- Walking a list of formulas. -/
def walkList (w : Formula F → Outcome (Formula F)) : List (Formula F) → Outcome (List (Formula F))
  | [] => .ok []
  | f :: fs => (w f).bind (fun f' => (walkList w fs).bind (fun fs' => .ok (f' :: fs')))

/-- The children of a formula (`walk_mut`, `lib/astnode-derive/src/lib.rs` 404, 518). -/
def walkChildren (w : Formula F → Outcome (Formula F)) : Formula F → Outcome (Formula F)
  | .disj fs => (walkList w fs).bind (fun fs' => .ok (.disj fs'))
  | .conj fs => (walkList w fs).bind (fun fs' => .ok (.conj fs'))
  | .implies l r => (w l).bind (fun l' => (w r).bind (fun r' => .ok (.implies l' r')))
  | .reduce left op args bindings body gv gb =>
    (w body).bind (fun b => (walkList w gb).bind (fun g => .ok (.reduce left op args bindings b gv g)))
  | .quant n negated op bindings body gv gb =>
    (w body).bind (fun b => (walkList w gb).bind (fun g => .ok (.quant n negated op bindings b gv g)))
  | f => .ok f

/-- Models `walk_mut` with the visitors above: a node is visited before its children, and the children are those of the node left by
the visit. `undef` means that the fuel ran out, `panic` that the compiler panics. -/
def walk : Nat → Formula F → Outcome (Formula F)
  | 0, _ => .undef
  | fuel + 1, f =>
    match visit f with
    | none => .panic
    | some f' => walkChildren (walk fuel) f'

/-- A number of steps that is sufficient, up to one. -/
def Formula.weight : Formula F → Nat
  | .disj fs => 1 + weightAll fs
  | .conj fs => 1 + weightAll fs
  | .implies l r => 1 + (l.weight + r.weight)
  | .reduce _ _ _ _ body _ gb => 2 + (body.weight + weightAll gb)
  | .quant _ _ _ _ body _ gb => 4 + (body.weight + weightAll gb)
  | _ => 1
where
  /-- The sum over a list. -/
  weightAll : List (Formula F) → Nat
    | [] => 0
    | f :: fs => f.weight + weightAll fs

/-- Models the transformation of a rule body by `apply_transformations` (`transform.rs` 42-79). -/
def desugar (f : Formula F) : Outcome (Formula F) := walk (f.weight + 1) f

/-! ## Rules -/

/-- Models `enum RuleHead` (`ast/rule.rs`). -/
inductive FHead (F : Type) where
  | atom (p : String) (args : List (FExpr F))
  | conj (as : List (String × List (FExpr F)))
  | disj (as : List (String × List (FExpr F)))

/-- Models `struct Rule` (`ast/rule.rs`). -/
structure FRule (F : Type) where
  head : FHead F
  body : Formula F

/-- Models what `apply_transformations` leaves of one rule (`transform.rs` 79-99 with `conjunctive_head.rs` 22-58). A rule with a
conjunction of heads is removed; its replacements are made when the rule is visited, before the visitors reach its body, and are
added after the walk, so that the transformations of formulas are not applied to them. -/
def transformRule (r : FRule F) : Outcome (List (FRule F)) :=
  match r.head with
  | .conj as => (desugar r.body).bind (fun _ => .ok (as.map (fun a => ⟨.atom a.1 a.2, r.body⟩)))
  | h => (desugar r.body).bind (fun b => .ok [⟨h, b⟩])

/-! ## Normalisation of bodies -/

/-- Models `struct ConjunctionContext` (`context.rs` 115-120): formulas that are atoms and constraints, negated atoms, and
aggregations (kept here as formulas). -/
structure ConjCtx (F : Type) where
  pos : List (Formula F) := []
  neg : List (Formula F) := []
  agg : List (Formula F) := []

/-- Models `ConjunctionContext::join` (`context.rs` 123-129). -/
def ConjCtx.join (cs : List (ConjCtx F)) : ConjCtx F :=
  cs.foldl (fun acc new => ⟨acc.pos ++ new.pos, acc.neg ++ new.neg, acc.agg ++ new.agg⟩) {}

/-- Models `Itertools::multi_cartesian_product` (0.10): all the ways of picking one element of each list, the last varying fastest;
no result for no lists. -/
def multiProduct {α : Type} : List (List α) → List (List α)
  | [] => []
  | [l] => l.map (fun x => [x])
  | l :: m :: ls => l.flatMap (fun x => (multiProduct (m :: ls)).map (x :: ·))

/-- Models `DisjunctionContext::from_formula` (`context.rs` 56-88); `none` is a panic. -/
def fromFormula : Formula F → Option (List (ConjCtx F))
  | .disj fs => (fromAll fs).map List.flatten
  | .conj fs => (fromAll fs).map (fun cs => (multiProduct cs).map ConjCtx.join)
  | .atom p args => some [{ pos := [.atom p args] }]
  | .neg p args => some [{ neg := [.neg p args] }]
  | .constraint e => some [{ pos := [.constraint e] }]
  | .reduce l op as bs b gv gb => some [{ agg := [.reduce l op as bs b gv gb] }]
  | .implies _ _ => none
  | .case _ _ => none
  | .quant .. => none
  | .range .. => none
where
  /-- The map over the arguments of a connective. -/
  fromAll : List (Formula F) → Option (List (List (ConjCtx F)))
    | [] => some []
    | f :: fs => (fromFormula f).bind (fun c => (fromAll fs).map (c :: ·))

/-! ## Flattening -/

/-- A literal of a back rule with a mark telling whether it is one of the extra assignments generated for additions and
subtractions. The compiler does not keep the mark: it is there to state properties. -/
structure FLit (F : Type) where
  lit : Lit Name F (Formula F)
  hint : Bool := false

/-- Models `BinaryOp::add_sub_inv_op` (`common/binary_op.rs` 87-93). -/
def invOp : BinOp → Option BinOp
  | .add => some .sub
  | .sub => some .add
  | _ => none

/-- Models the extra assignments for `left = op1 ± op2` (`flatten_expr.rs` 141-160). -/
def hints (left : Name) (op : BinOp) (t₁ t₂ : Term Name F) : List (FLit F) :=
  match invOp op with
  | none => []
  | some inv =>
    (match t₁ with
      | .var x => [⟨.assign x (.bin inv (.var left) t₂), true⟩]
      | .const _ => []) ++
    (match t₂ with
      | .var y => [⟨.assign y (.bin inv (.var left) t₁), true⟩]
      | .const _ => [])

mutual
/-- Models the visit of an expression (which allocates variables, a node before its children, `flatten_expr.rs` 386-527) followed by
`get_expr_term` and `collect_flattened_literals` (86-245): the term standing for the expression, the literals that define it, and the
next fresh number. -/
def FExpr.flatten : FExpr F → Nat → Term Name F × List (FLit F) × Nat
  | .const c, n => (.const c, [], n)
  | .var x, n => (.var x, [], n)
  | .wild, n => (.var (.wc n), [], n + 1)
  | .bin op a b, n =>
    let r := a.flatten (n + 1)
    let s := b.flatten r.2.2
    (.var (.flat n), ⟨.assign (.flat n) (.bin op r.1 s.1), false⟩ :: (hints (.flat n) op r.1 s.1 ++ (r.2.1 ++ s.2.1)), s.2.2)
  | .un op a, n =>
    let r := a.flatten (n + 1)
    (.var (.flat n), ⟨.assign (.flat n) (.un op r.1), false⟩ :: r.2.1, r.2.2)
  | .ite c t e, n =>
    let r := c.flatten (n + 1)
    let s := t.flatten r.2.2
    let u := e.flatten s.2.2
    (.var (.flat n), ⟨.assign (.flat n) (.ite r.1 s.1 u.1), false⟩ :: (r.2.1 ++ (s.2.1 ++ u.2.1)), u.2.2)
  | .call f args, n =>
    let r := FExpr.flattenAll args (n + 1)
    (.var (.flat n), ⟨.assign (.flat n) (.call f r.1), false⟩ :: r.2.1, r.2.2)
  | .new f args, n =>
    let r := FExpr.flattenAll args (n + 1)
    (.var (.flat n), ⟨.assign (.flat n) (.new ("adt#" ++ f) r.1), false⟩ :: r.2.1, r.2.2)
/-- The arguments of a call, an object or an atom. -/
def FExpr.flattenAll : List (FExpr F) → Nat → List (Term Name F) × List (FLit F) × Nat
  | [], n => ([], [], n)
  | e :: es, n =>
    let r := e.flatten n
    let s := FExpr.flattenAll es r.2.2
    (r.1 :: s.1, r.2.1 ++ s.2.1, s.2.2)
end

/-- Models `Option::<BinaryConstraintOp>::from(&BinaryExprOp)` (`back/ast.rs` 656-668). -/
def cop? : BinOp → Option COp
  | .eq => some .eq | .neq => some .neq | .lt => some .lt | .leq => some .leq | .gt => some .gt | .geq => some .geq
  | _ => none

/-- Models `constraint_to_back_literal` (`flatten_expr.rs` 302-351); `none` is a panic. -/
def flattenConstraint : FExpr F → Nat → Option (List (FLit F) × Nat)
  | .bin op a b, n =>
    (cop? op).map (fun c =>
      let r := a.flatten n
      let s := b.flatten r.2.2
      (⟨.cbin c r.1 s.1, false⟩ :: (r.2.1 ++ s.2.1), s.2.2))
  | .un .not a, n =>
    let r := a.flatten n
    some (⟨.cnot r.1, false⟩ :: r.2.1, r.2.2)
  | _, _ => none

/-- Models `front_literal_to_back_literal` (`flatten_expr.rs` 353-369) with `atom_to_back_literals` and `neg_atom_to_back_literals`
(247-300). A reduce is translated separately (`f2b.rs` 380-560, not modelled): here it becomes a reduce literal carrying the
formula; which variables it lists plays no role. -/
def flattenLit : Formula F → Nat → Option (List (FLit F) × Nat)
  | .atom p args, n =>
    let r := FExpr.flattenAll args n
    some (⟨.atom ⟨p, r.1⟩, false⟩ :: r.2.1, r.2.2)
  | .neg p args, n =>
    let r := FExpr.flattenAll args n
    some (⟨.neg ⟨p, r.1⟩, false⟩ :: r.2.1, r.2.2)
  | .constraint e, n => flattenConstraint e n
  | .reduce l op as bs b gv gb, n => some ([⟨.reduce (.reduce l op as bs b gv gb) (l.filterMap id), false⟩], n)
  | _, _ => none

/-- Models `to_back_literals` (`flatten_expr.rs` 371-377) on a list of formulas. -/
def flattenLits : List (Formula F) → Nat → Option (List (FLit F) × Nat)
  | [], n => some ([], n)
  | f :: fs, n =>
    (flattenLit f n).bind (fun r => (flattenLits fs r.2).map (fun s => (r.1 ++ s.1, s.2)))

/-- A back rule with marked literals. -/
structure FBack (F : Type) where
  head : Atom Name F
  body : List (FLit F)

/-- The rule the compiler produces. -/
def FBack.rule (r : FBack F) : Rule Name F (Formula F) := ⟨.atom r.head, r.body.map FLit.lit⟩

/-- Models the loop of `formula_to_back_rules` (`f2b.rs` 331-375) over the conjunctions of a body. -/
def conjsToBack (head : Atom Name F) (additional : List (FLit F)) : List (ConjCtx F) → Nat → Option (List (FBack F))
  | [], _ => some []
  | c :: cs, n =>
    (flattenLits c.pos n).bind (fun p => (flattenLits c.neg p.2).bind (fun q => (flattenLits c.agg q.2).bind (fun a =>
      (conjsToBack head additional cs a.2).map (fun rs => ⟨head, p.1 ++ (q.1 ++ (a.1 ++ additional))⟩ :: rs))))

/-- Models the compilation of a rule with a single head atom whose body has been transformed (`f2b.rs` 219-259): the head is
flattened first, its literals are added to every rule. -/
def ruleToBack (p : String) (args : List (FExpr F)) (body : Formula F) : Option (List (FBack F)) :=
  let r := FExpr.flattenAll args 0
  (fromFormula body).bind (fun cs => conjsToBack ⟨p, r.1⟩ r.2.1 cs r.2.2)

end Scallop.Front
