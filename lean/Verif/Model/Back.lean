import Verif.Model.Value

/-!
# Rules of the back intermediate representation and the rule-level optimizations

Models `/repo/core/src/compiler/back/ast.rs` (rules, literals, terms) and
`/repo/core/src/compiler/back/optimizations/` (`constant_folding.rs`, `constant_propagation.rs`, `equality_propagation.rs`,
`remove_true_literals.rs`, `remove_false_rules.rs`, `empty_rule_to_fact.rs`) with the loop that drives them
(`compile.rs` 16-48; the demand transformation is not modelled).

A variable of the code is a name with a type; here it is an element of an arbitrary type `N` with decidable equality.
Predicates and functors are strings. A `Reduce` literal is a label with the list of variables it shares with the rule
(`Reduce::variable_args`, `ast.rs` 752-758): none of the passes looks inside.
-/

namespace Scallop.Back

variable {N F R : Type}

/-- Models `enum Term` (`ast.rs` 259-263). -/
inductive Term (N F : Type) where
  | var (x : N)
  | const (c : Val F)
deriving DecidableEq

/-- Models `struct Atom` (`ast.rs` 388-392). -/
structure Atom (N F : Type) where
  predicate : String
  args : List (Term N F)
deriving DecidableEq

/-- Models `enum AssignExpr` (`ast.rs` 531-538). -/
inductive AExpr (N F : Type) where
  | bin (op : BinOp) (a b : Term N F)
  | un (op : UnOp) (a : Term N F)
  | ite (c t e : Term N F)
  | call (f : String) (args : List (Term N F))
  | new (f : String) (args : List (Term N F))
deriving DecidableEq

/-- Models `enum BinaryConstraintOp` (`ast.rs` 646-654). -/
inductive COp where
  | eq | neq | lt | leq | gt | geq
deriving DecidableEq, Repr

/-- Models `From<&BinaryConstraintOp> for BinaryExprOp` (`ast.rs` 670-681). -/
def COp.toBin : COp → BinOp
  | .eq => .eq | .neq => .neq | .lt => .lt | .leq => .leq | .gt => .gt | .geq => .geq

/-- Models `enum Literal` (`ast.rs` 313-322). `cnot` is the only unary constraint (`UnaryConstraintOp::Not`, 690-693). -/
inductive Lit (N F R : Type) where
  | atom (a : Atom N F)
  | neg (a : Atom N F)
  | assign (x : N) (e : AExpr N F)
  | cbin (op : COp) (a b : Term N F)
  | cnot (a : Term N F)
  | reduce (r : R) (vars : List N)
  | tt
  | ff
deriving DecidableEq

/-- Models `enum Head` (`ast.rs` 155-162). -/
inductive Head (N F : Type) where
  | atom (a : Atom N F)
  | disj (as : List (Atom N F))
deriving DecidableEq

/-- Models `struct Rule` (`ast.rs` 95-100), without attributes. -/
structure Rule (N F R : Type) where
  head : Head N F
  body : List (Lit N F R)
deriving DecidableEq

/-! ## Terms -/

/-- Models `Term::as_constant` (`ast.rs` 296-301). -/
def Term.const? : Term N F → Option (Val F)
  | .const c => some c
  | .var _ => none

/-- Models `Term::as_variable` (`ast.rs` 288-293). -/
def Term.var? : Term N F → Option N
  | .var x => some x
  | .const _ => none

/-- Models `Assign::variable_args` (`ast.rs` 500-528). -/
def AExpr.vars : AExpr N F → List N
  | .bin _ a b => [a, b].filterMap Term.var?
  | .un _ a => [a].filterMap Term.var?
  | .ite c t e => [c, t, e].filterMap Term.var?
  | .call _ args => args.filterMap Term.var?
  | .new _ args => args.filterMap Term.var?

/-- Applying a rewriting of terms to the operands of an expression (`constant_propagation.rs` 112-137,
`equality_propagation.rs` 84-110). -/
def AExpr.map (f : Term N F → Term N F) : AExpr N F → AExpr N F
  | .bin op a b => .bin op (f a) (f b)
  | .un op a => .un op (f a)
  | .ite c t e => .ite (f c) (f t) (f e)
  | .call g args => .call g (args.map f)
  | .new g args => .new g (args.map f)

/-- Models `Atom::substitute` (`ast.rs` 481-486). -/
def Atom.map (f : Term N F → Term N F) (a : Atom N F) : Atom N F := { a with args := a.args.map f }

/-- Models `Head::substitute` (`ast.rs` 191-196). -/
def Head.map (f : Term N F → Term N F) : Head N F → Head N F
  | .atom a => .atom (a.map f)
  | .disj as => .disj (as.map (Atom.map f))

/-! ## Constant folding -/

/-- The literal replacing an assignment whose right-hand side was evaluated (`constant_folding.rs` 24-32); `none` is a panic. -/
def foldResult (x : N) : Outcome (Val F) → Option (Lit N F R)
  | .ok v => some (.cbin .eq (.var x) (.const v))
  | .undef => some .ff
  | .panic => none

/-- The literal replacing a constraint that was evaluated (`constant_folding.rs` 106-116); `none` is a panic (also from `as_bool`). -/
def foldTest : Outcome (Val F) → Option (Lit N F R)
  | .ok v => v.asBool?.map (fun b => if b then .tt else .ff)
  | .undef => some .ff
  | .panic => none

/-- Models the treatment of one literal in `constant_fold` (`constant_folding.rs` 13-153); `none` is a panic of the compiler. -/
def foldLit [DecidableEq N] (X : Ext F) : Lit N F R → Option (Lit N F R)
  | .assign x (.bin op (.const a) (.const b)) => foldResult x (evalBin X .compile op a b)
  | .assign x (.un op (.const a)) => foldResult x (evalUn X .compile op a)
  | .assign x (.ite (.const (.bool true)) t _) => some (.cbin .eq (.var x) t)
  | .assign x (.ite (.const (.bool false)) _ e) => some (.cbin .eq (.var x) e)
  | .assign x (.new f args) =>
    match args.mapM Term.const? with
    | some cs => some (.cbin .eq (.var x) (.const (.entity (X.encode f cs))))
    | none => some (.assign x (.new f args))
  | .cbin op (.const a) (.const b) => foldTest (evalBin X .compile op.toBin a b)
  | .cbin .neq (.var v) (.var w) => some (if v = w then .ff else .cbin .neq (.var v) (.var w))
  | .cbin .eq (.var v) (.var w) => some (if v = w then .tt else .cbin .eq (.var v) (.var w))
  | .cnot (.const a) => foldTest (evalUn X .compile .not a)
  | l => some l

/-- Models `constant_fold` (`constant_folding.rs` 11-154). -/
def constantFold [DecidableEq N] (X : Ext F) (r : Rule N F R) : Option (Rule N F R) :=
  (r.body.mapM (foldLit X)).map (fun b => { r with body := b })

/-! ## Constant propagation -/

/-- Models one pass over the literals in the collection of variables that cannot be substituted (`constant_propagation.rs` 17-39). The
set of visited literals only avoids repeating insertions and is left out. -/
def cannotStep [DecidableEq N] (S : List N) (body : List (Lit N F R)) : List N :=
  body.foldl (fun S l =>
    match l with
    | .reduce _ vs => vs.foldl (fun S v => S.insert v) S
    | .assign x e => if e.vars.any (fun v => decide (v ∈ S)) then S.insert x else S
    | _ => S) S

/-- Models the loop (`constant_propagation.rs` 13-45); `none` means that the fuel ran out. -/
def cannotLoop [DecidableEq N] (body : List (Lit N F R)) : Nat → List N → Option (List N)
  | 0, _ => none
  | fuel + 1, S =>
    let S' := cannotStep S body
    if S'.length ≤ S.length then some S' else cannotLoop body fuel S'

/-- The variables the loop can ever collect; their number bounds the number of passes. -/
def collectable (body : List (Lit N F R)) : List N :=
  body.flatMap (fun l => match l with | .reduce _ vs => vs | .assign x _ => [x] | _ => [])

/-- Models the collection of `cannot_substitute` (`constant_propagation.rs` 8-45). -/
def cannotSubstitute [DecidableEq N] (body : List (Lit N F R)) : Option (List N) :=
  cannotLoop body ((collectable body).length + 1) []

/-- The equalities between a variable and a constant that are turned into substitutions (`constant_propagation.rs` 49-63). -/
def constEq? [DecidableEq N] (cannot : List N) : Lit N F R → Option (N × Val F)
  | .cbin .eq (.var v) (.const c) => if v ∈ cannot then none else some (v, c)
  | .cbin .eq (.const c) (.var v) => if v ∈ cannot then none else some (v, c)
  | _ => none

/-- Models `PartialEq` on values (derived, `value.rs` 10), which compares floats as IEEE numbers. -/
def valEq (X : Ext F) [DecidableEq F] : Val F → Val F → Bool
  | .float k a, .float k' b => decide (k = k') && X.feq a b
  | a, b => decide (a = b)

/-- Models the collection of substitutions (`constant_propagation.rs` 47-79): the substitutions, and whether two different constants were
required of the same variable. -/
def collectConst [DecidableEq N] [DecidableEq F] (X : Ext F) (cannot : List N) (body : List (Lit N F R)) :
    List (N × Val F) × Bool :=
  body.foldl (fun s l =>
    match constEq? cannot l with
    | some (v, c) =>
      match s.1.lookup v with
      | some c' => (s.1, s.2 || !valEq X c' c)
      | none => ((v, c) :: s.1, s.2)
    | none => s) ([], false)

/-- Models `substitute_var`/`substitute_term` (`constant_propagation.rs` 82-94). -/
def substConst [BEq N] (s : List (N × Val F)) : Term N F → Term N F
  | .const c => .const c
  | .var v =>
    match s.lookup v with
    | some c => .const c
    | none => .var v

/-- Models the rewriting of one literal (`constant_propagation.rs` 104-166); an assignment to a substituted variable is replaced by
`true` (138-140), reduces are left alone. -/
def propLit [BEq N] (s : List (N × Val F)) : Lit N F R → Lit N F R
  | .atom a => .atom (a.map (substConst s))
  | .neg a => .neg (a.map (substConst s))
  | .assign x e => if (s.lookup x).isSome then .tt else .assign x (e.map (substConst s))
  | .cbin op a b => .cbin op (substConst s a) (substConst s b)
  | .cnot a => .cnot (substConst s a)
  | l => l

/-- Models `constant_prop` (`constant_propagation.rs` 5-178). -/
def constantProp [DecidableEq N] [DecidableEq F] (X : Ext F) (r : Rule N F R) : Option (Rule N F R) :=
  (cannotSubstitute r.body).map (fun cannot =>
    let s := collectConst X cannot r.body
    if s.2 then { r with body := [.ff] }
    else
      { head := r.head.map (substConst s.1)
        body := (r.body.filter (fun l => (constEq? cannot l).isNone)).map (propLit s.1) })

/-! ## Equality propagation -/

/-- The variables that occur in reduces (`equality_propagation.rs` 12-20). -/
def reduceVars (body : List (Lit N F R)) : List N :=
  body.flatMap (fun l => match l with | .reduce _ vs => vs | _ => [])

/-- The variables bound by the positive atoms of a rule (`equality_propagation.rs` 141-160). `foreign p` is the number of
bounded arguments of `p` if it is a foreign predicate; only the remaining arguments are bound by such an atom. -/
def atomBound (foreign : String → Option Nat) (body : List (Lit N F R)) : List N :=
  body.flatMap (fun l =>
    match l with
    | .atom a =>
      match foreign a.predicate with
      | some k => (a.args.drop k).filterMap Term.var?
      | none => a.args.filterMap Term.var?
    | _ => [])

/-- One pass of the closure under assignments (`equality_propagation.rs` 163-175). -/
def boundStep [DecidableEq N] (S : List N) (body : List (Lit N F R)) : List N :=
  body.foldl (fun S l =>
    match l with
    | .assign x e => if x ∈ S then S else if e.vars.all (fun v => decide (v ∈ S)) then x :: S else S
    | _ => S) S

/-- The closure loop (`equality_propagation.rs` 161-179); `none` means that the fuel ran out. A pass only ever adds elements, so
comparing lengths is comparing sets. -/
def boundLoop [DecidableEq N] (body : List (Lit N F R)) : Nat → List N → Option (List N)
  | 0, _ => none
  | fuel + 1, S =>
    let S' := boundStep S body
    if S'.length = S.length then some S' else boundLoop body fuel S'

/-- Models `bounded_by_atom_and_assign` (`equality_propagation.rs` 140-182). -/
def boundedVars [DecidableEq N] (foreign : String → Option Nat) (body : List (Lit N F R)) : Option (List N) :=
  boundLoop body (body.length + 1) (atomBound foreign body)

/-- The equalities between two variables that are removed (`equality_propagation.rs` 28-39). -/
def varEq? [DecidableEq N] (cannot bounded : List N) : Lit N F R → Option (N × N)
  | .cbin .eq (.var v) (.var w) =>
    if v ∈ cannot ∨ w ∈ cannot then none else if v ∈ bounded ∧ w ∈ bounded then none else some (v, w)
  | _ => none

/-- Models `HashMap::insert`. -/
def insertMap [BEq N] (s : List (N × N)) (k v : N) : List (N × N) := (k, v) :: s.filter (fun p => !(p.1 == k))

/-- Models the collection of substitutions (`equality_propagation.rs` 25-57). -/
def collectVar [DecidableEq N] (cannot bounded : List N) (body : List (Lit N F R)) : List (N × N) :=
  body.foldl (fun s l =>
    match varEq? cannot bounded l with
    | some (v, w) =>
      match s.lookup v with
      | some t => insertMap s w t
      | none =>
        match s.lookup w with
        | some t => insertMap s v t
        | none => insertMap s v w
    | none => s) []

/-- Models `substitute_var` (`equality_propagation.rs` 60-66). -/
def renameVar [BEq N] (s : List (N × N)) (v : N) : N :=
  match s.lookup v with
  | some w => w
  | none => v

/-- Models `substitute_term` (`equality_propagation.rs` 67-72). -/
def renameTerm [BEq N] (s : List (N × N)) : Term N F → Term N F
  | .const c => .const c
  | .var v => .var (renameVar s v)

/-- Models the rewriting of one literal (`equality_propagation.rs` 78-125). -/
def renameLit [BEq N] (s : List (N × N)) : Lit N F R → Lit N F R
  | .atom a => .atom (a.map (renameTerm s))
  | .neg a => .neg (a.map (renameTerm s))
  | .assign x e => .assign (renameVar s x) (e.map (renameTerm s))
  | .cbin op a b => .cbin op (renameTerm s a) (renameTerm s b)
  | .cnot a => .cnot (renameTerm s a)
  | l => l

/-- Models `propagate_equality` (`equality_propagation.rs` 7-138). -/
def propagateEquality [DecidableEq N] (foreign : String → Option Nat) (r : Rule N F R) : Option (Rule N F R) :=
  (boundedVars foreign r.body).map (fun bounded =>
    let cannot := reduceVars r.body
    let s := collectVar cannot bounded r.body
    { head := r.head.map (renameTerm s)
      body := (r.body.filter (fun l => (varEq? cannot bounded l).isNone)).map (renameLit s) })

/-! ## The driver -/

/-- The pattern `Literal::True` (`remove_true_literals.rs` 5). -/
def Lit.isTrue : Lit N F R → Bool
  | .tt => true
  | _ => false

/-- The pattern `Literal::False` (`remove_false_rules.rs` 8). -/
def Lit.isFalse : Lit N F R → Bool
  | .ff => true
  | _ => false

/-- Models `remove_true_literals` (`remove_true_literals.rs` 3-8). -/
def removeTrue (r : Rule N F R) : Rule N F R :=
  { r with body := r.body.filter (fun l => !l.isTrue) }

/-- Models `remove_false_rules` (`remove_false_rules.rs` 3-13). -/
def removeFalseRules (rs : List (Rule N F R)) : List (Rule N F R) :=
  rs.filter (fun r => !r.body.any Lit.isFalse)

/-- Models the loop of constant folding and propagation (`compile.rs` 22-30). The outer `none` means that the fuel ran out, the inner
`none` a panic. -/
def foldPropLoop [DecidableEq N] [DecidableEq F] [DecidableEq R] (X : Ext F) :
    Nat → Rule N F R → Option (Option (Rule N F R))
  | 0, _ => none
  | fuel + 1, r =>
    match (constantFold X r).bind (constantProp X) with
    | none => some none
    | some r' => if r = r' then some (some r') else foldPropLoop X fuel r'

/-- Models `empty_rule_to_fact` (`empty_rule_to_fact.rs` 5-38): the remaining rules and the new facts; `none` is the panic on a
variable in the head of an empty rule. -/
def emptyRuleToFact : List (Rule N F R) → Option (List (Rule N F R) × List (String × List (Val F)))
  | [] => some ([], [])
  | r :: rs =>
    (emptyRuleToFact rs).bind (fun p =>
      match r.body, r.head with
      | [], .atom a => (a.args.mapM Term.const?).map (fun cs => (p.1, (a.predicate, cs) :: p.2))
      | _, _ => some (r :: p.1, p.2))

end Scallop.Back
