import Verif.Model.Value
import Mathlib.Data.List.Dedup

/-!
# Type inference

Models `/repo/core/src/common/value_type.rs` (8-32, 108-227), `/repo/core/src/compiler/front/analyzers/type_inference/type_set.rs`,
`operator_rules.rs`, `foreign_function.rs` (62-130), `local.rs`, `unification.rs` and `type_inference.rs`, the conversion of literals
to values (`/repo/core/src/compiler/front/ast/constant.rs` 117-149) and the table of type casts of the runtime
(`/repo/core/src/runtime/env/environment.rs` 599-707).

Locations (`NodeLocation`) are paths in the program. Error messages and the location stored in a type set are dropped. The hash maps
are functions; each loop over a hash map in this code writes entries that no other round of the loop reads.

Not modelled: aggregates (`Unification::Aggregate`), destructors, literals of the types `DateTime` and `Duration`, field names, enum
declarations, declared types of variables (`vars_of_same_type` and `var_types`, `local.rs` 13-14, are never filled), type checks of
constant and function declarations, queries (a query on an atom is a rule without a head).
-/

namespace Scallop.Ty

variable {F : Type}

/-- Models `enum ValueType` (`value_type.rs` 8-32). -/
inductive VTy where
  | int (k : IntTy)
  | float (k : FloatTy)
  | char | bool | str | string | symbol | datetime | duration | entity | tensor
deriving DecidableEq, Repr

namespace VTy
/-- Models `is_integer` (`value_type.rs` 112-128). -/
def isInt : VTy → Bool
  | .int _ => true
  | _ => false
/-- Models `is_signed_integer` (`value_type.rs` 150-156). -/
def isSigned : VTy → Bool
  | .int k => k.signed
  | _ => false
/-- Models `is_unsigned_integer` (`value_type.rs` 158-164). -/
def isUnsigned : VTy → Bool
  | .int k => !k.signed
  | _ => false
/-- Models `is_float` (`value_type.rs` 166-171). -/
def isFloat : VTy → Bool
  | .float _ => true
  | _ => false
/-- Models `is_numeric` (`value_type.rs` 108-110). -/
def isNumeric (t : VTy) : Bool := t.isInt || t.isFloat
/-- Models `is_string` (`value_type.rs` 187-192). -/
def isString : VTy → Bool
  | .str | .string => true
  | _ => false
/-- Models `can_type_cast` of a value type (`value_type.rs` 215-227). -/
def canCast (t target : VTy) : Bool :=
  (t.isNumeric && target.isNumeric) || (t == .bool && target == .bool) ||
  (t == .char && (target == .char || target.isString || target.isInt || target.isFloat)) ||
  (t.isString && target.isNumeric) || (t.isString && target.isString)
end VTy

/-- Models `enum TypeSet` (`type_set.rs` 7-17). -/
inductive TSet where
  | base (t : VTy)
  | numeric | arith | integer | signed | unsigned | float | string | any
deriving DecidableEq, Repr

namespace TSet

/-- Models `PartialEq for TypeSet` (`type_set.rs` 39-53), the equality by which the inference decides that nothing changed: there is
no case for two `UnsignedInteger`. -/
def codeEq : TSet → TSet → Bool
  | .base b1, .base b2 => b1 == b2
  | .numeric, .numeric => true
  | .arith, .arith => true
  | .integer, .integer => true
  | .signed, .signed => true
  | .float, .float => true
  | .string, .string => true
  | .any, .any => true
  | _, _ => false

/-- Models `PartialOrd for TypeSet` (`type_set.rs` 55-145): there is no case for a base type and `UnsignedInteger`. -/
def cmp : TSet → TSet → Option Ordering
  | .base b1, .base b2 => if b1 = b2 then some .eq else none
  | .base b, .string => if b.isString then some .lt else none
  | .string, .base b => if b.isString then some .gt else none
  | .base b, .float => if b.isFloat then some .lt else none
  | .float, .base b => if b.isFloat then some .gt else none
  | .base b, .signed => if b.isSigned then some .lt else none
  | .signed, .base b => if b.isSigned then some .gt else none
  | .base b, .integer => if b.isInt then some .lt else none
  | .integer, .base b => if b.isInt then some .gt else none
  | .base b, .arith => if b.isNumeric then some .lt else none
  | .arith, .base b => if b.isNumeric then some .gt else none
  | .base b, .numeric => if b.isNumeric then some .lt else none
  | .numeric, .base b => if b.isNumeric then some .gt else none
  | .base _, .any => some .lt
  | .any, .base _ => some .gt
  | .string, .string => some .eq
  | .string, .any => some .lt
  | .any, .string => some .gt
  | .float, .float => some .eq
  | .float, .arith => some .lt
  | .arith, .float => some .gt
  | .float, .numeric => some .lt
  | .numeric, .float => some .gt
  | .float, .any => some .lt
  | .any, .float => some .gt
  | .signed, .signed => some .eq
  | .signed, .integer => some .lt
  | .integer, .signed => some .gt
  | .signed, .arith => some .lt
  | .arith, .signed => some .gt
  | .signed, .numeric => some .lt
  | .numeric, .signed => some .gt
  | .signed, .any => some .lt
  | .any, .signed => some .gt
  | .unsigned, .unsigned => some .eq
  | .unsigned, .integer => some .lt
  | .integer, .unsigned => some .gt
  | .unsigned, .arith => some .lt
  | .arith, .unsigned => some .gt
  | .unsigned, .numeric => some .lt
  | .numeric, .unsigned => some .gt
  | .unsigned, .any => some .lt
  | .any, .unsigned => some .gt
  | .integer, .integer => some .eq
  | .integer, .arith => some .lt
  | .arith, .integer => some .gt
  | .integer, .numeric => some .lt
  | .numeric, .integer => some .gt
  | .integer, .any => some .lt
  | .any, .integer => some .gt
  | .arith, .arith => some .eq
  | .arith, .numeric => some .lt
  | .numeric, .arith => some .gt
  | .arith, .any => some .lt
  | .any, .arith => some .gt
  | .numeric, .numeric => some .eq
  | .numeric, .any => some .lt
  | .any, .numeric => some .gt
  | .any, .any => some .gt
  | _, _ => none

/-- Models `TypeSet::unify` (`type_set.rs` 296-307); `none` is the error. -/
def unify (a b : TSet) : Option TSet :=
  match a.cmp b with
  | some .eq | some .lt => some a
  | some .gt => some b
  | none => none

/-- The loop of `TypeSet::unify_type_sets` (`type_set.rs` 287-292). -/
def unifyLoop (ty : TSet) : List TSet → Option TSet
  | [] => some ty
  | t :: ts => (ty.unify t).bind fun n => unifyLoop n ts

/-- Models `TypeSet::unify_type_sets` (`type_set.rs` 285-294); the list is not empty (the callers check), so an empty list is `none`. -/
def unifyAll : List TSet → Option TSet
  | [] => none
  | t :: ts => unifyLoop t (t :: ts)

/-- Models `contains_value_type` (`type_set.rs` 309-321). -/
def contains : TSet → VTy → Bool
  | .base b, t => b == t
  | .numeric, t => t.isNumeric
  | .arith, t => t.isNumeric
  | .integer, t => t.isInt
  | .signed, t => t.isSigned
  | .unsigned, t => t.isUnsigned
  | .float, t => t.isFloat
  | .string, t => t.isString
  | .any, _ => true

/-- Models `to_default_value_type` (`type_set.rs` 257-269). -/
def default : TSet → VTy
  | .base b => b
  | .numeric => .int .i32
  | .arith => .int .i32
  | .integer => .int .i32
  | .signed => .int .i32
  | .unsigned => .int .u32
  | .float => .float .f32
  | .string => .string
  | .any => .int .i32

/-- Models `can_type_cast` of a type set (`type_set.rs` 202-220). -/
def canCast (s : TSet) (target : VTy) : Bool :=
  target == .string ||
  match s with
  | .base b => b.canCast target
  | .string => target.isString || target.isNumeric
  | _ => target.isNumeric

/-- Models `is_boolean` (`type_set.rs` 236-241). -/
def isBoolean : TSet → Bool
  | .base .bool => true
  | _ => false

end TSet

/-! ## Programs -/

/-- Models `enum Constant` (`ast/constant.rs`) without dates and durations. -/
inductive Const (F : Type) where
  | int (n : Int)
  | float (x : F)
  | char (c : Char)
  | bool (b : Bool)
  | string (s : String)
  | symbol (s : String)
  | entity (e : Nat)

/-- Models `TypeSet::from_constant` (`type_set.rs` 184-200). -/
def Const.typeSet : Const F → TSet
  | .int n => if n < 0 then .signed else .numeric
  | .float _ => .float
  | .char _ => .base .char
  | .bool _ => .base .bool
  | .string _ => .string
  | .symbol _ => .base .symbol
  | .entity _ => .base .entity

/-- `n as T` for an integer type: the value modulo the number of values of the type. -/
def wrap (k : IntTy) (n : Int) : Int := (n - k.lo) % (2 ^ k.bits) + k.lo

/-- Models `Constant::to_value` (`ast/constant.rs` 117-149); `none` is a panic. `ofInt` is `as f32`/`as f64`, `toF` is `as f32` or the
identity. -/
def Const.toVal (ofInt : FloatTy → Int → F) (toF : FloatTy → F → F) : Const F → VTy → Option (Val F)
  | .int n, .int k => some (.int k (wrap k n))
  | .int n, .float k => some (.float k (ofInt k n))
  | .float x, .float k => some (.float k (toF k x))
  | .char c, .char => some (.char c)
  | .bool b, .bool => some (.bool b)
  | .string s, .string => some (.string s)
  | .symbol s, .symbol => some (.symbol s)
  | .entity e, .entity => some (.entity e)
  | _, _ => none

/-- Models `enum Expr` (`ast/expr.rs`) with literals as written. The target of a cast is the name of a type. -/
inductive TExpr (F : Type) where
  | const (c : Const F)
  | var (x : String)
  | wild
  | bin (op : BinOp) (a b : TExpr F)
  | un (op : UnOp) (a : TExpr F)
  | ite (c t e : TExpr F)
  | call (f : String) (args : List (TExpr F))
  | new (f : String) (args : List (TExpr F))

/-- An atom. -/
structure TAtom (F : Type) where
  pred : String
  args : List (TExpr F)

/-- A literal of a rule body. -/
inductive TLit (F : Type) where
  | pos (a : TAtom F)
  | neg (a : TAtom F)
  | constraint (e : TExpr F)

/-- A rule: the atoms of its head and the literals of its body in the order in which they are written. Inference visits all of them
alike, whatever the conjunctions and disjunctions around them. -/
structure TRule (F : Type) where
  heads : List (TAtom F)
  body : List (TLit F)

/-- Models the argument types of foreign functions (`foreign_function.rs` 8-12). -/
inductive ArgTy where
  | generic (i : Nat)
  | set (t : TSet)
deriving DecidableEq, Repr

/-- Models the return type of foreign functions (`foreign_function.rs` 34-38). -/
inductive RetTy where
  | generic (i : Nat)
  | base (t : VTy)
deriving DecidableEq, Repr

/-- Models `struct FunctionType` (`foreign_function.rs` 51-67). -/
structure FunTy where
  generics : List TSet
  statics : List ArgTy
  optionals : List ArgTy
  variadic : Option ArgTy
  ret : RetTy

/-- Models `is_valid_num_args` (`foreign_function.rs` 107-124). -/
def FunTy.validArity (f : FunTy) (n : Nat) : Bool :=
  if n < f.statics.length then false
  else f.variadic.isSome || decide (n - f.statics.length ≤ f.optionals.length)

/-- Models `type_of_ith_argument` (`foreign_function.rs` 127-140). -/
def FunTy.argTy (f : FunTy) (i : Nat) : Option ArgTy :=
  if i < f.statics.length then f.statics[i]?
  else if i - f.statics.length < f.optionals.length then f.optionals[i - f.statics.length]?
  else f.variadic

/-- A location: a path in the program, innermost step first. -/
abbrev Loc := List Nat

/-- What inference is given: the value types of type names (`find_value_type`, `type_inference.rs` 847-860), the declared types of
the places where a declared constant is used (`constant_types`), the types of foreign predicates and of foreign functions. -/
structure Env where
  types : String → Option VTy
  constTy : Loc → Option String
  preds : String → Option (List VTy)
  funs : String → Option FunTy

/-- Models `enum Unification` (`unification.rs` 13-79); the binary operators are told apart by `op`, the unary ones too. -/
inductive Unif where
  | arg (e : Loc) (p : String) (i : Nat)
  | ofVar (e : Loc) (x : String)
  | ofConst (e : Loc) (t : TSet)
  | bin (op : BinOp) (op1 op2 e : Loc)
  | un (op : UnOp) (op1 e : Loc)
  | ite (e c t f : Loc)
  | call (f : String) (args : List Loc) (e : Loc)
  | entity (f : String) (args : List Loc) (e : Loc)

/-- The locations of `n` children. -/
def kids (l : Loc) (n : Nat) : List Loc := (List.range n).map (fun i => i :: l)

mutual
/-- Models the visitors of expressions of `LocalTypeInferenceContext` (`local.rs` 329-432): the unification of an expression, then those
of its parts. Wildcards have none. -/
def TExpr.unifs (l : Loc) : TExpr F → List Unif
  | .const c => [.ofConst l c.typeSet]
  | .var x => [.ofVar l x]
  | .wild => []
  | .bin op a b => .bin op (0 :: l) (1 :: l) l :: (a.unifs (0 :: l) ++ b.unifs (1 :: l))
  | .un op a => .un op (0 :: l) l :: a.unifs (0 :: l)
  | .ite c t e => .ite l (0 :: l) (1 :: l) (2 :: l) :: (c.unifs (0 :: l) ++ t.unifs (1 :: l) ++ e.unifs (2 :: l))
  | .call f args => .call f (kids l args.length) l :: TExpr.unifsList l 0 args
  | .new f args => .entity f (kids l args.length) l :: TExpr.unifsList l 0 args
/-- The same for a list of arguments, the first of which has index `i`. -/
def TExpr.unifsList (l : Loc) (i : Nat) : List (TExpr F) → List Unif
  | [] => []
  | e :: es => e.unifs (i :: l) ++ TExpr.unifsList l (i + 1) es
end

/-- Models the visitor of atoms (`local.rs` 264-279), then the visit of the arguments. -/
def TAtom.unifs (l : Loc) (a : TAtom F) : List Unif :=
  (List.range a.args.length).map (fun i => .arg (i :: l) a.pred i) ++ TExpr.unifsList l 0 a.args

/-- The unifications of a literal. -/
def TLit.unifs (l : Loc) : TLit F → List Unif
  | .pos a => a.unifs l
  | .neg a => a.unifs l
  | .constraint e => e.unifs (0 :: l)

/-- The literals of a rule: its head atoms and its body. -/
def TRule.lits (r : TRule F) : List (TLit F) := r.heads.map .pos ++ r.body

/-- Models `struct LocalTypeInferenceContext` (`local.rs` 8-17): the unifications and the constraints of a rule. -/
structure Ctx where
  unifs : List Unif
  constraints : List Loc

/-- Models `from_rule` (`local.rs` 32-36) with the visitor of constraints (281-285). The `j`-th literal of the rule `i` has location
`[j, i]`. -/
def TRule.ctx (i : Nat) (r : TRule F) : Ctx where
  unifs := (r.lits.zipIdx.map (fun x => x.1.unifs [x.2, i])).flatten
  constraints := r.lits.zipIdx.filterMap (fun x => match x.1 with
    | .constraint _ => some [0, x.2, i]
    | _ => none)

/-! ## State and results -/

/-- `inferred_expr_types`. -/
abbrev ET := Loc → Option TSet
/-- `inferred_relation_types`. -/
abbrev RT := String → Option (List TSet)

/-- A result: a value, a compile error or a panic. -/
inductive Res (α : Type) where
  | ok (a : α)
  | error
  | panic

namespace Res
variable {α β : Type}
/-- The `?` operator. -/
def bind : Res α → (α → Res β) → Res β
  | .ok a, f => f a
  | .error, _ => .error
  | .panic, _ => .panic
/-- An `Option` whose `none` is a compile error. -/
def ofOption : Option α → Res α
  | some a => .ok a
  | none => .error
/-- Fold with early exit. -/
def foldl (f : β → α → Res β) : β → List α → Res β
  | b, [] => .ok b
  | b, a :: as => (f b a).bind fun b' => foldl f b' as
end Res

/-- `HashMap::insert`. -/
def ET.set (s : ET) (e : Loc) (t : TSet) : ET := fun l => if l = e then some t else s l

/-- Models `unify_ty` (`unification.rs` 704-721): the new type of `e`, which is stored. -/
def unifyTy (e : Loc) (ty : TSet) (s : ET) : Res (TSet × ET) :=
  (Res.ofOption (ty.unify ((s e).getD ty))).bind fun n => .ok (n, s.set e n)

/-- Models `get_or_insert_ty` (`unification.rs` 593-595) and the calls of `entry(..).or_insert(..)`. -/
def getOrInsert (e : Loc) (ty : TSet) (s : ET) : TSet × ET :=
  match s e with
  | some t => (t, s)
  | none => (ty, s.set e ty)

/-- `unify_ty` when only the stored type matters. -/
def narrow (e : Loc) (ty : TSet) (s : ET) : Res ET := (unifyTy e ty s).bind fun r => .ok r.2

/-! ## Operator rules -/

/-- The order in which the tables list the numeric types (`operator_rules.rs` 9-22). -/
def numTys : List VTy :=
  [.int .i32, .int .i8, .int .i16, .int .i64, .int .i128, .int .isize, .int .u32, .int .u8, .int .u16, .int .u64, .int .u128,
    .int .usize, .float .f32, .float .f64]

/-- The rules `(T, T, T)` for the numeric types. -/
def numRules : List (VTy × VTy × VTy) := numTys.map (fun t => (t, t, t))

/-- Models the typing rules of `+`, `-`, `*`, `/` (`operator_rules.rs` 6-101); other operators have no such table. -/
def arithRules : BinOp → Option (List (VTy × VTy × VTy))
  | .add => some (numRules ++ [(.string, .string, .string), (.datetime, .duration, .datetime), (.duration, .datetime, .datetime),
      (.duration, .duration, .duration), (.tensor, .tensor, .tensor), (.tensor, .float .f64, .tensor), (.float .f64, .tensor, .tensor)])
  | .sub => some (numRules ++ [(.datetime, .duration, .datetime), (.datetime, .datetime, .duration),
      (.duration, .duration, .duration), (.tensor, .tensor, .tensor), (.tensor, .float .f64, .tensor), (.float .f64, .tensor, .tensor)])
  | .mul => some (numRules ++ [(.duration, .int .i32, .duration), (.int .i32, .duration, .duration), (.tensor, .tensor, .tensor),
      (.tensor, .float .f64, .tensor), (.float .f64, .tensor, .tensor)])
  | .div => some (numRules ++ [(.duration, .int .i32, .duration)])
  | _ => none

/-- Models `COMPARE_TYPING_RULES` (`operator_rules.rs` 124-144). -/
def cmpRules : List (VTy × VTy) := numTys.map (fun t => (t, t)) ++ [(.duration, .duration), (.datetime, .datetime)]

/-- Models `unify_polymorphic_binary_expression` (`unification.rs` 597-648): the rules that can be applied; none is an error; one, or
in strict mode the first, gives the types. -/
def unifyPoly (rules : List (VTy × VTy × VTy)) (strict : Bool) (op1 op2 e : Loc) (s : ET) : Res ET :=
  (unifyTy op1 .any s).bind fun r1 =>
  (unifyTy op2 .any r1.2).bind fun r2 =>
  (unifyTy e .any r2.2).bind fun r3 =>
  let s := r3.2
  match rules.filter (fun r => r1.1.contains r.1 && r2.1.contains r.2.1 && r3.1.contains r.2.2) with
  | [] => .error
  | (t1, t2, te) :: rest =>
    if rest.isEmpty || strict then
      (narrow op1 (.base t1) s).bind fun s => (narrow op2 (.base t2) s).bind fun s => narrow e (.base te) s
    else .ok s

/-- Models `unify_comparison_expression` (`unification.rs` 650-702). -/
def unifyCmp (strict : Bool) (op1 op2 e : Loc) (s : ET) : Res ET :=
  (unifyTy e (.base .bool) s).bind fun r0 =>
  (unifyTy op1 .any r0.2).bind fun r1 =>
  (unifyTy op2 .any r1.2).bind fun r2 =>
  let s := r2.2
  match cmpRules.filter (fun r => r1.1.contains r.1 && r2.1.contains r.2) with
  | [] => .error
  | (t1, t2) :: rest =>
    if rest.isEmpty || strict then (narrow op1 (.base t1) s).bind fun s => narrow op2 (.base t2) s
    else .ok s

/-- Gives all the locations the same type, `t`. -/
def setAll (s : ET) (ls : List Loc) (t : TSet) : ET := ls.foldl (fun s l => s.set l t) s

/-! ## Foreign functions -/

/-- Models the loop over the arguments of a call (`unification.rs` 287-305): those of non generic type are unified with it. -/
def unifyArgs (ft : FunTy) : Nat → List Loc → ET → Res ET
  | _, [], s => .ok s
  | i, a :: as, s =>
    match ft.argTy i with
    | none => .panic
    | some (.generic _) => unifyArgs ft (i + 1) as s
    | some (.set t) => (narrow a t s).bind fun s => unifyArgs ft (i + 1) as s

/-- `generic_type_param_instances` (`unification.rs` 284-315): the arguments, then the call itself, that have the generic type `k`. -/
def instances (ft : FunTy) (args : List Loc) (e : Loc) (k : Nat) : List Loc :=
  (args.zipIdx.filter (fun x => ft.argTy x.2 == some (.generic k))).map (·.1) ++ (if ft.ret = .generic k then [e] else [])

/-- Models the loop over the instances of a generic type (`unification.rs` 333-347): each is unified with the type family, and their
types with each other. -/
def unifyInstances (family : TSet) : List Loc → TSet → ET → Res (TSet × ET)
  | [], agg, s => .ok (agg, s)
  | l :: ls, agg, s =>
    (unifyTy l family s).bind fun r => (Res.ofOption (agg.unify r.1)).bind fun agg => unifyInstances family ls agg r.2

/-- Models the treatment of a generic type (`unification.rs` 330-353). -/
def unifyGeneric (family : TSet) (insts : List Loc) (s : ET) : Res ET :=
  match insts with
  | [] => .ok s
  | l :: ls =>
    (unifyTy l family s).bind fun r => (unifyInstances family ls r.1 r.2).bind fun r => .ok (setAll r.2 (l :: ls) r.1)

/-- Models the unification of a call (`unification.rs` 277-362). -/
def unifyCall (env : Env) (f : String) (args : List Loc) (e : Loc) (s : ET) : Res ET :=
  match env.funs f with
  | none => .error
  | some ft =>
    if ft.validArity args.length then
      (unifyArgs ft 0 args s).bind fun s =>
      (match ft.ret with
        | .generic _ => Res.ok s
        | .base t => narrow e (.base t) s).bind fun s =>
      Res.foldl (fun s (g : TSet × Nat) => unifyGeneric g.1 (instances ft args e g.2) s) s ft.generics.zipIdx
    else .error

/-- Models the loop over the arguments of an entity (`unification.rs` 552-563). -/
def unifyEntityArgs : List (Loc × TSet) → ET → Res ET
  | [], s => .ok s
  | (a, ty) :: rest, s =>
    let r := getOrInsert a .any s
    (Res.ofOption (r.1.unify ty)).bind fun n => unifyEntityArgs rest (r.2.set a n)

/-- Models `Unification::unify` (`unification.rs` 83-578). -/
def Unif.step (env : Env) (rt : RT) (strict : Bool) (s : ET) : Unif → Res ET
  | .arg e p i =>
    match env.preds p with
    | some tys =>
      match tys[i]? with
      | some t => narrow e (.base t) s
      | none => .error
    | none =>
      match rt p with
      | none => .panic
      | some tys =>
        match tys[i]? with
        | some t => narrow e t s
        | none => .error
  | .ofVar _ _ => .ok s
  | .ofConst e ty =>
    match env.constTy e with
    | some name =>
      match env.types name with
      | none => .error
      | some b => (Res.ofOption (ty.unify (.base b))).bind fun t => .ok (s.set e t)
    | none => narrow e ty s
  | .bin op op1 op2 e =>
    match op with
    | .add | .sub | .mul | .div =>
      match arithRules op with
      | some rules => unifyPoly rules strict op1 op2 e s
      | none => .panic
    | .mod =>
      let r0 := getOrInsert e .arith s
      let r1 := getOrInsert op1 .arith r0.2
      let r2 := getOrInsert op2 .arith r1.2
      (Res.ofOption ((r1.1.unify r2.1).bind fun t => t.unify r0.1)).bind fun t => .ok (setAll r2.2 [e, op1, op2] t)
    | .eq | .neq =>
      (narrow e (.base .bool) s).bind fun s =>
      let r1 := getOrInsert op1 .any s
      let r2 := getOrInsert op2 .any r1.2
      (Res.ofOption (r1.1.unify r2.1)).bind fun t => .ok (setAll r2.2 [op1, op2] t)
    | .and | .or | .xor =>
      (narrow e (.base .bool) s).bind fun s => (narrow op1 (.base .bool) s).bind fun s => narrow op2 (.base .bool) s
    | .lt | .leq | .gt | .geq => unifyCmp strict op1 op2 e s
  | .un op op1 e =>
    match op with
    | .pos | .neg =>
      let r0 := getOrInsert e .arith s
      let r1 := getOrInsert op1 .arith r0.2
      (Res.ofOption (r0.1.unify r1.1)).bind fun t => .ok (setAll r1.2 [e, op1] t)
    | .not => (narrow e (.base .bool) s).bind fun s => narrow op1 (.base .bool) s
    | .cast name =>
      match env.types name with
      | none => .error
      | some b => (narrow e (.base b) s).bind fun s => narrow op1 .any s
  | .ite e c t f =>
    (narrow c (.base .bool) s).bind fun s =>
    let r0 := getOrInsert e .any s
    let r1 := getOrInsert t .any r0.2
    let r2 := getOrInsert f .any r1.2
    (Res.ofOption ((r0.1.unify r1.1).bind fun n => n.unify r2.1)).bind fun n => .ok (setAll r2.2 [e, t, f] n)
  | .call f args e => unifyCall env f args e s
  | .entity f args e =>
    (narrow e (.base .entity) s).bind fun s =>
    match rt ("adt#" ++ f) with
    | none => .error
    | some tys =>
      if args.length = tys.length - 1 then unifyEntityArgs (args.zip (tys.drop 1)) s else .error

/-! ## Contexts -/

/-- The locations of a variable in a rule (`inferred_var_expr`, filled by `populate_inference_data`, `local.rs` 80-102). -/
def Ctx.varLocs (c : Ctx) (x : String) : List Loc :=
  c.unifs.filterMap fun u => match u with
    | .ofVar e y => if y = x then some e else none
    | _ => none

/-- The variables of a rule. -/
def Ctx.vars (c : Ctx) : List String :=
  (c.unifs.filterMap fun u => match u with
    | .ofVar _ y => some y
    | _ => none).dedup

/-- The type of a variable, as `propagate_variable_types` computes it (`local.rs` 143-163); `none` is an error. -/
def Ctx.varTy (c : Ctx) (s : ET) (x : String) : Option TSet := TSet.unifyAll ((c.varLocs x).filterMap s)

/-- Models `propagate_variable_types` (`local.rs` 138-202): the types of all the variables are computed before any is written. -/
def Ctx.propVars (c : Ctx) (s : ET) : Res ET :=
  (Res.foldl (fun (acc : List (String × TSet)) x =>
    (Res.ofOption (c.varTy s x)).bind fun t => .ok (acc ++ [(x, t)])) [] c.vars).bind fun tys =>
  .ok (tys.foldl (fun s' xt => setAll s' (c.varLocs xt.1) xt.2) s)

/-- The locations of the argument `i` of a relation in all the rules (`inferred_relation_expr`). -/
def relLocs (cs : List Ctx) (p : String) (i : Nat) : List Loc :=
  (cs.map fun c => c.unifs.filterMap fun u => match u with
    | .arg e q j => if q = p ∧ j = i then some e else none
    | _ => none).flatten

/-- The keys of `inferred_relation_expr`. -/
def relArgs (cs : List Ctx) : List (String × Nat) :=
  ((cs.map fun c => c.unifs.filterMap fun u => match u with
    | .arg _ q j => some (q, j)
    | _ => none).flatten).dedup

/-- Models one round of `propagate_relation_types` (`local.rs` 211-222): the type of a column becomes what the types of its arguments
have in common. Writing past the end of the list of types is a panic. -/
def propRel (cs : List Ctx) (s : ET) (rt : RT) (pi : String × Nat) : Res RT :=
  match (relLocs cs pi.1 pi.2).filterMap s with
  | [] => .ok rt
  | t :: ts =>
    (Res.ofOption (TSet.unifyAll (t :: ts))).bind fun n =>
    match rt pi.1 with
    | none => .ok rt
    | some tys =>
      if pi.2 < tys.length then .ok (fun q => if q = pi.1 then some (tys.set pi.2 n) else rt q)
      else .panic

/-- Models `propagate_relation_types` (`local.rs` 204-226). -/
def propRels (cs : List Ctx) (s : ET) (rt : RT) : Res RT := Res.foldl (propRel cs s) rt (relArgs cs)

/-- The work done for one rule in an iteration (`type_inference.rs` 297-315 and 319-338). -/
def Ctx.round (env : Env) (cs : List Ctx) (strict : Bool) (st : ET × RT) (c : Ctx) : Res (ET × RT) :=
  (Res.foldl (Unif.step env st.2 strict) st.1 c.unifs).bind fun s =>
  (c.propVars s).bind fun s =>
  (propRels cs s st.2).bind fun rt => .ok (s, rt)

/-- Models `check_type_cast` (`local.rs` 228-247). -/
def Ctx.checkCast (env : Env) (c : Ctx) (s : ET) : Res Unit :=
  Res.foldl (fun _ u => match u with
    | .un (.cast name) op1 _ =>
      match env.types name, s op1 with
      | some b, some t => if t.canCast b then .ok () else .error
      | _, _ => .panic
    | _ => .ok ()) () c.unifs

/-- Models `check_constraint` (`local.rs` 249-258). -/
def Ctx.checkConstraint (c : Ctx) (s : ET) : Res Unit :=
  Res.foldl (fun _ l => match s l with
    | some t => if t.isBoolean then .ok () else .error
    | none => .panic) () c.constraints

/-- One iteration of the fixpoint (`type_inference.rs` 296-316). -/
def pass (env : Env) (cs : List Ctx) (st : ET × RT) : Res (ET × RT) := Res.foldl (Ctx.round env cs false) st cs

/-- The last step for one rule (`type_inference.rs` 320-348). -/
def Ctx.final (env : Env) (cs : List Ctx) (st : ET × RT) (c : Ctx) : Res (ET × RT) :=
  (c.round env cs true st).bind fun st => (c.checkCast env st.1).bind fun _ => (c.checkConstraint st.1).bind fun _ => .ok st

/-- The last step (`type_inference.rs` 318-349). -/
def finalPass (env : Env) (cs : List Ctx) (st : ET × RT) : Res (ET × RT) := Res.foldl (Ctx.final env cs) st cs

/-- The locations that a unification reads or writes. -/
def Unif.locs : Unif → List Loc
  | .arg e _ _ => [e]
  | .ofVar e _ => [e]
  | .ofConst e _ => [e]
  | .bin _ a b e => [a, b, e]
  | .un _ a e => [a, e]
  | .ite e c t f => [e, c, t, f]
  | .call _ args e => e :: args
  | .entity _ args e => e :: args

/-- All the locations of a program. -/
def allLocs (cs : List Ctx) : List Loc := ((cs.map fun c => (c.unifs.map Unif.locs).flatten).flatten).dedup

/-- The test `old_inferred_expr_types == inferred_expr_types` (`type_inference.rs` 292): the keys are locations of the program. -/
def sameTypes (cs : List Ctx) (old new : ET) : Bool :=
  (allLocs cs).all fun l => match old l, new l with
    | none, none => true
    | some a, some b => a.codeEq b
    | _, _ => false

/-- The result of running the loop for a number of iterations. -/
inductive LoopRes where
  | done (s : ET) (rt : RT)
  | error
  | panic
  | running

/-- Models the fixpoint loop (`type_inference.rs` 290-316), for at most `fuel` iterations: an iteration is done, then the old and new types
are compared. -/
def loop (env : Env) (cs : List Ctx) : Nat → ET × RT → LoopRes
  | 0, _ => .running
  | fuel + 1, st =>
    match pass env cs st with
    | .error => .error
    | .panic => .panic
    | .ok st' => if sameTypes cs st.1 st'.1 then .done st'.1 st'.2 else loop env cs fuel st'

/-- Models `infer_types_helper` (`type_inference.rs` 268-353), for at most `fuel` iterations of its loop; `none` when they do not suffice.
There are no types of expressions at the start (`var_types` is never filled). -/
def inferTypes (env : Env) (cs : List Ctx) (fuel : Nat) (rt : RT) : Option (Res (ET × RT)) :=
  match loop env cs fuel (fun _ => none, rt) with
  | .running => none
  | .error => some .error
  | .panic => some .panic
  | .done s rt => some (finalPass env cs (s, rt))

/-! ## Items -/

/-- The items of a program that matter to the types of relations. -/
inductive Item (F : Type) where
  | decl (p : String) (tys : List String)
  | fact (p : String) (args : List (Const F × Option String))
  | rule (r : TRule F)

/-- A map of relation types with one entry replaced. -/
def RT.put (rt : RT) (p : String) (tys : List TSet) : RT := fun q => if q = p then some tys else rt q

/-- All the results, or the first error. -/
def collect {α β : Type} (f : α → Option β) : List α → Option (List β)
  | [] => some []
  | a :: as => (f a).bind fun b => (collect f as).bind fun bs => some (b :: bs)

/-- Models `check_and_add_relation_type` (`type_inference.rs` 186-244) for a relation not declared before: the declared types are
unified with what is known already; `zip` forgets the excess of the longer list. -/
def addDecl (env : Env) (rt : RT) (p : String) (tys : List String) : Option RT :=
  (collect (fun n => (env.types n).map TSet.base) tys).bind fun tys =>
  match rt p with
  | some existing => (collect (fun ab => TSet.unify ab.1 ab.2) (existing.zip tys)).bind fun n => some (rt.put p n)
  | none => some (rt.put p tys)

/-- Models `resolve_constant_type` (`type_inference.rs` 246-253); the second component is the declared type, if the literal stands for
a declared constant. -/
def resolveConst (env : Env) (c : Const F × Option String) : Option TSet :=
  match c.2 with
  | some name => (env.types name).map TSet.base
  | none => some c.1.typeSet

/-- Models the visitor of facts (`type_inference.rs` 640-725); a set of constants is a list of facts (551-638). -/
def addFact (env : Env) (rt : RT) (p : String) (args : List (Const F × Option String)) : Option RT :=
  if (env.preds p).isSome then none
  else
    (collect (resolveConst env) args).bind fun cur =>
    match rt p with
    | some orig =>
      if cur.length = orig.length then
        (collect (fun ab => TSet.unify ab.1 ab.2) (orig.zip cur)).bind fun n => some (rt.put p n)
      else none
    | none => some (rt.put p cur)

/-- The atoms of a rule. -/
def TRule.atoms (r : TRule F) : List (TAtom F) :=
  r.lits.filterMap fun l => match l with
    | .pos a => some a
    | .neg a => some a
    | .constraint _ => none

/-- Models `unify_atom_arities` (`local.rs` 50-79) for one atom. -/
def addArity (env : Env) (rt : RT) (a : TAtom F) : Option RT :=
  if (env.preds a.pred).isSome then some rt
  else
    match rt a.pred with
    | none => some (rt.put a.pred (List.replicate a.args.length .any))
    | some tys => if a.args.length = tys.length then some rt else none

/-- Fold with early exit. -/
def foldOpt {α β : Type} (f : β → α → Option β) : β → List α → Option β
  | b, [] => some b
  | b, a :: as => (f b a).bind fun b' => foldOpt f b' as

/-- Models the visitor of rules (`type_inference.rs` 727-760). -/
def addRule (env : Env) (rt : RT) (r : TRule F) : Option RT :=
  if r.heads.any (fun a => (env.preds a.pred).isSome) then none else foldOpt (addArity env) rt r.atoms

/-- The visit of one item. -/
def addItem (env : Env) (rt : RT) : Item F → Option RT
  | .decl p tys => if (env.preds p).isSome then none else addDecl env rt p tys
  | .fact p args => addFact env rt p args
  | .rule r => addRule env rt r

/-- The visit of all the items, in the order of the program. -/
def addItems (env : Env) (items : List (Item F)) : Option RT := foldOpt (addItem env) (fun _ => none) items

/-- The rules of a program. -/
def rulesOf (items : List (Item F)) : List (TRule F) :=
  items.filterMap fun i => match i with
    | .rule r => some r
    | _ => none

/-- The contexts of the rules of a program. -/
def ctxsOf (rs : List (TRule F)) : List Ctx := rs.zipIdx.map (fun x => x.1.ctx x.2)

/-- Type inference of a program: the visit of the items and the inference (`analysis.rs` and `type_inference.rs`). -/
def typeProgram (env : Env) (items : List (Item F)) (fuel : Nat) : Option (Res (ET × RT)) :=
  match addItems env items with
  | none => some .error
  | some rt => inferTypes env (ctxsOf (rulesOf items)) fuel rt

/-! ## Casts at run time -/

/-- Models the cases of `TypeCast` in `eval_unary` (`environment.rs` 599-707): whether there is one for a value of type `src`. -/
def castCase (src dst : VTy) : Bool :=
  match src, dst with
  | .int .i8, d => d.isNumeric || d == .string
  | .int .i32, d => d.isNumeric || d == .string
  | .int .usize, d => d.isNumeric || d == .string
  | .char, d => d.isNumeric || d == .string
  | .string, d => d.isNumeric || d == .string
  | .float .f32, d => d == .float .f64 || d == .string
  | .float .f64, d => d == .float .f32 || d == .string
  | .int _, d => d == .string
  | .bool, d => d == .string
  | .str, d => d == .string
  | .symbol, d => d == .string
  | _, _ => false

/-- The type of a value (`ValueType::type_of`, `value_type.rs` 35-63). -/
def _root_.Scallop.Val.ty : Val F → VTy
  | .int k _ => .int k
  | .float k _ => .float k
  | .char _ => .char
  | .bool _ => .bool
  | .string _ => .string
  | .symbol _ => .symbol
  | .entity _ => .entity

end Scallop.Ty
