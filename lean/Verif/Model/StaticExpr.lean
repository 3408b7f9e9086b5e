import Verif.Model.Expr
import Verif.Model.TypeInfer

/-!
# Expressions of compiled programs

Models the Rust expressions `/repo/core/src/compiler/ram/ram2rs.rs` generates (`expr_to_rs_expr` 518-568, `binary_op_to_rs` 596-614, `value_to_rs_value` 616-646,
`value_type_to_rs_type` 490-516), with the meaning Rust gives them, and the type casts of the interpreter (`/repo/core/src/runtime/env/environment.rs` 599-707). Values are those of the
interpreter. What the Rust compiler refuses, and what the generator cannot write, is `reject`; it is found when the operator is evaluated, although Rust finds it before the program
runs. That Rust refuses to move a string out of a tuple twice is not modelled, nor is `^` on integers, which type inference refuses.
-/

namespace Scallop.SExpr

open Scallop

variable {F : Type}

/-- What a compiled expression can do: give a value, panic, or not be accepted. -/
inductive Rs (α : Type) where
  | ok (a : α)
  | panic
  | reject
deriving DecidableEq, Repr

/-- Evaluation goes on with a value. -/
def Rs.bind {α β : Type} : Rs α → (α → Rs β) → Rs β
  | .ok a, f => f a
  | .panic, _ => .panic
  | .reject, _ => .reject

/-- What is left abstract: which type a cast names, the remainder of floating point numbers, conversions of floating point numbers, `parse` and `to_string`. -/
structure Rust (F : Type) where
  typeNamed : String → Option Ty.VTy
  fmod : F → F → F
  ofInt : FloatTy → Int → F
  toInt : IntTy → F → Int
  resize : FloatTy → F → F
  parse : Ty.VTy → String → Outcome (Val F)
  text : Val F → String

/-- The value of type `k` with the same low bits: what `as` gives between integer types, and overflow without overflow checks. -/
def wrap (k : IntTy) (n : Int) : Int := (n - k.lo) % 2 ^ k.bits + k.lo

/-- `char::to_digit(10)`. -/
def digit (c : Char) : Option Nat := if '0' ≤ c ∧ c ≤ '9' then some (c.toNat - 48) else none

/-- The integer types whose casts the interpreter has (`environment.rs` 603-649). -/
def castable : IntTy → Bool
  | .i8 | .i32 | .usize => true
  | _ => false

/-- Models `TypeCast` in `eval_unary` (`environment.rs` 599-707). -/
def castInterp (R : Rust F) (dst : Ty.VTy) : Val F → Outcome (Val F)
  | .int k n =>
    match dst with
    | .int k' => if castable k then .ok (.int k' (wrap k' n)) else .panic
    | .float f => if castable k then .ok (.float f (R.ofInt f n)) else .panic
    | .string => .ok (.string (R.text (.int k n)))
    | _ => .panic
  | .float k x =>
    match k, dst with
    | .f32, .float .f64 => .ok (.float .f64 (R.resize .f64 x))
    | .f64, .float .f32 => .ok (.float .f32 (R.resize .f32 x))
    | _, .string => .ok (.string (R.text (.float k x)))
    | _, _ => .panic
  | .char c =>
    match dst with
    | .int k' => match digit c with
      | some d => .ok (.int k' d)
      | none => .undef
    | .float f => match digit c with
      | some d => .ok (.float f (R.ofInt f d))
      | none => .undef
    | .string => .ok (.string (R.text (.char c)))
    | _ => .panic
  | .string s =>
    match dst with
    | .int k' => R.parse (.int k') s
    | .float f => R.parse (.float f) s
    | .string => .ok (.string s)
    | _ => .panic
  | .bool b =>
    match dst with
    | .string => .ok (.string (R.text (.bool b)))
    | _ => .panic
  | .symbol s =>
    match dst with
    | .string => .ok (.string s)
    | _ => .panic
  | .entity _ => .panic

/-- Models `(#op1 as #rs_ty)` (`ram2rs.rs` 546-549). -/
def castRust (R : Rust F) (dst : Ty.VTy) : Val F → Rs (Val F)
  | .int k n =>
    match dst with
    | .int k' => .ok (.int k' (wrap k' n))
    | .float f => .ok (.float f (R.ofInt f n))
    | .char => if k = .u8 then .ok (.char (Char.ofNat n.toNat)) else .reject
    | _ => .reject
  | .float k x =>
    match dst with
    | .int k' => .ok (.int k' (R.toInt k' x))
    | .float f => .ok (.float f (if f = k then x else R.resize f x))
    | _ => .reject
  | .char c =>
    match dst with
    | .int k' => .ok (.int k' (wrap k' c.toNat))
    | .char => .ok (.char c)
    | _ => .reject
  | .string s =>
    match dst with
    | .string => .ok (.string s)
    | _ => .reject
  | .bool b =>
    match dst with
    | .bool => .ok (.bool b)
    | .int k' => .ok (.int k' (if b then 1 else 0))
    | _ => .reject
  | .symbol _ => .reject
  | .entity e =>
    match dst with
    | .entity => .ok (.entity e)
    | .int k' => .ok (.int k' (wrap k' e))
    | _ => .reject

/-- `+`, `-`, `*` and unary `-` of Rust on integers: with overflow checks (a debug build) a result out of range is a panic, otherwise it wraps around. -/
def arith (checks : Bool) (k : IntTy) (n : Int) : Rs (Val F) := if k.fits n then .ok (.int k n) else if checks then .panic else .ok (.int k (wrap k n))

/-- The operators of `binary_op_to_rs` (`ram2rs.rs` 596-614) on integers. Division by zero and the division of the least value by minus one always panic. -/
def rsInt (checks : Bool) (op : BinOp) (k : IntTy) (a b : Int) : Rs (Val F) :=
  match op with
  | .add => arith checks k (a + b)
  | .sub => arith checks k (a - b)
  | .mul => arith checks k (a * b)
  | .div => if b = 0 then .panic else if k.fits (a.tdiv b) then .ok (.int k (a.tdiv b)) else .panic
  | .mod => if b = 0 then .panic else if k.fits (a.tdiv b) then .ok (.int k (a.tmod b)) else .panic
  | .eq => .ok (.bool (decide (a = b)))
  | .neq => .ok (.bool (decide (a ≠ b)))
  | .lt => .ok (.bool (decide (a < b)))
  | .leq => .ok (.bool (decide (a ≤ b)))
  | .gt => .ok (.bool (decide (b < a)))
  | .geq => .ok (.bool (decide (b ≤ a)))
  | .and | .or | .xor => .reject

/-- The same on floating point numbers. -/
def rsFloat (X : Ext F) (R : Rust F) (op : BinOp) (k : FloatTy) (a b : F) : Rs (Val F) :=
  match op with
  | .add => .ok (.float k (X.fadd a b))
  | .sub => .ok (.float k (X.fsub a b))
  | .mul => .ok (.float k (X.fmul a b))
  | .div => .ok (.float k (X.fdiv a b))
  | .mod => .ok (.float k (R.fmod a b))
  | .eq => .ok (.bool (X.feq a b))
  | .neq => .ok (.bool (!X.feq a b))
  | .lt => .ok (.bool (X.flt a b))
  | .leq => .ok (.bool (X.fle a b))
  | .gt => .ok (.bool (X.flt b a))
  | .geq => .ok (.bool (X.fle b a))
  | .and | .or | .xor => .reject

/-- The comparisons of types with a total order. -/
def rsCompare {α : Type} [DecidableEq α] [LT α] [DecidableLT α] (op : BinOp) (a b : α) : Rs (Val F) :=
  match op with
  | .eq => .ok (.bool (decide (a = b)))
  | .neq => .ok (.bool (decide (a ≠ b)))
  | .lt => .ok (.bool (decide (a < b)))
  | .leq => .ok (.bool (!decide (b < a)))
  | .gt => .ok (.bool (decide (b < a)))
  | .geq => .ok (.bool (!decide (a < b)))
  | _ => .reject

/-- A binary operator other than `&&` and `||` on two values. Adding two strings is not accepted (`String + String`), nor are operands of different types. -/
def rsBin (checks : Bool) (X : Ext F) (R : Rust F) (op : BinOp) : Val F → Val F → Rs (Val F)
  | .int k a, .int k' b => if k = k' then rsInt checks op k a b else .reject
  | .float k a, .float k' b => if k = k' then rsFloat X R op k a b else .reject
  | .bool a, .bool b => if op = .xor then .ok (.bool (a ^^ b)) else rsCompare op a b
  | .char a, .char b => rsCompare op a b
  | .string a, .string b => rsCompare op a b
  | .entity a, .entity b => rsCompare op a b
  | _, _ => .reject

/-- A unary operator on a value (`ram2rs.rs` 543-554): there is no unary `+` in Rust. `!` on integers is not modelled, since type inference refuses it. -/
def rsUn (checks : Bool) (X : Ext F) (R : Rust F) (op : UnOp) (v : Val F) : Rs (Val F) :=
  match op, v with
  | .neg, .int k n => if k.signed then arith checks k (-n) else .reject
  | .neg, .float k x => .ok (.float k (X.fneg x))
  | .neg, _ => .reject
  | .pos, _ => .reject
  | .not, .bool b => .ok (.bool (!b))
  | .not, _ => .reject
  | .cast name, v => match R.typeNamed name with
    | some ty => castRust R ty v
    | none => .reject

/-- A value where Rust needs one. -/
def rsValue : Tup (Val F) → Rs (Val F)
  | .val v => .ok v
  | .tup _ => .reject

/-- A condition. -/
def rsCond : Tup (Val F) → Rs Bool
  | .val (.bool b) => .ok b
  | _ => .reject

mutual
/-- The meaning of `expr_to_rs_expr` (`ram2rs.rs` 518-568). `&&` and `||` evaluate their second operand only if needed. Symbols, calls and `new` cannot be generated. -/
def rsEval (checks : Bool) (X : Ext F) (R : Rust F) : Expr F → Tup (Val F) → Rs (Tup (Val F))
  | .tuple es, t => (rsEvalList checks X R es t).bind (fun ts => .ok (.tup ts))
  | .access a, t => match t.atPath a with
    | some u => .ok u
    | none => .reject
  | .const c, _ => match c with
    | .symbol _ => .reject
    | c => .ok (.val c)
  | .bin op a b, t =>
    match op with
    | .and => (rsEval checks X R a t).bind (fun u => (rsCond u).bind (fun x =>
        if x then (rsEval checks X R b t).bind (fun w => (rsCond w).bind (fun y => .ok (.val (.bool y)))) else .ok (.val (.bool false))))
    | .or => (rsEval checks X R a t).bind (fun u => (rsCond u).bind (fun x =>
        if x then .ok (.val (.bool true)) else (rsEval checks X R b t).bind (fun w => (rsCond w).bind (fun y => .ok (.val (.bool y))))))
    | op => (rsEval checks X R a t).bind (fun u => (rsEval checks X R b t).bind (fun w =>
        (rsValue u).bind (fun x => (rsValue w).bind (fun y => (rsBin checks X R op x y).bind (fun r => .ok (.val r))))))
  | .un op a, t => (rsEval checks X R a t).bind (fun u => (rsValue u).bind (fun x => (rsUn checks X R op x).bind (fun r => .ok (.val r))))
  | .ite c th el, t => (rsEval checks X R c t).bind (fun u => (rsCond u).bind (fun x => if x then rsEval checks X R th t else rsEval checks X R el t))
  | .call _ _, _ => .reject
  | .new _ _, _ => .reject
/-- The components of a tuple, in order. -/
def rsEvalList (checks : Bool) (X : Ext F) (R : Rust F) : List (Expr F) → Tup (Val F) → Rs (List (Tup (Val F)))
  | [], _ => .ok []
  | e :: es, t => (rsEval checks X R e t).bind (fun u => (rsEvalList checks X R es t).bind (fun us => .ok (u :: us)))
end

end Scallop.SExpr
