import Mathlib.Data.Int.Order.Basic

/-!
# Values and operators

Models `/repo/core/src/common/value.rs` (11-38), `/repo/core/src/common/binary_op.rs` (6-21),
`/repo/core/src/common/unary_op.rs` and the operator semantics of
`/repo/core/src/runtime/env/environment.rs` (`eval_binary` 291-572, `eval_unary` 574-710).

Modelled: all twelve integer types with their ranges, floats (through an abstract record of operations, so that NaN and
signed zeros are covered by whatever that record does), characters, booleans, strings, symbols, entities.
Not modelled: `DateTime`, `Duration`, tensors, `Str` (the static string used by the runtime only), `EntityString`.

Arithmetic that overflows without a saturating operator is a panic in the model (what a debug build does; a release build wraps).
-/

namespace Scallop

/-- What evaluating an operator can do: give a value, be undefined (`None`, the tuple is dropped) or panic. -/
inductive Outcome (α : Type) where
  | ok (a : α)
  | undef
  | panic
deriving DecidableEq, Repr

namespace Outcome
variable {α β : Type}
/-- `?` on the result of an evaluation; a panic propagates. -/
def bind : Outcome α → (α → Outcome β) → Outcome β
  | .ok a, f => f a
  | .undef, _ => .undef
  | .panic, _ => .panic
end Outcome

/-- The integer types among the variants of `Value` (`value.rs` 12-23). -/
inductive IntTy where
  | i8 | i16 | i32 | i64 | i128 | isize | u8 | u16 | u32 | u64 | u128 | usize
deriving DecidableEq, Repr

namespace IntTy
def signed : IntTy → Bool
  | .i8 | .i16 | .i32 | .i64 | .i128 | .isize => true
  | _ => false
/-- Number of bits; `isize`/`usize` are those of a 64-bit platform. -/
def bits : IntTy → Nat
  | .i8 | .u8 => 8
  | .i16 | .u16 => 16
  | .i32 | .u32 => 32
  | .i64 | .u64 | .isize | .usize => 64
  | .i128 | .u128 => 128
/-- `T::MIN`. -/
def lo (k : IntTy) : Int := if k.signed then -(2 ^ (k.bits - 1)) else 0
/-- `T::MAX`. -/
def hi (k : IntTy) : Int := if k.signed then 2 ^ (k.bits - 1) - 1 else 2 ^ k.bits - 1
/-- Saturation of an exact result, as in `saturating_add`/`saturating_sub`. -/
def sat (k : IntTy) (n : Int) : Int := if n < k.lo then k.lo else if k.hi < n then k.hi else n
/-- The exact result of a plain (non saturating) operator when representable; otherwise overflow. -/
def fits (k : IntTy) (n : Int) : Bool := decide (k.lo ≤ n) && decide (n ≤ k.hi)
end IntTy

/-- The floating point types (`value.rs` 24-25). -/
inductive FloatTy where
  | f32 | f64
deriving DecidableEq, Repr

/-- Models `enum Value` (`value.rs` 11-38). A symbol is identified with its string: at compile time it is a `SymbolString`, at run
time the index given to that string by the symbol registry. -/
inductive Val (F : Type) where
  | int (k : IntTy) (n : Int)
  | float (k : FloatTy) (x : F)
  | char (c : Char)
  | bool (b : Bool)
  | string (s : String)
  | symbol (s : String)
  | entity (e : Nat)
deriving DecidableEq, Repr

/-- Models `enum BinaryOp` (`binary_op.rs` 6-21). -/
inductive BinOp where
  | add | sub | mul | div | mod | and | or | xor | eq | neq | lt | leq | gt | geq
deriving DecidableEq, Repr

/-- Models `enum UnaryOp` (`unary_op.rs`); the target of a type cast is a name. -/
inductive UnOp where
  | neg | pos | not | cast (ty : String)
deriving DecidableEq, Repr

/-- Whether an operator is evaluated by the compiler (constants are as written, symbols are strings) or by the engine (constants
have been internalized, symbols are registry indices). -/
inductive Stage where
  | compile | run
deriving DecidableEq, Repr

/-- The parts of evaluation that are left abstract: floating point arithmetic, type casts, foreign functions and the hash that
identifies entities (`common/entity.rs` 4-12). -/
structure Ext (F : Type) where
  fadd : F → F → F
  fsub : F → F → F
  fmul : F → F → F
  fdiv : F → F → F
  fneg : F → F
  isNan : F → Bool
  feq : F → F → Bool
  flt : F → F → Bool
  fle : F → F → Bool
  cast : Stage → String → Val F → Outcome (Val F)
  call : String → List (Val F) → Outcome (Val F)
  encode : String → List (Val F) → Nat

variable {F : Type}

/-- Models the integer cases of `eval_binary` (`environment.rs` 302-313, 332-343, 362-373, 391-402, 423-434): saturating addition and
subtraction; plain multiplication, division and remainder. -/
def evalInt (op : BinOp) (k : IntTy) (a b : Int) : Outcome (Val F) :=
  match op with
  | .add => .ok (.int k (k.sat (a + b)))
  | .sub => .ok (.int k (k.sat (a - b)))
  | .mul => if k.fits (a * b) then .ok (.int k (a * b)) else .panic
  | .div => if b = 0 then .panic else if k.fits (a.tdiv b) then .ok (.int k (a.tdiv b)) else .panic
  | .mod => if b = 0 then .panic else if k.fits (a.tdiv b) then .ok (.int k (a.tmod b)) else .panic
  | .eq => .ok (.bool (decide (a = b)))
  | .neq => .ok (.bool (decide (a ≠ b)))
  | .lt => .ok (.bool (decide (a < b)))
  | .leq => .ok (.bool (decide (a ≤ b)))
  | .gt => .ok (.bool (decide (b < a)))
  | .geq => .ok (.bool (decide (b ≤ a)))
  | .and | .or | .xor => .panic

/-- Models the floating point cases of `eval_binary` (`environment.rs` 314-315, 344-345, 374-375, 403-418, and the comparison cases): a division
whose result is NaN is undefined; there is no `%`. -/
def evalFloat (X : Ext F) (op : BinOp) (k : FloatTy) (a b : F) : Outcome (Val F) :=
  match op with
  | .add => .ok (.float k (X.fadd a b))
  | .sub => .ok (.float k (X.fsub a b))
  | .mul => .ok (.float k (X.fmul a b))
  | .div => if X.isNan (X.fdiv a b) then .undef else .ok (.float k (X.fdiv a b))
  | .eq => .ok (.bool (X.feq a b))
  | .neq => .ok (.bool (!X.feq a b))
  | .lt => .ok (.bool (X.flt a b))
  | .leq => .ok (.bool (X.fle a b))
  | .gt => .ok (.bool (X.flt b a))
  | .geq => .ok (.bool (X.fle b a))
  | .mod | .and | .or | .xor => .panic

/-- Models `eval_binary` (`environment.rs` 291-572) on the two operand values. Operands of different types panic. Symbols are compared
by the engine (`Symbol`), but the compiler's `SymbolString` has no case in the match and panics. -/
def evalBin (X : Ext F) (st : Stage) (op : BinOp) : Val F → Val F → Outcome (Val F)
  | .int k a, .int k' b => if k = k' then evalInt op k a b else .panic
  | .float k a, .float k' b => if k = k' then evalFloat X op k a b else .panic
  | .bool a, .bool b =>
    match op with
    | .and => .ok (.bool (a && b))
    | .or => .ok (.bool (a || b))
    | .xor => .ok (.bool (a ^^ b))
    | .eq => .ok (.bool (decide (a = b)))
    | .neq => .ok (.bool (decide (a ≠ b)))
    | _ => .panic
  | .char a, .char b =>
    match op with
    | .eq => .ok (.bool (decide (a = b)))
    | .neq => .ok (.bool (decide (a ≠ b)))
    | _ => .panic
  | .string a, .string b =>
    match op with
    | .add => .ok (.string (a ++ b))
    | .eq => .ok (.bool (decide (a = b)))
    | .neq => .ok (.bool (decide (a ≠ b)))
    | _ => .panic
  | .symbol a, .symbol b =>
    match st, op with
    | .run, .eq => .ok (.bool (decide (a = b)))
    | .run, .neq => .ok (.bool (decide (a ≠ b)))
    | _, _ => .panic
  | .entity a, .entity b =>
    match op with
    | .eq => .ok (.bool (decide (a = b)))
    | .neq => .ok (.bool (decide (a ≠ b)))
    | _ => .panic
  | _, _ => .panic

/-- Models `eval_unary` (`environment.rs` 574-710) on the operand value. -/
def evalUn (X : Ext F) (st : Stage) (op : UnOp) (v : Val F) : Outcome (Val F) :=
  match op, v with
  | .neg, .int k n => if k.signed && k.fits (-n) then .ok (.int k (-n)) else .panic
  | .neg, .float k x => .ok (.float k (X.fneg x))
  | .neg, _ => .panic
  | .pos, v => .ok v
  | .not, .bool b => .ok (.bool (!b))
  | .not, _ => .panic
  | .cast ty, v => X.cast st ty v

/-- Models `Value::as_bool` (`value.rs` 84-89); `none` is a panic. -/
def Val.asBool? : Val F → Option Bool
  | .bool b => some b
  | _ => none

end Scallop
