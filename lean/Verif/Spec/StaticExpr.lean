import Verif.Model.StaticExpr

/-!
# Expressions that can be compiled faithfully

Conditions on an expression and the tuple it is evaluated on, in terms of what the interpreter computes.
-/

namespace Scallop.SExpr

open Scallop

variable {F : Type}

/-- A sum or difference that needs no rounding to the ends of its type, and is not of strings. -/
def ExactOp (op : BinOp) (x y : Val F) : Prop :=
  (op = .add → (∀ k k' a b, x = .int k a → y = .int k' b → k.fits (a + b) = true) ∧ ∀ s, x ≠ .string s) ∧
  (op = .sub → ∀ k k' a b, x = .int k a → y = .int k' b → k.fits (a - b) = true)

/-- No unary `+`, and casts are of integers and floating point numbers to such. -/
def NumericUn (R : Rust F) (op : UnOp) (x : Val F) : Prop :=
  op ≠ .pos ∧ ∀ name, op = .cast name → x.ty.isNumeric = true ∧ ∃ ty, R.typeNamed name = some ty ∧ ty.isNumeric = true

mutual
/-- Every sum and difference that is evaluated is exact, every cast that is evaluated is numeric, and there are no symbols, calls, `new` or unary `+`. -/
def Direct (X : Ext F) (R : Rust F) (t : Tup (Val F)) : Expr F → Prop
  | .tuple es => DirectList X R t es
  | .access _ => True
  | .const c => ∀ s, c ≠ .symbol s
  | .bin op a b => Direct X R t a ∧ Direct X R t b ∧ ∀ x y, a.eval X t = .ok (.val x) → b.eval X t = .ok (.val y) → ExactOp op x y
  | .un op a => Direct X R t a ∧ ∀ x, a.eval X t = .ok (.val x) → NumericUn R op x
  | .ite c th el => Direct X R t c ∧ (c.eval X t = .ok (.val (.bool true)) → Direct X R t th) ∧ (c.eval X t = .ok (.val (.bool false)) → Direct X R t el)
  | .call _ _ => False
  | .new _ _ => False
/-- All of them. -/
def DirectList (X : Ext F) (R : Rust F) (t : Tup (Val F)) : List (Expr F) → Prop
  | [] => True
  | e :: es => Direct X R t e ∧ DirectList X R t es
end

/-- No symbols in a tuple. -/
def NoSymbols (t : Tup (Val F)) : Prop := ∀ a s, t.atPath a ≠ some (.val (.symbol s))

/-- The interpreter's casts are those of `castInterp`. -/
def CastsBy (X : Ext F) (R : Rust F) : Prop :=
  ∀ name ty v, R.typeNamed name = some ty → X.cast .run name v = castInterp R ty v

end Scallop.SExpr
