import Verif.Proof.StaticExpr

/-! # C111: expressions of compiled programs -/

namespace Scallop.SExpr

open Scallop

variable {F : Type}

/-- Whenever the interpreter gives a value for an expression on a tuple, the compiled expression gives the same value, with and without overflow checks, if sums and
differences are exact and the expression uses only what can be compiled. -/
theorem c111_same (checks : Bool) (X : Ext F) (R : Rust F) (hc : CastsBy X R) (t : Tup (Val F)) (hs : NoSymbols t) (e : Expr F) (v : Tup (Val F)) (hd : Direct X R t e)
    (h : e.eval X t = .ok v) : rsEval checks X R e t = .ok v := rsEval_ok checks X R hc t hs e v hd h

/-- The interpreter rounds a sum to the ends of the type; a compiled program gives the same sum exactly if it is in range, with and without overflow checks. -/
theorem c111_sums (checks : Bool) (k : IntTy) (a b : Int) (ha : k.fits a = true) (hb : k.fits b = true) :
    (∃ r : Val F, evalInt .add k a b = .ok r ∧ (rsInt checks .add k a b = .ok r ↔ k.fits (a + b) = true)) ∧
    (∃ r : Val F, evalInt .sub k a b = .ok r ∧ (rsInt checks .sub k a b = .ok r ↔ k.fits (a - b) = true)) := by
  simp only [IntTy.fits, Bool.and_eq_true, decide_eq_true_eq] at ha hb
  have h1 := hi_eq k
  have h2 := lo_bounds k
  exact ⟨⟨_, rfl, arith_iff checks k (a + b) (by omega) (by omega)⟩, ⟨_, rfl, arith_iff checks k (a - b) (by omega) (by omega)⟩⟩

/-- A product that fits, a quotient and a remainder are the same, and division panics in the same cases. -/
theorem c111_division (checks : Bool) (op : BinOp) (hop : op = .div ∨ op = .mod) (k : IntTy) (a b : Int) :
    (∀ r : Val F, evalInt op k a b = .ok r ↔ rsInt checks op k a b = .ok r) ∧ ((evalInt op k a b : Outcome (Val F)) = .panic ↔ (rsInt checks op k a b : Rs (Val F)) = .panic) := by
  rcases hop with rfl | rfl <;> simp only [evalInt, rsInt] <;> (repeat' split) <;> simp

/-- Casting a digit to an integer gives its value in the interpreter and its code in a compiled program, which is 48 more. -/
theorem c111_digits_false (R : Rust F) (k : IntTy) (c : Char) (d : Nat) (h : digit c = some d) :
    castInterp R (.int k) (.char c) = .ok (.int k d) ∧ castRust R (.int k) (.char c) = .ok (.int k (d + 48)) := by
  obtain ⟨h1, h2⟩ := digit_spec c d h
  refine ⟨by simp [castInterp, h], ?_⟩
  simp only [castRust, h2]
  rw [wrap_of_fits k _ (small_fits k _ (by omega) (by omega))]
  simp

/-- A unary `+`, a sum of strings, a cast to a string from another type or from a string to a number, a call, a new entity and a symbol are not accepted. -/
theorem c111_rejected (checks : Bool) (X : Ext F) (R : Rust F) (t : Tup (Val F)) (v : Val F) :
    rsUn checks X R .pos v = .reject ∧ (∀ a b, rsBin checks X R .add (.string a) (.string b) = .reject) ∧
    ((∀ s, v ≠ .string s) → castRust R .string v = .reject) ∧ (∀ s ty, ty ≠ .string → castRust R ty (.string s) = .reject) ∧
    (∀ f es, rsEval checks X R (.call f es) t = .reject ∧ rsEval checks X R (.new f es) t = .reject) ∧ ∀ s, rsEval checks X R (.const (.symbol s)) t = .reject := by
  refine ⟨rfl, fun _ _ => rfl, fun h => ?_, fun s ty h => ?_, fun f es => ⟨by simp [rsEval], by simp [rsEval]⟩, fun s => by simp [rsEval]⟩
  · cases v <;> first | rfl | exact absurd rfl (h _)
  · cases ty <;> first | rfl | exact absurd rfl h

/-! ### Examples -/

/-- Numbers with a value that is not a number; `0 / 0` is not a number. -/
def exExt (R : Rust (Option Int)) : Ext (Option Int) where
  fadd a b := do some ((← a) + (← b))
  fsub a b := do some ((← a) - (← b))
  fmul a b := do some ((← a) * (← b))
  fdiv a b := do if (← b) = 0 then none else some ((← a) / (← b))
  fneg a := a.map (- ·)
  isNan a := a.isNone
  feq a b := a.isSome && decide (a = b)
  flt a b := match a, b with
    | some x, some y => decide (x < y)
    | _, _ => false
  fle a b := match a, b with
    | some x, some y => decide (x ≤ y)
    | _, _ => false
  cast _ name v := match R.typeNamed name with
    | some ty => castInterp R ty v
    | none => .panic
  call _ _ := .undef
  encode _ _ := 0

/-- Conversions. -/
def exRust : Rust (Option Int) where
  typeNamed s := if s = "i32" then some (.int .i32) else if s = "u8" then some (.int .u8) else if s = "f32" then some (.float .f32) else none
  fmod a b := do some ((← a).tmod (← b))
  ofInt _ n := some n
  toInt _ x := x.getD 0
  resize _ x := x
  parse _ _ := .undef
  text _ := ""

theorem exCasts : CastsBy (exExt exRust) exRust := by
  intro name ty v h
  simp [exExt, h]

/-- Two integers, a floating point number and a character. -/
def exTuple : Tup (Val (Option Int)) := .tup [.val (.int .i32 7), .val (.int .i32 300), .val (.float .f32 (some 0)), .val (.char '7')]

theorem exNoSymbols : NoSymbols exTuple := by
  intro a s h
  match a with
  | [] => simp [Tup.atPath, exTuple] at h
  | [i] =>
    match i with
    | 0 | 1 | 2 | 3 => simp [Tup.atPath, exTuple, Tup.at?] at h
    | i + 4 => simp [Tup.atPath, exTuple, Tup.at?] at h
  | i :: j :: a =>
    match i with
    | 0 | 1 | 2 | 3 => simp [Tup.atPath, exTuple, Tup.at?] at h
    | i + 4 => simp [Tup.atPath, exTuple, Tup.at?] at h

/-- `((x + y) as u8, if x < y then x else y)`. -/
def exExpr : Expr (Option Int) :=
  .tuple [.un (.cast "u8") (.bin .add (.access [0]) (.access [1])), .ite (.bin .lt (.access [0]) (.access [1])) (.access [0]) (.access [1])]

example : Direct (exExt exRust) exRust exTuple exExpr ∧ exExpr.eval (exExt exRust) exTuple = .ok (.tup [.val (.int .u8 51), .val (.int .i32 7)]) ∧
    rsEval false (exExt exRust) exRust exExpr exTuple = .ok (.tup [.val (.int .u8 51), .val (.int .i32 7)]) := by
  refine ⟨?_, by rfl, by rfl⟩
  refine ⟨⟨⟨trivial, trivial, fun x y hx hy => ?_⟩, fun x hx => ?_⟩, ⟨⟨trivial, trivial, fun x y _ _ => ?_⟩, fun _ => trivial, fun _ => trivial⟩, trivial⟩
  · cases hx; cases hy
    refine ⟨fun _ => ⟨fun k k' a b h1 h2 => ?_, by simp⟩, fun h => by cases h⟩
    cases h1; cases h2; decide +kernel
  · cases hx
    exact ⟨by simp, fun name h => by cases h; exact ⟨rfl, _, rfl, rfl⟩⟩
  · exact ⟨fun h => (by cases h), fun h => (by cases h)⟩

/-! ### Where compiled programs differ -/

/-- A sum out of range: the interpreter gives the greatest value, a compiled program panics or wraps around. -/
theorem c111_overflow_false : ∃ (e : Expr (Option Int)), e.eval (exExt exRust) exTuple = .ok (.val (.int .i32 2147483647)) ∧
    rsEval true (exExt exRust) exRust e exTuple = .panic ∧ rsEval false (exExt exRust) exRust e exTuple = .ok (.val (.int .i32 (-2147483642))) :=
  ⟨.bin .add (.access [0]) (.const (.int .i32 2147483647)), by rfl, by rfl, by rfl⟩

/-- A division whose result is not a number: the interpreter drops the tuple, a compiled program keeps it. -/
theorem c111_nan_false : ∃ (e : Expr (Option Int)), e.eval (exExt exRust) exTuple = .undef ∧
    ∀ checks, rsEval checks (exExt exRust) exRust e exTuple = .ok (.val (.float .f32 none)) :=
  ⟨.bin .div (.access [2]) (.access [2]), by rfl, fun c => by cases c <;> rfl⟩

/-- `x == 7 || x / 0 == 1`: the interpreter evaluates both operands and panics, a compiled program does not evaluate the second one. -/
theorem c111_short_circuit_false : ∃ (e : Expr (Option Int)), e.eval (exExt exRust) exTuple = .panic ∧
    ∀ checks, rsEval checks (exExt exRust) exRust e exTuple = .ok (.val (.bool true)) :=
  ⟨.bin .or (.bin .eq (.access [0]) (.const (.int .i32 7))) (.bin .eq (.bin .div (.access [0]) (.const (.int .i32 0))) (.const (.int .i32 1))), by rfl,
    fun c => by cases c <;> rfl⟩

/-- Most casts between integer types panic in the interpreter and not in a compiled program. -/
theorem c111_casts_false (R : Rust F) (k k' : IntTy) (n : Int) (h : castable k = false) :
    castInterp R (.int k') (.int k n) = .panic ∧ castRust R (.int k') (.int k n) = .ok (.int k' (wrap k' n)) := by
  simp [castInterp, castRust, h]

end Scallop.SExpr
