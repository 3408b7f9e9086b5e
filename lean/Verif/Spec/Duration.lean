import Verif.Model.Duration
import Mathlib.Data.Rat.Floor
import Mathlib.Data.Rat.Cast.Order
import Mathlib.Algebra.Order.Floor.Ring

/-!
# What a written duration means
-/

namespace Scallop.Dur

/-- The non-negative number written as `int.dec`. -/
def written (int dec : List (Fin 10)) : ℚ := digits int + digits dec / 10 ^ dec.length

/-- The number a match writes. -/
def Capture.number (c : Capture) : ℚ := (if c.neg then -1 else 1) * written c.int (c.dec.getD []) * 10 ^ (c.exp.getD 0)

/-- Rounding towards zero. -/
def trunc (q : ℚ) : Int := if 0 ≤ q then ⌊q⌋ else ⌈q⌉

/-- A whole number of months or years, which is kept as months. -/
def Capture.isCalendar (c : Capture) (u : DUnit) : Bool := c.dec.isNone && c.exp.isNone && (u == .month || u == .year)

/-- The months a match stands for. -/
def Capture.months (c : Capture) (u : DUnit) : Int := if c.isCalendar u then (if u = .year then 12 else 1) * trunc c.number else 0

/-- The nanoseconds a match stands for: its value, rounded towards zero. -/
def Capture.nanoseconds (c : Capture) (u : DUnit) : Int := if c.isCalendar u then 0 else trunc (c.number * u.nanos)

/-- A match the parser understands: it has a known unit, an exponent that fits a machine integer, and no minus sign in front of a decimal. -/
def Capture.Good (c : Capture) (u : DUnit) : Prop :=
  (∃ w, c.unit = some w ∧ parseUnit w = some u) ∧ (∀ e, c.exp = some e → isize (e - (c.dec.getD []).length) = true) ∧
    (c.dec.isSome → c.neg = false)

/-- The full names and the short forms of the units. -/
def DUnit.names : DUnit → List String
  | .nano => ["nanoseconds", "nsecs"]
  | .micro => ["microseconds", "usecs", "μsecs"]
  | .milli => ["milliseconds", "msecs"]
  | .sec => ["seconds", "secs"]
  | .min => ["minutes", "mins"]
  | .hour => ["hours", "hrs"]
  | .day => ["days"]
  | .week => ["weeks"]
  | .month => ["months"]
  | .year => ["years", "yrs"]

end Scallop.Dur
