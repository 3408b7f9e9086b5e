import Mathlib.Data.Int.Order.Basic

/-!
# Parsing durations

Models `/repo/lib/parse_relative_duration/src/parse.rs`, which reads the durations of programs (`/repo/core/src/utils/chrono.rs` 13-15).

Not modelled: the regular expressions (118-145). What they capture is the input of the model: a lone number, or the list of captured
groups. `BigInt` is `Int`. Lower-casing is that of ASCII letters. A `chrono::Duration` is its number of nanoseconds, within the bounds
documented by that library.
-/

namespace Scallop.Dur

/-- The units distinguished by the code, which uses strings (152-197). -/
inductive DUnit where
  | nano | micro | milli | sec | min | hour | day | week | month | year
deriving DecidableEq, Repr

/-- `a.starts_with(b)`. -/
def starts (a b : List Char) : Bool := b.isPrefixOf a

/-- Models `parse_unit` (152-197); `none` is a word that is not a unit. -/
def parseUnit (unit : List Char) : Option DUnit :=
  let low := unit.map Char.toLower
  if starts low "n".toList && (starts "nanoseconds".toList low || starts "nsecs".toList low) then some .nano
  else if (starts low "mic".toList && starts "microseconds".toList low) || (starts low "u".toList && starts "usecs".toList low) ||
      (starts low "μ".toList && starts "μsecs".toList low) then some .micro
  else if (starts low "mil".toList && starts "milliseconds".toList low) || (starts low "ms".toList && starts "msecs".toList low) then
    some .milli
  else if starts low "s".toList && (starts "seconds".toList low || starts "secs".toList low) then some .sec
  else if (starts low "min".toList || starts unit "m".toList) && (starts "minutes".toList low || starts "mins".toList low) then some .min
  else if starts low "h".toList && (starts "hours".toList low || starts "hrs".toList low) then some .hour
  else if starts low "d".toList && starts "days".toList low then some .day
  else if starts low "w".toList && starts "weeks".toList low then some .week
  else if (starts low "mo".toList || starts unit "M".toList) && starts "months".toList low then some .month
  else if starts low "y".toList && (starts "years".toList low || starts "yrs".toList low) then some .year
  else none

/-- The factors of the decimal branches (244-255, 275-286, 323-334). -/
def DUnit.nanos : DUnit → Int
  | .nano => 1
  | .micro => 1000
  | .milli => 1000000
  | .sec => 1000000000
  | .min => 60000000000
  | .hour => 3600000000000
  | .day => 86400000000000
  | .week => 604800000000000
  | .month => 2629746000000000
  | .year => 31556952000000000

/-- `BigInt::parse_bytes(_, 10)` on digits. -/
def digits (ds : List (Fin 10)) : Int := ds.foldl (fun n d => 10 * n + d.val) 0

/-- One match of `DURATION_RE` (128-145): `int` is a sign and digits. -/
structure Capture where
  neg : Bool
  int : List (Fin 10)
  dec : Option (List (Fin 10))
  exp : Option Int
  unit : Option (List Char)
deriving DecidableEq

/-- `BigInt::parse_bytes` on the group `int`. -/
def Capture.intVal (c : Capture) : Int := if c.neg then -digits c.int else digits c.int

/-- Models `enum Error` (9-25). -/
inductive Err where
  | parseInt | unknownUnit | outOfBounds | noUnit | noValue
deriving DecidableEq, Repr

/-- What a call can do: return, return an error, panic. -/
inductive Res (α : Type) where
  | ok (a : α)
  | err (e : Err)
  | panic
deriving DecidableEq, Repr

/-- The `?` operator. -/
def Res.bind {α β : Type} : Res α → (α → Res β) → Res β
  | .ok a, f => f a
  | .err e, _ => .err e
  | .panic, _ => .panic

/-- Models `struct ProtoDuration` (60-82). -/
structure Proto where
  nanos : Int := 0
  micros : Int := 0
  millis : Int := 0
  secs : Int := 0
  mins : Int := 0
  hours : Int := 0
  days : Int := 0
  weeks : Int := 0
  months : Int := 0
  years : Int := 0

/-- Adding a whole number of units (225-236). -/
def Proto.add (p : Proto) (n : Int) : DUnit → Proto
  | .nano => { p with nanos := p.nanos + n }
  | .micro => { p with micros := p.micros + n }
  | .milli => { p with millis := p.millis + n }
  | .sec => { p with secs := p.secs + n }
  | .min => { p with mins := p.mins + n }
  | .hour => { p with hours := p.hours + n }
  | .day => { p with days := p.days + n }
  | .week => { p with weeks := p.weeks + n }
  | .month => { p with months := p.months + n }
  | .year => { p with years := p.years + n }

/-- Range of `isize` on a 64-bit platform. -/
def isize (n : Int) : Bool := decide (-(2 ^ 63) ≤ n) && decide (n < 2 ^ 63)

/-- Multiplying or dividing by a power of ten (291-297, 339-345). -/
def scale (n : Int) (e : Int) : Int := if e < 0 then n.tdiv (10 ^ e.natAbs) else n * 10 ^ e.natAbs

/-- Models the treatment of one match (208-350). -/
def step (p : Proto) (c : Capture) : Res Proto :=
  match c.unit with
  | none => .err .noUnit
  | some w =>
    match c.dec, c.exp with
    | none, none =>
      match parseUnit w with
      | some u => .ok (p.add c.intVal u)
      | none => .err .unknownUnit
    | some d, none =>
      match parseUnit w with
      | some u => .ok { p with nanos := p.nanos + (u.nanos * (c.intVal * 10 ^ d.length + digits d)).tdiv (10 ^ d.length) }
      | none => .err .unknownUnit
    | none, some e =>
      if isize e then
        match parseUnit w with
        | some u => .ok { p with nanos := p.nanos + scale (u.nanos * c.intVal) e }
        | none => .err .unknownUnit
      else .err .parseInt
    | some d, some e =>
      if isize (e - d.length) then
        match parseUnit w with
        | some u => .ok { p with nanos := p.nanos + scale (u.nanos * (c.intVal * 10 ^ d.length + digits d)) (e - d.length) }
        | none => .err .unknownUnit
      else .err .outOfBounds

/-- Models the loop (207-351). -/
def steps (p : Proto) : List Capture → Res Proto
  | [] => .ok p
  | c :: cs => (step p c).bind (fun p' => steps p' cs)

/-- Models `RelativeDuration`: months, and a `chrono::Duration` in nanoseconds. -/
structure Rel where
  months : Int
  nanos : Int
deriving DecidableEq, Repr

/-- The bounds of `chrono::Duration`: `i64::MAX` milliseconds either way. -/
def maxNanos : Int := (2 ^ 63 - 1) * 1000000

/-- A number of nanoseconds that is a `chrono::Duration`. -/
def inBounds (n : Int) : Bool := decide (-maxNanos ≤ n) && decide (n ≤ maxNanos)

/-- `Duration::try_seconds` with the error the code maps `None` to (107, 205-206). -/
def trySeconds (s : Int) : Res Int := if inBounds (s * 1000000000) then .ok (s * 1000000000) else .err .noValue

/-- Addition of durations, which panics on overflow. -/
def addDur (a b : Int) : Res Int := if inBounds (a + b) then .ok (a + b) else .panic

/-- Models `into_duration` (87-109). -/
def Proto.into (p : Proto) : Res Rel :=
  let nanos := p.nanos + 1000 * p.micros + 1000000 * p.millis
  let secs := p.secs + 60 * p.mins + 3600 * p.hours + 86400 * p.days + 604800 * p.weeks
  let months := p.months + 12 * p.years
  let secs := secs + nanos.tdiv 1000000000
  let nanos := nanos.tmod 1000000000
  if isize secs then
    if decide (-(2 ^ 31) ≤ months) && decide (months < 2 ^ 31) then
      (trySeconds secs).bind (fun d => (addDur d nanos).bind (fun t => .ok ⟨months, t⟩))
    else .err .outOfBounds
  else .err .outOfBounds

/-- What the regular expressions make of an input (200-207): a lone number, matches, or nothing. -/
inductive Input where
  | number (neg : Bool) (ds : List (Fin 10))
  | matches (c : Capture) (cs : List Capture)
  | nothing

/-- Models `parse` (199-357). -/
def parse : Input → Res Rel
  | .number neg ds =>
    let s := if neg then -digits ds else digits ds
    if isize s then (trySeconds s).bind (fun d => .ok ⟨0, d⟩) else .err .outOfBounds
  | .matches c cs => (steps {} (c :: cs)).bind Proto.into
  | .nothing => .err .noValue

end Scallop.Dur
