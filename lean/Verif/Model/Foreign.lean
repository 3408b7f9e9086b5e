import Verif.Model.TypeInfer

/-!
# The standard foreign functions

Models the functions that `ForeignFunctionRegistry::std` registers (`/repo/core/src/common/foreign_function.rs` 511-576) and that are in
`/repo/core/src/common/foreign_functions/`: their types and what `execute` does. Rust strings are UTF-8: `len`, slices and `find` count
bytes, `chars` counts characters; the model works on lists of characters and adds up their encoded sizes.

Simplified: floating point functions are an abstract record; overflow is a panic, as for the operators (`Verif/Model/Value.lean`).
Not modelled: the functions on dates and tensors and `parse_entity`, whose values the model does not have.
-/

namespace Scallop.Foreign

open Ty

variable {F : Type}

/-- The functions of `UnaryFloatFunction` (`foreign_function.rs` 614-634). -/
inductive UnFn where
  | exp | exp2 | log | log2 | sin | cos | tan | asin | acos | atan
deriving DecidableEq, Repr

/-- The floating point functions of two arguments. -/
inductive BinFn where
  | powf | atan2
deriving DecidableEq, Repr

/-- The floating point functions of Rust's standard library that the foreign functions call, per type; `none` is an argument that
the function refuses. `hash` is the default hasher (`hash.rs` 28-34). -/
structure Lib (F : Type) where
  zero : F
  flt : F → F → Bool
  abs : FloatTy → F → F
  floor : FloatTy → F → F
  ceil : FloatTy → F → F
  un : UnFn → FloatTy → F → Option F
  bin : BinFn → FloatTy → F → F → F
  show_ : FloatTy → F → String
  showEntity : Nat → String
  hash : List (Val F) → Nat

variable (L : Lib F)

/-- `?` on an optional value: nothing is the undefined outcome. -/
def ofOpt : Option (Val F) → Outcome (Val F)
  | some v => .ok v
  | none => .undef

/-- Models `Abs::execute` (`abs.rs` 38-61). Rust's `abs` overflows on the least value of a signed type. `args[0]` on no argument panics. -/
def callAbs : List (Val F) → Outcome (Val F)
  | .int k n :: _ => if k.signed then (if k.fits n.natAbs then .ok (.int k n.natAbs) else .panic) else .ok (.int k n)
  | .float k x :: _ => .ok (.float k (L.abs k x))
  | _ => .panic

/-- Models `Floor::execute` and `Ceil::execute` (`floor.rs` 38-59, `ceil.rs` 38-59): integers are returned as they are. -/
def callRound (f : FloatTy → F → F) : List (Val F) → Outcome (Val F)
  | .int k n :: _ => .ok (.int k n)
  | .float k x :: _ => .ok (.float k (f k x))
  | _ => .panic

/-- Models `Sign::execute` (`sign.rs` 38-75): `signum` for signed integers; one for every unsigned integer; a 32-bit integer for a
floating point number. -/
def callSign : List (Val F) → Outcome (Val F)
  | .int k n :: _ => .ok (.int k (if k.signed then Int.sign n else 1))
  | .float _ x :: _ =>
    .ok (.int .i32 (if L.flt x L.zero then -1 else if L.flt L.zero x then 1 else 0))
  | _ => .panic

/-- Models `Pow::execute` (`pow.rs` 41-57): the plain `pow` of Rust, which overflows. -/
def callPow : List (Val F) → Outcome (Val F)
  | .int k x :: .int .u32 y :: _ => if k.fits (x ^ y.toNat) then .ok (.int k (x ^ y.toNat)) else .panic
  | _ => .panic

/-- Models the functions of `UnaryFloatFunction` (`foreign_function.rs` 661-667). -/
def callUn (f : UnFn) : List (Val F) → Outcome (Val F)
  | .float k x :: _ => ofOpt ((L.un f k x).map (.float k))
  | _ => .panic

/-- Models `Atan2::execute`, `Powf::execute` (`atan2.rs` 42-54, `powf.rs`): the two arguments have the same size. -/
def callBin (f : BinFn) : List (Val F) → Outcome (Val F)
  | .float k x :: .float k' y :: _ => if k = k' then .ok (.float k (L.bin f k x y)) else .panic
  | _ => .panic

/-- Models the conversion of a `Value` into an integer of the type `k` (`value.rs`, `TryInto`): only from that variant. -/
def asInt (k : IntTy) : Val F → Option Int
  | .int k' n => if k = k' then some n else none
  | _ => none

/-- The same for floating point numbers. -/
def asFloat (k : FloatTy) : Val F → Option F
  | .float k' x => if k = k' then some x else none
  | _ => none

/-- Models the loop of `dyn_max`/`dyn_min` (`max.rs` 18-24, `min.rs` 18-24): `better next curr` replaces the current choice. -/
def pickFrom {α : Type} (conv : Val F → Option α) (better : α → α → Bool) : α → List (Val F) → Option α
  | cur, [] => some cur
  | cur, v :: vs => (conv v).bind fun x => pickFrom conv better (if better x cur then x else cur) vs

/-- Models `dyn_max`/`dyn_min` (`max.rs` 12-25, `min.rs` 12-25). -/
def pick {α : Type} (conv : Val F → Option α) (better : α → α → Bool) : List (Val F) → Option α
  | [] => none
  | v :: vs => (conv v).bind fun x => pickFrom conv better x vs

/-- Models `Max::execute`/`Min::execute` (`max.rs` 54-73, `min.rs` 54-73): the type of the first argument decides; `infer_return_type`
panics when there is none (`foreign_function.rs` 283-293). -/
def callPick (ltI : Int → Int → Bool) (ltF : F → F → Bool) : List (Val F) → Outcome (Val F)
  | [] => .panic
  | v :: vs =>
    match v with
    | .int k _ => ofOpt ((pick (asInt k) ltI (v :: vs)).map (.int k))
    | .float k _ => ofOpt ((pick (asFloat k) ltF (v :: vs)).map (.float k))
    | _ => .undef

/-! ## Strings -/

/-- `str::len`: the number of bytes. -/
def byteLen (s : List Char) : Nat := (s.map Char.utf8Size).sum

/-- `str::split_at` as far as slices need it: the parts of a string before and after the byte position `n`; nothing if that is not the
start of a character nor the end (where a slice panics). -/
def cutAt : List Char → Nat → Option (List Char × List Char)
  | s, 0 => some ([], s)
  | [], _ + 1 => none
  | c :: s, n + 1 => if c.utf8Size ≤ n + 1 then (cutAt s (n + 1 - c.utf8Size)).map (fun p => (c :: p.1, p.2)) else none

/-- `s[i..]`. -/
def sliceFrom (s : List Char) (i : Nat) : Option (List Char) := (cutAt s i).map (·.2)

/-- `s[i..j]`; nothing if `i > j`, if `j` is beyond the end or if one of them is inside a character. -/
def slice (s : List Char) (i j : Nat) : Option (List Char) := (cutAt s j).bind fun p => sliceFrom p.1 i

/-- `str::find` from the byte position `off` on. -/
def findFrom (p : List Char) : List Char → Nat → Option Nat
  | [], off => if p.isPrefixOf [] then some off else none
  | c :: s, off => if p.isPrefixOf (c :: s) then some off else findFrom p s (off + c.utf8Size)

/-- `str::match_indices` for a non-empty pattern: the byte positions of the non-overlapping occurrences from left to right. `skip` counts the
characters of the last occurrence that are still to be passed. -/
def matchFrom (p : List Char) : List Char → Nat → Nat → List Nat
  | [], _, _ => []
  | c :: s, skip + 1, off => matchFrom p s skip (off + c.utf8Size)
  | c :: s, 0, off =>
    if p.isPrefixOf (c :: s) then off :: matchFrom p s (p.length - 1) (off + c.utf8Size) else matchFrom p s 0 (off + c.utf8Size)

/-- The byte positions at which characters start, and the end: where the empty pattern occurs. -/
def boundaries : List Char → Nat → List Nat
  | [], off => [off]
  | c :: s, off => off :: boundaries s (off + c.utf8Size)

/-- `str::match_indices`. -/
def matchIndices (s p : List Char) : List Nat := if p = [] then boundaries s 0 else matchFrom p s 0 0

/-- `str::split` for a non-empty pattern; `acc` is the current piece, reversed. -/
def splitFrom (p : List Char) : List Char → Nat → List Char → List (List Char)
  | [], _, acc => [acc.reverse]
  | _ :: s, skip + 1, acc => splitFrom p s skip acc
  | c :: s, 0, acc =>
    if p.isPrefixOf (c :: s) then acc.reverse :: splitFrom p s (p.length - 1) [] else splitFrom p s 0 (c :: acc)

/-- `str::split`: the empty pattern splits around every character. -/
def split (s p : List Char) : List (List Char) := if p = [] then [] :: s.map (fun c => [c]) ++ [[]] else splitFrom p s 0 []

/-- `str::replace`: the pieces between the occurrences, joined by the replacement. -/
def replace (s p r : List Char) : List Char := r.intercalate (split s p)

/-- `char::is_whitespace`: the Unicode property `White_Space`. -/
def isWhite (c : Char) : Bool :=
  let n := c.toNat
  (9 ≤ n && n ≤ 13) || n == 32 || n == 0x85 || n == 0xA0 || n == 0x1680 || (0x2000 ≤ n && n ≤ 0x200A) || n == 0x2028 || n == 0x2029 ||
    n == 0x202F || n == 0x205F || n == 0x3000

/-- `str::trim`: without the white space at the beginning and at the end. -/
def trim (s : List Char) : List Char := ((s.dropWhile isWhite).reverse.dropWhile isWhite).reverse

/-- Models `StringConcat::execute` (`string_concat.rs` 28-39). -/
def callConcat : List (Val F) → List Char → Outcome (Val F)
  | [], acc => .ok (.string (String.ofList acc))
  | .string s :: vs, acc => callConcat vs (acc ++ s.toList)
  | _, _ => .panic

/-- Models `StringLength::execute` (`string_length.rs` 29-35). -/
def callLength : List (Val F) → Outcome (Val F)
  | .string s :: _ => .ok (.int .usize (byteLen s.toList))
  | [] => .panic
  | _ => .undef

/-- Models `StringCharAt::execute` (`string_char_at.rs` 32-38). -/
def callCharAt : List (Val F) → Outcome (Val F)
  | .string s :: .int .usize i :: _ => ofOpt ((s.toList[i.toNat]?).map .char)
  | _ :: _ :: _ => .undef
  | _ => .panic

/-- Models `Substring::execute` (`substring.rs` 40-52): slices panic. -/
def callSubstring : List (Val F) → Outcome (Val F)
  | [.string s, .int .usize i] =>
    match sliceFrom s.toList i.toNat with
    | some r => .ok (.string (String.ofList r))
    | none => .panic
  | .string s :: .int .usize i :: .int .usize j :: _ =>
    match slice s.toList i.toNat j.toNat with
    | some r => .ok (.string (String.ofList r))
    | none => .panic
  | _ => .panic

/-- Models `StringIndexOf::execute` (`string_index_of.rs` 31-42). -/
def callIndexOf : List (Val F) → Outcome (Val F)
  | [.string s, .string p] => ofOpt ((findFrom p.toList s.toList 0).map (fun i => .int .usize i))
  | _ => .panic

/-- Models `StringReplace::execute` (`string_replace.rs` 29-35). -/
def callReplace : List (Val F) → Outcome (Val F)
  | [.string s, .string p, .string r] => .ok (.string (String.ofList (replace s.toList p.toList r.toList)))
  | _ => .panic

/-- Models `StringUpper`, `StringLower` and `StringTrim` (`string_upper.rs`, `string_lower.rs`, `string_trim.rs` 29-35): only ASCII letters
change case. -/
def callMap (f : List Char → List Char) : List (Val F) → Outcome (Val F)
  | [.string s] => .ok (.string (String.ofList (f s.toList)))
  | _ => .panic

/-- Models the printing of an argument of `format` (`format.rs` 97-126). -/
def showVal : Val F → String
  | .int _ n => toString n
  | .float k x => L.show_ k x
  | .char c => String.ofList [c]
  | .bool b => toString b
  | .string s => s
  | .symbol s => s
  | .entity e => L.showEntity e

/-- Models the loop of `format` (`format.rs` 96-129): the pieces of the format string and the printed arguments in turns. -/
def interleave : List (List Char) → List (List Char) → List Char
  | a :: as, p :: ps => a ++ p ++ interleave as ps
  | _, _ => []

/-- Models `Format::execute_with_env` (`format.rs` 88-134): there must be one argument for each `{}`. -/
def callFormat : List (Val F) → Outcome (Val F)
  | .string f :: args =>
    match split f.toList ['{', '}'] with
    | p0 :: ps =>
      if args.length = ps.length then
        .ok (.string (String.ofList (p0 ++ interleave (args.map (fun v => (showVal L v).toList)) ps)))
      else .panic
    | [] => .panic
  | _ => .panic

/-- The functions registered by `ForeignFunctionRegistry::std` (`foreign_function.rs` 511-576), as far as they are modelled. -/
inductive Fn where
  | abs | floor | ceil | un (f : UnFn) | pow | bin (f : BinFn) | sign | max | min
  | concat | length | charAt | substring | format | upper | lower | indexOf | replace | trim | hash
deriving DecidableEq, Repr

/-- The method `name` of the functions. -/
def Fn.name : Fn → String
  | .abs => "abs" | .floor => "floor" | .ceil => "ceil"
  | .un .exp => "exp" | .un .exp2 => "exp2" | .un .log => "log" | .un .log2 => "log2" | .un .sin => "sin" | .un .cos => "cos"
  | .un .tan => "tan" | .un .asin => "asin" | .un .acos => "acos" | .un .atan => "atan"
  | .pow => "pow" | .bin .powf => "powf" | .bin .atan2 => "atan2" | .sign => "sign" | .max => "max" | .min => "min"
  | .concat => "string_concat" | .length => "string_length" | .charAt => "string_char_at" | .substring => "substring"
  | .format => "format" | .upper => "string_upper" | .lower => "string_lower" | .indexOf => "string_index_of"
  | .replace => "string_replace" | .trim => "string_trim" | .hash => "hash"

/-- The order of registration (`foreign_function.rs` 521-566). -/
def registered : List Fn :=
  [.abs, .floor, .ceil, .un .exp, .un .exp2, .un .log, .un .log2, .pow, .bin .powf, .un .sin, .un .cos, .un .tan, .un .asin, .un .acos,
    .un .atan, .bin .atan2, .sign, .max, .min, .concat, .length, .charAt, .substring, .format, .upper, .lower, .indexOf, .replace, .trim,
    .hash]

/-- Models `ForeignFunctionRegistry::get` (`foreign_function.rs` 598-600). -/
def lookup (name : String) : Option Fn := registered.find? (fun f => f.name == name)

/-- The method `execute_with_env` of the functions. -/
def Fn.call : Fn → List (Val F) → Outcome (Val F)
  | .abs => callAbs L
  | .floor => callRound L.floor
  | .ceil => callRound L.ceil
  | .un f => callUn L f
  | .pow => callPow
  | .bin f => callBin L f
  | .sign => callSign L
  | .max => callPick (fun a b => decide (b < a)) (fun a b => L.flt b a)
  | .min => callPick (fun a b => decide (a < b)) (fun a b => L.flt a b)
  | .concat => fun args => callConcat args []
  | .length => callLength
  | .charAt => callCharAt
  | .substring => callSubstring
  | .format => callFormat L
  | .upper => callMap (·.map Char.toUpper)
  | .lower => callMap (·.map Char.toLower)
  | .indexOf => callIndexOf
  | .replace => callReplace
  | .trim => callMap Foreign.trim
  | .hash => fun args => .ok (.int .u64 (L.hash args))

/-- Models the call of a function by its name (`environment.rs` 720-731): an unknown function gives nothing. -/
def stdCall (name : String) (args : List (Val F)) : Outcome (Val F) :=
  match lookup name with
  | some f => f.call L args
  | none => .undef

/-- A function of one generic argument that returns it. -/
def genericUn (t : TSet) : FunTy := ⟨[t], [.generic 0], [], none, .generic 0⟩

/-- A function of base types. -/
def simple (ts : List VTy) (r : VTy) : FunTy := ⟨[], ts.map (fun t => .set (.base t)), [], none, .base r⟩

/-- Models the types of the standard functions: the methods `generic_type_family`, `static_argument_type`, `optional_argument_type`,
`variable_argument_type` and `return_type` of the files above. -/
def Fn.ty : Fn → FunTy
  | .abs | .floor | .ceil | .sign => genericUn .numeric
  | .un _ => genericUn .float
  | .pow => ⟨[.integer], [.generic 0, .set (.base (.int .u32))], [], none, .generic 0⟩
  | .bin _ => ⟨[.float], [.generic 0, .generic 0], [], none, .generic 0⟩
  | .max | .min => ⟨[.numeric], [], [], some (.generic 0), .generic 0⟩
  | .concat => ⟨[], [], [], some (.set (.base .string)), .base .string⟩
  | .length => simple [.string] (.int .usize)
  | .charAt => simple [.string, .int .usize] .char
  | .substring => ⟨[], [.set (.base .string), .set (.base (.int .usize))], [.set (.base (.int .usize))], none, .base .string⟩
  | .format => ⟨[], [.set (.base .string)], [], some (.set .any), .base .string⟩
  | .upper | .lower | .trim => simple [.string] .string
  | .indexOf => simple [.string, .string] (.int .usize)
  | .replace => simple [.string, .string, .string] .string
  | .hash => ⟨[], [], [], some (.set .any), .base (.int .u64)⟩

/-! ## Foreign predicates on strings -/

/-- Models `StringCharsBFF::evaluate` (`foreign_predicates/string_chars.rs` 45-56). -/
def stringChars (s : List Char) : List (Nat × Char) := s.zipIdx.map (fun x => (x.2, x.1))

/-- Models `StringIndexBF::evaluate` (`string_index.rs` 44-53): the numbers below the number of bytes. -/
def stringIndex (s : List Char) : List Nat := List.range (byteLen s)

/-- Models `StringFindBBFF::evaluate` (`string_find.rs` 44-55): the end is the byte position of the start plus the number of *characters* of
the pattern. -/
def stringFind (s p : List Char) : List (Nat × Nat) := (matchIndices s p).map (fun i => (i, i + p.length))

/-- Models `StringSplitBBF::evaluate` (`string_split.rs` 43-52). -/
def stringSplit (s p : List Char) : List (List Char) := split s p

end Scallop.Foreign
