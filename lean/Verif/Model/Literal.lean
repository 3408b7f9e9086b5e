import Mathlib.Data.List.Basic

/-!
# Literals

Models the literals of the grammar, `/repo/core/src/compiler/front/grammar.lalrpop`: the regular expressions of the lexer (118-127) and the values the parser makes of
the text (970-1050), and the check of characters `/repo/core/src/compiler/front/analyzers/character_literal.rs`. Text is a list of characters. Not modelled:
floating point numbers, dates and durations, and how the lexer chooses between overlapping tokens.
-/

namespace Scallop.Literal

/-- Models `str::replace` for a pattern of two characters and a single new one: from left to right, occurrences do not overlap. -/
def replace2 (a b c : Char) : List Char → List Char
  | x :: y :: l => if x = a ∧ y = b then c :: replace2 a b c l else x :: replace2 a b c (y :: l)
  | [x] => [x]
  | [] => []

/-- The value of a string between its quotes (`grammar.lalrpop` 1002-1027, the same for one and for three quotes). -/
def unescape (s : List Char) : List Char :=
  replace2 '\\' '\\' '\\' (replace2 '\\' '\'' '\'' (replace2 '\\' '"' '"' (replace2 '\\' '0' '\x00' (replace2 '\\' 'n' '\n' (replace2 '\\' 'r' '\r' (replace2 '\\' 't' '\t' s))))))

/-- The regular expression `([^"\\]|\\.)*` for the inside of a string (`grammar.lalrpop` 122); the dot is no line break. -/
def stringBody : List Char → Bool
  | [] => true
  | '\\' :: c :: l => c ≠ '\n' && stringBody l
  | '\\' :: [] => false
  | c :: l => c ≠ '"' && stringBody l

/-- The inside of a string with three quotes, `([^"\\]|\\.|"[^"]|""[^"])*` (`grammar.lalrpop` 123). -/
inductive TripleBody : List Char → Prop
  | nil : TripleBody []
  | char (c l) : c ≠ '"' → c ≠ '\\' → TripleBody l → TripleBody (c :: l)
  | esc (c l) : c ≠ '\n' → TripleBody l → TripleBody ('\\' :: c :: l)
  | quote (c l) : c ≠ '"' → TripleBody l → TripleBody ('"' :: c :: l)
  | quotes (c l) : c ≠ '"' → TripleBody l → TripleBody ('"' :: '"' :: c :: l)

/-- A string literal (`grammar.lalrpop` 122-123, 1000-1027): its text and its value; `s[1..s.len() - 1]` and `s[3..s.len() - 3]` are the insides. -/
inductive StringLit : List Char → List Char → Prop
  | single (b) : stringBody b = true → StringLit ('"' :: b ++ ['"']) (unescape b)
  | triple (b) : TripleBody b → StringLit ("\"\"\"".toList ++ b ++ "\"\"\"".toList) (unescape b)

/-- A symbol literal `s"[^"]*"` (`grammar.lalrpop` 124, 1029-1034): its value is what stands between the quotes. -/
inductive SymbolLit : List Char → List Char → Prop
  | mk (b) : '"' ∉ b → SymbolLit ('s' :: '"' :: b ++ ['"']) b

/-- The value of a character literal between its quotes (`grammar.lalrpop` 983-990). -/
def unescapeChar (s : List Char) : List Char :=
  replace2 '\\' '\\' '\\' (replace2 '\\' '\'' '\'' (replace2 '\\' 'n' '\n' (replace2 '\\' 't' '\t' s)))

/-- Models `CharacterLiteralAnalysis` (`character_literal.rs` 19-33): `String::len` counts bytes; `some c` if there is no error, then `c` is `parse_char` (`ast/constant.rs` 37-40). -/
def checkChar (s : List Char) : Option Char :=
  if (s.map Char.utf8Size).sum = 1 then s.head? else none

/-- A character literal `'[^']*'` (`grammar.lalrpop` 127): its text and the character, if it is accepted. -/
inductive CharLit : List Char → Option Char → Prop
  | mk (b) : '\'' ∉ b → CharLit ('\'' :: b ++ ['\'']) (checkChar (unescapeChar b))

/-- The number that digits denote (`i64::from_str`). -/
def digits (l : List Char) : Nat := l.foldl (fun n c => 10 * n + (c.toNat - '0'.toNat)) 0

/-- Models `i64::from_str(text).unwrap()` on the tokens `-?[0-9]+` (`grammar.lalrpop` 973, 120); `none` is a panic. -/
def parseI64 (neg : Bool) (ds : List Char) : Option Int :=
  let n : Int := if neg then - (digits ds : Int) else digits ds
  if -2 ^ 63 ≤ n ∧ n < 2 ^ 63 then some n else none

/-- An integer literal (`grammar.lalrpop` 120, 973): its text and its value. -/
inductive IntLit : List Char → Option Int → Prop
  | pos (ds) : ds ≠ [] → (∀ c ∈ ds, c.isDigit) → IntLit ds (parseI64 false ds)
  | neg (ds) : ds ≠ [] → (∀ c ∈ ds, c.isDigit) → IntLit ('-' :: ds) (parseI64 true ds)

end Scallop.Literal
