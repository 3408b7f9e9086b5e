import Mathlib.Data.List.Basic

/-!
# What literals denote
-/

namespace Scallop.Literal

/-- The character that stands for an escape. -/
def escapeOf : Char → Option Char
  | 't' => some '\t' | 'r' => some '\r' | 'n' => some '\n' | '0' => some '\x00' | '"' => some '"' | '\'' => some '\'' | '\\' => some '\\'
  | _ => none

/-- The usual reading of a string with escapes: from left to right, a backslash belongs to the character after it. Unknown escapes are kept. -/
def decode : List Char → List Char
  | '\\' :: c :: l => match escapeOf c with
    | some d => d :: decode l
    | none => '\\' :: c :: decode l
  | c :: l => c :: decode l
  | [] => []

/-- The characters that stand for control characters after a backslash. -/
def controls : List Char := ['t', 'r', 'n', '0']

/-- A backslash and one of `t`, `r`, `n`, `0` next to each other. -/
def HasPair (s : List Char) : Prop := ∃ c ∈ controls, ['\\', c] <:+: s

/-- The same for an escaped backslash of a literal that is read from left to right. -/
def EscapedPair : List Char → Prop
  | '\\' :: '\\' :: l => (∃ c ∈ controls, l.head? = some c) ∨ EscapedPair l
  | '\\' :: _ :: l => EscapedPair l
  | _ :: l => EscapedPair l
  | [] => False

end Scallop.Literal
