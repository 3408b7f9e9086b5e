import Mathlib.Data.List.Basic

/-!
# The text of a program written in a Rust macro

Models `token_stream_to_src_lines` and `populate_str_tokens` of `/repo/core/src/compiler/front/source/rust_macro.rs` (60-155), which make the text that
is compiled from the tokens that Rust gives to the macro `scallop!`.
-/

namespace Scallop.Macro

/-- Models `proc_macro2::TokenTree` with the places of spans: a group with its delimiters (`none` if it has none), the line and column of its start and of
its end, which is behind the closing delimiter; or any other token. Operators of several characters are one token, as after the loop in 129-143. Columns
count characters. -/
inductive Tree where
  | group (delims : Option (Char × Char)) (line col endLine endCol : Nat) (inner : List Tree)
  | leaf (text : List Char) (line col : Nat)

/-- Models a triple of `populate_str_tokens`: the text, the line and column, and whether the offset is `-1` (instead of `0`). -/
structure Tok where
  text : List Char
  line : Nat
  col : Nat
  back : Bool
deriving DecidableEq, Repr

mutual
/-- Models one round of `populate_str_tokens` (104-155). -/
def Tree.toks : Tree → List Tok
  | .leaf text l c => [⟨text, l, c, false⟩]
  | .group none l c l' c' inner => ⟨[], l, c, false⟩ :: (toksAll inner ++ [⟨[], l', c', false⟩])
  | .group (some (o, k)) l c l' c' inner => ⟨[o], l, c, false⟩ :: (toksAll inner ++ [⟨[k], l', c', true⟩])
/-- Models `populate_str_tokens` (104-155). -/
def toksAll : List Tree → List Tok
  | [] => []
  | t :: ts => t.toks ++ toksAll ts
end

/-- Models `String::len`: the number of bytes. -/
def len (l : List Char) : Nat := (l.map Char.utf8Size).sum

/-- The variables of the loop (73-76). -/
structure State where
  lines : List (List Char)
  line : List Char
  num : Nat

/-- Models the loop that moves to the line of the token (81-85), which is `k` lines away. -/
def State.advance : Nat → State → State
  | 0, s => s
  | k + 1, s => State.advance k ⟨s.lines ++ [s.line], [], s.num + 1⟩

/-- Models the spaces (88-93): the test uses the offset, the number does not. `none` is a panic: the subtraction of unsigned numbers. -/
def State.pad (s : State) (t : Tok) : Option (List Char) :=
  if (t.col : Int) + (if t.back then -1 else 0) > (len s.line : Int) then
    if t.col < len s.line then none else some (s.line ++ List.replicate (t.col - len s.line) ' ')
  else some s.line

/-- Models the body of the loop (79-97). -/
def State.step (s : State) (t : Tok) : Option State :=
  let s' := s.advance (t.line - s.num)
  (s'.pad t).map (fun l => ⟨s'.lines, l ++ t.text, s'.num⟩)

/-- Models the loop (79-97). -/
def run : List Tok → State → Option State
  | [], s => some s
  | t :: ts, s => (s.step t).bind (run ts)

/-- Models `token_stream_to_src_lines` (60-103): the number of the first line, and the lines. -/
def srcLines (toks : List Tok) : Option (Nat × List (List Char)) :=
  match toks with
  | [] => some (0, [])
  | t :: _ => (run toks ⟨[], [], t.line⟩).map (fun s => (t.line, s.lines ++ [s.line]))

end Scallop.Macro
