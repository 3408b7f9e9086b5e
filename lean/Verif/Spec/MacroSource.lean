import Verif.Model.MacroSource

/-!
# How tokens are written in a text
-/

namespace Scallop.Macro

/-- The column where the token is written: that of a closing delimiter is given by its end. -/
def Tok.start (t : Tok) : Nat := if t.back then t.col - 1 else t.col

/-- All characters have one byte. -/
def Tok.Ascii (t : Tok) : Prop := ∀ c ∈ t.text, c.utf8Size = 1

/-- The second token is written behind the first one. -/
def Tok.Before (p t : Tok) : Prop := p.line < t.line ∨ (p.line = t.line ∧ p.start + p.text.length ≤ t.start)

/-- The tokens are written one behind the other, each on one line. -/
def Laid : List Tok → Prop
  | [] => True
  | t :: ts => t.Ascii ∧ (t.back = true → 1 ≤ t.col) ∧ (∀ t' ∈ ts.head?, t.Before t') ∧ Laid ts

/-- No closing delimiter is behind a space or first on its line. -/
def Tight : List Tok → Prop
  | [] => True
  | t :: ts => (∀ t' ∈ ts.head?, t'.back = true → t.line = t'.line ∧ t.start + t.text.length = t'.start) ∧ Tight ts

/-- Line number `l` of the text, whose first line has the number `first`, has the characters `w` at column `c`. -/
def HasAt (first : Nat) (lines : List (List Char)) (l c : Nat) (w : List Char) : Prop :=
  first ≤ l ∧ ∃ a b, lines[l - first]? = some (a ++ (w ++ b)) ∧ a.length = c

end Scallop.Macro
