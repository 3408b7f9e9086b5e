import Verif.Model.Locations

/-!
# Locations: what is meant

A place in a text is given by the complete lines before it and by what stands before it in its own line.
-/

namespace Scallop.Loc

/-- Complete lines, each with its line end. -/
def ended : List (List Char) → List Char
  | [] => []
  | l :: ls => l ++ '\n' :: ended ls

/-- Without line ends. -/
def OneLine (l : List Char) : Prop := '\n' ∉ l

/-- Every character takes one byte. -/
def Ascii (l : List Char) : Prop := ∀ c ∈ l, c.utf8Size = 1

/-- The expected report for a part of one line: the line with its number and below it a mark under every character of the part. -/
def expected (row : Nat) (pre part post : List Char) : List Char :=
  let number := (toString (row + 1)).toList
  "  ".toList ++ number ++ " | ".toList ++ pre ++ part ++ post ++ ['\n'] ++
  "  ".toList ++ number.map (fun _ => ' ') ++ " | ".toList ++ pre.map (fun _ => ' ') ++ part.map (fun _ => '^')

end Scallop.Loc
