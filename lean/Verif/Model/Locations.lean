/-!
# Locations in the text of a program

`compiler/front/source/{utils,string,file,rust_macro}.rs`, `compiler/front/annotation.rs` and
`NodeLocation::report` in `compiler/front/ast/utils.rs`.  A text is a list of characters; offsets and columns
are numbers of bytes, as in the program.  Simplified: the colours of the report are left out.
-/

namespace Scallop.Loc

/-- The length of a text in bytes (`str::len`). -/
def blen : List Char → Nat
  | [] => 0
  | c :: l => c.utf8Size + blen l

/-- The places after the line ends (`s.match_indices('\n').map(|(i, _)| i + 1)`, `source/utils.rs` 2–4). -/
def afterEnds : Nat → List Char → List Nat
  | _, [] => []
  | n, c :: l => if c = '\n' then (n + 1) :: afterEnds (n + 1) l else afterEnds (n + c.utf8Size) l

/-- The beginning and length of every line from their beginnings (`source/utils.rs` 5–15). -/
def offsetLengths (total : Nat) : List Nat → List (Nat × Nat)
  | [] => []
  | [o] => [(o, total - o)]
  | o :: o' :: l => (o, o' - o - 1) :: offsetLengths total (o' :: l)

/-- `collect_line_offset_length` (`source/utils.rs` 1–16). -/
def rows (s : List Char) : List (Nat × Nat) := offsetLengths (blen s) (0 :: afterEnds 0 s)

/-- The loop of `row_col_of_offset` from row `i` on (`annotation.rs` 63–73). -/
def rowColFrom (offset : Nat) : Nat → List (Nat × Nat) → Nat × Nat
  | _, [] => (0, 0)
  | i, [(o, _)] => if o ≤ offset then (i, offset - o) else (0, 0)
  | i, (o, _) :: (o', n') :: r =>
    if o ≤ offset ∧ offset < o' then (i, offset - o) else rowColFrom offset (i + 1) ((o', n') :: r)

/-- `row_col_of_offset` (`annotation.rs` 63–74): row and column, both counted from 0. -/
def rowCol (rs : List (Nat × Nat)) (offset : Nat) : Nat × Nat := rowColFrom offset 0 rs

/-- The text after its first bytes; `none` is the panic for a place inside a character or after the end. -/
def dropBytes : Nat → List Char → Option (List Char)
  | 0, l => some l
  | _ + 1, [] => none
  | n + 1, c :: l => if c.utf8Size ≤ n + 1 then dropBytes (n + 1 - c.utf8Size) l else none

/-- The first bytes of a text; `none` as above. -/
def takeBytes : Nat → List Char → Option (List Char)
  | 0, _ => some []
  | _ + 1, [] => none
  | n + 1, c :: l => if c.utf8Size ≤ n + 1 then (takeBytes (n + 1 - c.utf8Size) l).map (c :: ·) else none

/-- `line` (`source/string.rs` 28–31, `source/file.rs` 51–54). -/
def line (s : List Char) (row : Nat) : Option (List Char) :=
  match (rows s)[row]? with
  | none => none
  | some (o, n) => match dropBytes o s with
    | none => none
    | some t => takeBytes n t

/-- `line_name` (`source/string.rs` 33–35). -/
def lineName (row : Nat) : List Char := (toString (row + 1)).toList

/-- Subtraction of unsigned numbers, which panics below 0. -/
def sub (a b : Nat) : Option Nat := if b ≤ a then some (a - b) else none

/-- `highlight_str` (`ast/utils.rs` 154–158). -/
def highlight (pre len : Nat) : List Char := List.replicate pre ' ' ++ List.replicate len '^'

/-- What is highlighted in one of the lines (`ast/utils.rs` 112–122). -/
def highlighted (start stop : Nat × Nat) (row : Nat) (l : List Char) : Option (Nat × Nat) :=
  if row = start.1 ∧ row = stop.1 then (sub stop.2 start.2).map ((start.2, ·))
  else if row = start.1 then (sub (blen l) start.2).map ((start.2, ·))
  else if row = stop.1 then some (0, stop.2)
  else some (0, 0)

/-- One of the lines: its number, its text and the marks under it (`ast/utils.rs` 110–125). -/
def lineInfo (s : List Char) (start stop : Nat × Nat) (row : Nat) : Option (List Char × List Char × List Char) :=
  match line s row with
  | none => none
  | some l => (highlighted start stop row l).map fun h => (lineName row, l, highlight h.1 h.2)

/-- The lines of the report (`ast/utils.rs` 108–127). -/
def infos (s : List Char) (start stop : Nat × Nat) : Nat → Nat → Option (List (List Char × List Char × List Char))
  | _, 0 => some []
  | row, n + 1 => match lineInfo s start stop row, infos s start stop (row + 1) n with
    | some i, some is => some (i :: is)
    | _, _ => none

/-- The printed lines (`ast/utils.rs` 135–147); the padding is at least as long as each of the numbers. -/
def printed (pad : Nat) : List (List Char × List Char × List Char) → List Char
  | [] => []
  | (n, l, h) :: r =>
    List.replicate (pad - n.length) ' ' ++ n ++ " | ".toList ++ l ++ ['\n'] ++
    List.replicate pad ' ' ++ " | ".toList ++ h ++ printed pad r

/-- The title of a report (`ast/utils.rs` 99–105). -/
def title : Option (List Char) → List Char
  | some n => " --> ".toList ++ n ++ ":\n".toList
  | none => []

/-- `report` (`ast/utils.rs` 87–151) of the place from `a` to `b` after the locations were annotated
(`annotation.rs` 77–84). -/
def report (name : Option (List Char)) (s : List Char) (a b : Nat) : Option (List Char) :=
  let start := rowCol (rows s) a
  let stop := rowCol (rows s) b
  match infos s start stop start.1 (stop.1 + 1 - start.1) with
  | none => none
  | some [] => none
  | some (i :: is) =>
    let pad := 2 + (i :: is).foldl (fun m x => max m x.1.length) 0
    some (title name ++ printed pad (i :: is))

/-- The offset and length of a row of a program in a Rust macro (`source/rust_macro.rs` 45–58). -/
def macroRow (first : Nat) (ls : List (List Char)) (row : Nat) : Option (Nat × Nat) :=
  if row < first then some (0, 0) else match ls[row - first]? with
    | none => none
    | some l => some ((ls.take (row - first)).foldl (fun n l => n + blen l + 1) 0, blen l)

/-- All rows (`annotation.rs` 57–61, `source/rust_macro.rs` 41–43). -/
def macroRows (first : Nat) (ls : List (List Char)) : Option (List (Nat × Nat)) :=
  (List.range (first + ls.length)).mapM (macroRow first ls)

/-- `source_lines.join("\n")` (`source/rust_macro.rs` 15). -/
def joined : List (List Char) → List Char
  | [] => []
  | [l] => l
  | l :: m :: ls => l ++ '\n' :: joined (m :: ls)

/-- `line` (`source/rust_macro.rs` 33–35). -/
def macroLine (first : Nat) (ls : List (List Char)) (row : Nat) : Option (List Char) :=
  if first ≤ row then ls[row - first]? else none

/-- `report` of a place in a line of the prompt (`source/repl.rs` 15–39): all of it is one line, whose name is the number of the input. -/
def promptReport (id : Nat) (s : List Char) (a b : Nat) : Option (List Char) :=
  let n := ("REPL:" ++ toString id).toList
  (highlighted (rowCol [(0, blen s)] a) (rowCol [(0, blen s)] b) 0 s).map fun h => printed (2 + n.length) [(n, s, highlight h.1 h.2)]

/-- `struct ParserError` (`parser.rs` 42–49) without the source. -/
structure SyntaxError where
  message : List Char
  span : Option (Nat × Nat)
  point : Option Nat

/-- The place of a syntax error (`parser.rs` 81–88). -/
def SyntaxError.place (e : SyntaxError) : Option (Nat × Nat) :=
  match e.span, e.point with
  | some x, _ => some x
  | none, some p => some (p, p + 1)
  | none, none => none

/-- `report` of a syntax error (`parser.rs` 76–110) in a source whose name, if it has one, is `name` (`compile.rs` 245–247), with `rep` its reports. -/
def SyntaxError.report (e : SyntaxError) (name : Option (List Char)) (rep : Nat → Nat → Option (List Char)) : Option (List Char) :=
  match name with
  | none => some ("Syntax error: ".toList ++ e.message)
  | some n => match e.place with
    | none => some ("Syntax error: ".toList ++ e.message)
    | some x => (rep x.1 x.2).map fun r => "Syntax error in ".toList ++ n ++ ": ".toList ++ e.message ++ ['\n'] ++ r

end Scallop.Loc
