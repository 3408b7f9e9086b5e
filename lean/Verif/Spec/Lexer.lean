import Verif.Model.Lexer
import Verif.Spec.Grammar

/-!
# What a user expects of the text of a program
-/

namespace Scallop.Lexer

/-- The texts a regular expression stands for. -/
inductive Re.Matches : Re → List Char → Prop
  | eps : Matches .eps []
  | chr {p c} : p c = true → Matches (.chr p) [c]
  | seq {a b u v} : Matches a u → Matches b v → Matches (.seq a b) (u ++ v)
  | altL {a b u} : Matches a u → Matches (.alt a b) u
  | altR {a b u} : Matches b u → Matches (.alt a b) u
  | starNil {a} : Matches (.star a) []
  | starCons {a u v} : Matches a u → Matches (.star a) v → Matches (.star a) (u ++ v)

/-- A piece of text: blanks or a comment, which are skipped, or a token. -/
def IsSkip (w : List Char) : Prop := blanksRe.Matches w ∨ lineCommentRe.Matches w ∨ blockCommentRe.Matches w

/-- A symbol or keyword, or a text of one of the kinds that is no keyword. -/
inductive IsToken : Tok → Prop
  | sym {s} : s ∈ literals → IsToken ⟨.sym s, s.toList⟩
  | other {k r w} : (k, r) ∈ regexes → k ≠ .skip → r.Matches w → (∀ s ∈ literals, s.toList ≠ w) → IsToken ⟨k, w⟩

/-- A text is a piece of some kind. -/
def IsPiece (w : List Char) : Prop := IsSkip w ∨ ∃ k, IsToken ⟨k, w⟩

/-- `w` is the longest piece the text `w ++ rest` begins with. -/
def LongestPiece (w rest : List Char) : Prop :=
  w ≠ [] ∧ IsPiece w ∧ ∀ u v, w ++ rest = u ++ v → IsPiece u → u.length ≤ w.length

/-- The text is cut into the longest possible pieces, from left to right; `ts` are those that are tokens. -/
inductive Cut : List Char → List Tok → Prop
  | done : Cut [] []
  | skip {w rest ts} : LongestPiece w rest → IsSkip w → Cut rest ts → Cut (w ++ rest) ts
  | token {t rest ts} : LongestPiece t.text rest → IsToken t → Cut rest ts → Cut (t.text ++ rest) (t :: ts)

/-- A program as it is laid out: each token with the blanks and line ends that follow it. -/
abbrev Layout := List (Tok × List Char)

/-- Its text. -/
def Layout.chars : Layout → List Char
  | [] => []
  | (t, sep) :: l => t.text ++ sep ++ Layout.chars l

/-- Its tokens. -/
def Layout.toks (l : Layout) : List Tok := l.map Prod.fst

/-- Brackets, commas and semicolons, beside which no blanks are needed. -/
def Tok.IsPunct (t : Tok) : Prop := t.kind ∈ [Kind.sym "(", .sym ")", .sym "[", .sym "]", .sym "{", .sym "}", .sym ",", .sym ";"]

/-- Tokens, with blanks, line ends or nothing after each, and something where neither neighbour is a bracket,
comma or semicolon. -/
inductive Layout.Fits : Layout → Prop
  | nil : Fits []
  | last {t sep} : IsToken t → (∀ c ∈ sep, isBlank c = true) → Fits [(t, sep)]
  | cons {t sep t' sep' l} : IsToken t → (∀ c ∈ sep, isBlank c = true) → (sep ≠ [] ∨ t.IsPunct ∨ t'.IsPunct) →
      Fits ((t', sep') :: l) → Fits ((t, sep) :: (t', sep') :: l)

/-- A token that looks like a name: a name or a keyword made of letters. -/
def Tok.LooksLikeName (t : Tok) : Prop := nameRe.Matches t.text

/-- The tokens go on with `, name, name … >` (or `>=`). -/
inductive ClosesAngle : List Tok → Prop
  | gt {ts} : ClosesAngle (⟨.sym ">", ['>']⟩ :: ts)
  | geq {ts} : ClosesAngle (⟨.sym ">=", ['>', '=']⟩ :: ts)
  | comma {t ts} : t.LooksLikeName → ClosesAngle ts → ClosesAngle (⟨.sym ",", [',']⟩ :: t :: ts)

/-- The tokens begin with `name < name, name … >`, which looks like the name of a specialized predicate. -/
inductive LooksSpecialized : List Tok → Prop
  | mk {t t' ts} : t.LooksLikeName → t'.LooksLikeName → ClosesAngle ts →
      LooksSpecialized (t :: ⟨.sym "<", ['<']⟩ :: t' :: ts)

/-- Nowhere in the tokens is there `name < name, name … >`. -/
def NoAngles (ts : List Tok) : Prop := ∀ us vs, ts = us ++ vs → ¬ LooksSpecialized vs

/-- One blank after every token. -/
def spaced (ts : List Tok) : List Char := Layout.chars (ts.map fun t => (t, [' ']))

/-- How the symbols and keywords of expressions are written. -/
def symText : Syn.Sym → String
  | .lpar => "(" | .rpar => ")" | .comma => "," | .quest => "?" | .colon => ":" | .if_ => "if" | .then_ => "then"
  | .else_ => "else" | .as_ => "as" | .dollar => "$" | .new_ => "new" | .wild => "_" | .plus => "+" | .minus => "-"
  | .star => "*" | .slash => "/" | .percent => "%" | .bang => "!" | .andand => "&&" | .oror => "||" | .caret => "^"
  | .eqeq => "==" | .neq => "!=" | .lt => "<" | .leq => "<=" | .gt => ">" | .geq => ">="

/-- Which token of the grammar of expressions a piece of text is. -/
inductive Stands : Tok → Syn.Tok → Prop
  | sym (s) : Stands ⟨.sym (symText s), (symText s).toList⟩ (.sym s)
  | name (n : String) : Stands ⟨.name, n.toList⟩ (.name n)
  | lit {k} (c : String) : k ∈ [Kind.int, .float, .string, .triple, .symbol, .dateTime, .duration, .char] →
      Stands ⟨k, c.toList⟩ (.lit c)
  | bool {c : String} : c ∈ ["true", "false"] → Stands ⟨.sym c, c.toList⟩ (.lit c)
  | ty {t : String} : t ∈ ["i8", "i16", "i32", "i64", "i128", "isize", "u8", "u16", "u32", "u64", "u128", "usize", "f32", "f64",
      "char", "bool", "&str", "String", "Symbol", "DateTime", "Duration", "Entity", "Tensor"] → Stands ⟨.sym t, t.toList⟩ (.ty t)

/-- The same for a whole text. -/
inductive StandAll : List Tok → List Syn.Tok → Prop
  | nil : StandAll [] []
  | cons {u us t ts} : Stands u t → StandAll us ts → StandAll (u :: us) (t :: ts)

/-- The symbols and keywords of the language. -/
def symbols : List String :=
  -- punctuation
  ["(", ")", "[", "]", "{", "}", ";", ":", ",", "|", ".", "=", ":-", ":=", "<:", "::", "$", "->", "@", "..", "..="] ++
  -- connectives of formulas
  ["/\\", "\\/", "~", "=>", "∃", "∀", "and", "or", "not", "implies", "where", "exists", "forall", "in", "case", "is"] ++
  -- operators of expressions
  ["&&", "||", "^", "==", "!=", "<", ">", ">=", "<=", "+", "-", "*", "/", "%", "!", "as", "?", "if", "then", "else", "new"] ++
  -- types
  ["i8", "i16", "i32", "i64", "i128", "isize", "u8", "u16", "u32", "u64", "u128", "usize", "f32", "f64", "char", "bool", "&str",
   "String", "Symbol", "DateTime", "Duration", "Entity", "Tensor"] ++
  -- constants, the wildcard and declarations
  ["true", "false", "_", "import", "extern", "type", "const", "relation", "rel", "query", "bound", "free"]

/-- A letter, and then letters, digits and underscores. -/
inductive IsName : List Char → Prop
  | mk {c : Char} {l : List Char} : c.isAlpha = true → (∀ d ∈ l, d.isAlphanum = true ∨ d = '_') → IsName (c :: l)

/-- Names, with commas between them, and `>`: what follows the first name in a specialized name. -/
inductive NamesGt : List Char → Prop
  | gt {s} : (∀ c ∈ s, isSpace c = true) → NamesGt (s ++ ['>'])
  | comma {s s' n u} : (∀ c ∈ s, isSpace c = true) → (∀ c ∈ s', isSpace c = true) → IsName n → NamesGt u →
      NamesGt (s ++ ',' :: (s' ++ (n ++ u)))

/-- At least one digit. -/
def IsDigits (l : List Char) : Prop := l ≠ [] ∧ ∀ c ∈ l, c.isDigit = true

/-- A minus sign or nothing. -/
def IsSign (l : List Char) : Prop := l = [] ∨ l = ['-']

/-- The inside of a string in one pair of quotes: a quote only after a backslash, which takes the next character of the
line with it. -/
inductive InString : List Char → Prop
  | nil : InString []
  | char {c l} : c ≠ '"' → c ≠ '\\' → InString l → InString (c :: l)
  | esc {c l} : c ≠ '\n' → InString l → InString ('\\' :: c :: l)

/-- The inside of a string in three pairs of quotes: at most two quotes in a row. -/
inductive InTriple : List Char → Prop
  | nil : InTriple []
  | char {c l} : c ≠ '"' → c ≠ '\\' → InTriple l → InTriple (c :: l)
  | esc {c l} : c ≠ '\n' → InTriple l → InTriple ('\\' :: c :: l)
  | quote {c l} : c ≠ '"' → InTriple l → InTriple ('"' :: c :: l)
  | quotes {c l} : c ≠ '"' → InTriple l → InTriple ('"' :: '"' :: c :: l)

/-- What the tokens of each kind look like. -/
inductive Shape : Kind → List Char → Prop
  | sym {s} : s ∈ symbols → Shape (.sym s) s.toList
  | name {w} : IsName w → (∀ s ∈ symbols, s.toList ≠ w) → Shape .name w
  | specialized {n s s' n' u} : IsName n → (∀ c ∈ s, isSpace c = true) → (∀ c ∈ s', isSpace c = true) → IsName n' →
      NamesGt u → Shape .specialized (n ++ (s ++ '<' :: (s' ++ (n' ++ u))))
  | int {sg ds} : IsSign sg → IsDigits ds → Shape .int (sg ++ ds)
  | float {sg ds fs} : IsSign sg → IsDigits ds → IsDigits fs → Shape .float (sg ++ ds ++ '.' :: fs)
  | floatExp {sg ds fs sg' es} : IsSign sg → IsDigits ds → IsDigits fs → IsSign sg' → IsDigits es →
      Shape .float (sg ++ ds ++ '.' :: (fs ++ 'e' :: (sg' ++ es)))
  | string {b} : InString b → Shape .string ('"' :: (b ++ ['"']))
  | triple {b} : InTriple b → Shape .triple ('"' :: '"' :: '"' :: (b ++ ['"', '"', '"']))
  | symbol {b} : '"' ∉ b → Shape .symbol ('s' :: '"' :: (b ++ ['"']))
  | dateTime {b} : '"' ∉ b → Shape .dateTime ('t' :: '"' :: (b ++ ['"']))
  | duration {b} : '"' ∉ b → Shape .duration ('d' :: '"' :: (b ++ ['"']))
  | char {b} : '\'' ∉ b → Shape .char ('\'' :: (b ++ ['\'']))

/-- What is skipped. -/
inductive SkipShape : List Char → Prop
  | blanks {w} : (∀ c ∈ w, c = ' ' ∨ c = '\n' ∨ c = '\r') → SkipShape w
  | line {p q} : '\n' ∉ p → '\r' ∉ p → (∀ c ∈ q, c = '\n' ∨ c = '\r') → SkipShape ('/' :: '/' :: (p ++ q))
  | block {b} : (∀ x y, b ≠ x ++ '*' :: '/' :: y) → SkipShape ('/' :: '*' :: (b ++ ['*', '/']))

/-- An argument of a specialized name with the white space before and after it. -/
structure Arg where
  before : List Char
  name : List Char
  after : List Char

/-- Names with white space around them. -/
def Arg.Ok (a : Arg) : Prop := (∀ c ∈ a.before, isSpace c = true) ∧ IsName a.name ∧ ∀ c ∈ a.after, isSpace c = true

/-- The text `a, b, …>`. -/
def argsText : Arg → List Arg → List Char
  | a, [] => a.before ++ (a.name ++ (a.after ++ ['>']))
  | a, b :: l => a.before ++ (a.name ++ (a.after ++ ',' :: argsText b l))

end Scallop.Lexer
