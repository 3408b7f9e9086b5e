/-!
# Splitting the text of a program into tokens

The `match` block of `compiler/front/grammar.lalrpop` (7–133) and the lexer that the parser generator
`lalrpop` (0.19.9, feature `lexer`) makes of it: at each place all the regular expressions are tried, the
longest match is taken, among equally long ones the one that comes last in the generated table, and in
that table the literals come after the regular expressions because they have the higher precedence.

Simplified: `Regex::find` prefers the first alternative to the longest match; for the expressions used here
both are the same, because each of them can be read in only one way from left to right.  Locations are
left out.
-/

namespace Scallop.Lexer

/-- Regular expressions, as used in `grammar.lalrpop` 118–132. -/
inductive Re where
  | fail
  | eps
  | chr (p : Char → Bool)
  | seq (a b : Re)
  | alt (a b : Re)
  | star (a : Re)

namespace Re

/-- Matches the empty text. -/
def nullable : Re → Bool
  | .fail => false
  | .eps => true
  | .chr _ => false
  | .seq a b => a.nullable && b.nullable
  | .alt a b => a.nullable || b.nullable
  | .star _ => true

/-- A sequence, simplified. -/
def mkSeq : Re → Re → Re
  | .fail, _ => .fail
  | .eps, b => b
  | a, b => .seq a b

/-- A choice, simplified. -/
def mkAlt : Re → Re → Re
  | .fail, b => b
  | a, .fail => a
  | a, b => .alt a b

/-- What remains to be matched after one character: the expressions are run as automata (`regex`). -/
def deriv (c : Char) : Re → Re
  | .fail => .fail
  | .eps => .fail
  | .chr p => if p c then .eps else .fail
  | .seq a b => if a.nullable then mkAlt (mkSeq (a.deriv c) b) (b.deriv c) else mkSeq (a.deriv c) b
  | .alt a b => mkAlt (a.deriv c) (b.deriv c)
  | .star a => mkSeq (a.deriv c) (.star a)

/-- The length of the longest beginning of the text that matches: `regex.find(text)` for an expression that
is anchored at the beginning. -/
def longest (r : Re) : List Char → Option Nat
  | [] => if r.nullable then some 0 else none
  | c :: l => match (r.deriv c).longest l with
    | some n => some (n + 1)
    | none => if r.nullable then some 0 else none

/-- One given character. -/
def ch (c : Char) : Re := .chr (· == c)

/-- A given text. -/
def text : List Char → Re
  | [] => .eps
  | [c] => ch c
  | c :: l => .seq (ch c) (text l)

/-- `a+`. -/
def plus (a : Re) : Re := .seq a (.star a)

/-- `a?`. -/
def opt (a : Re) : Re := .alt a .eps

end Re

open Re

/-- `[a-zA-Z]`. -/
def isAlpha (c : Char) : Bool := ('a' ≤ c && c ≤ 'z') || ('A' ≤ c && c ≤ 'Z')

/-- `[0-9]`. -/
def isDigit (c : Char) : Bool := '0' ≤ c && c ≤ '9'

/-- `[a-zA-Z_0-9]`. -/
def isIdent (c : Char) : Bool := isAlpha c || c == '_' || isDigit c

/-- `\s`: the white space of Unicode. -/
def isSpace (c : Char) : Bool :=
  (0x9 ≤ c.toNat && c.toNat ≤ 0xD) || c.toNat == 0x20 || c.toNat == 0x85 || c.toNat == 0xA0 ||
  c.toNat == 0x1680 || (0x2000 ≤ c.toNat && c.toNat ≤ 0x200A) || c.toNat == 0x2028 || c.toNat == 0x2029 ||
  c.toNat == 0x202F || c.toNat == 0x205F || c.toNat == 0x3000

/-- `[ \n\r]`. -/
def isBlank (c : Char) : Bool := c == ' ' || c == '\n' || c == '\r'

/-- `[a-zA-Z][a-zA-Z_0-9]*` (`grammar.lalrpop` 118). -/
def nameRe : Re := .seq (.chr isAlpha) (.star (.chr isIdent))

/-- `\s*`. -/
def spaces : Re := .star (.chr isSpace)

/-- `([a-zA-Z][a-zA-Z_0-9]*)\s*<\s*([a-zA-Z][a-zA-Z_0-9]*)(\s*,\s*([a-zA-Z][a-zA-Z_0-9]*))*\s*>`
(`grammar.lalrpop` 119). -/
def specializedRe : Re :=
  .seq nameRe (.seq spaces (.seq (ch '<') (.seq spaces (.seq nameRe
    (.seq (.star (.seq spaces (.seq (ch ',') (.seq spaces nameRe)))) (.seq spaces (ch '>')))))))

/-- `-?[0-9]+` (`grammar.lalrpop` 120). -/
def intRe : Re := .seq (opt (ch '-')) (plus (.chr isDigit))

/-- `-?[0-9]+(\.[0-9]+)(e-?[0-9]+)?` (`grammar.lalrpop` 121). -/
def floatRe : Re :=
  .seq (opt (ch '-')) (.seq (plus (.chr isDigit)) (.seq (.seq (ch '.') (plus (.chr isDigit)))
    (opt (.seq (ch 'e') (.seq (opt (ch '-')) (plus (.chr isDigit)))))))

/-- `"((?:[^"\\]|\\.)*)"` (`grammar.lalrpop` 122). -/
def stringRe : Re :=
  .seq (ch '"') (.seq (.star (.alt (.chr fun c => c != '"' && c != '\\') (.seq (ch '\\') (.chr (· != '\n'))))) (ch '"'))

/-- `"""(?:[^"\\]|\\.|"[^"]|""[^"])*"""` (`grammar.lalrpop` 123). -/
def tripleRe : Re :=
  .seq (ch '"') (.seq (ch '"') (.seq (ch '"')
    (.seq (.star (.alt (.chr fun c => c != '"' && c != '\\') (.alt (.seq (ch '\\') (.chr (· != '\n')))
      (.alt (.seq (ch '"') (.chr (· != '"'))) (.seq (ch '"') (.seq (ch '"') (.chr (· != '"'))))))))
    (.seq (ch '"') (.seq (ch '"') (ch '"'))))))

/-- `s"[^"]*"`, `t"[^"]*"`, `d"[^"]*"` (`grammar.lalrpop` 124–126). -/
def markedRe (m : Char) : Re := .seq (ch m) (.seq (ch '"') (.seq (.star (.chr (· != '"'))) (ch '"')))

/-- `'[^']*'` (`grammar.lalrpop` 127). -/
def charRe : Re := .seq (ch '\'') (.seq (.star (.chr (· != '\''))) (ch '\''))

/-- `[ \n\r]*` (`grammar.lalrpop` 130). -/
def blanksRe : Re := .star (.chr isBlank)

/-- `//[^\n\r]*[\n\r]*` (`grammar.lalrpop` 131). -/
def lineCommentRe : Re :=
  .seq (ch '/') (.seq (ch '/') (.seq (.star (.chr fun c => c != '\n' && c != '\r'))
    (.star (.chr fun c => c == '\n' || c == '\r'))))

/-- `/\*[^*]*\*+(?:[^/*][^*]*\*+)*/` (`grammar.lalrpop` 132). -/
def blockCommentRe : Re :=
  .seq (ch '/') (.seq (ch '*') (.seq (.star (.chr (· != '*'))) (.seq (plus (ch '*'))
    (.seq (.star (.seq (.chr fun c => c != '/' && c != '*') (.seq (.star (.chr (· != '*'))) (plus (ch '*')))))
      (ch '/')))))

/-- The kinds of tokens (`grammar.lalrpop` 7–132); what is skipped has the kind `skip`. -/
inductive Kind
  | sym (s : String)
  | name | specialized | int | float | string | triple | symbol | dateTime | duration | char | skip
  deriving DecidableEq, Repr

/-- A token: its kind and its text. -/
structure Tok where
  kind : Kind
  text : List Char
  deriving DecidableEq, Repr

/-- The literals (`grammar.lalrpop` 8–115). -/
def literals : List String :=
  ["=", ":-", ":=", "(", ")", "[", "]", "{", "}", ";", ":", ",", "|", ".", "<:", "::", "$", "->", "@", "..", "..=",
   "/\\", "\\/", "~", "=>", "∃", "∀",
   "&&", "||", "^", "==", "!=", "<", ">", ">=", "<=", "+", "-", "*", "/", "%", "!", "as", "?",
   "bound", "free", "and", "or", "not", "implies", "where", "if", "then", "else", "exists", "forall", "in", "case",
   "is", "new",
   "i8", "i16", "i32", "i64", "i128", "isize", "u8", "u16", "u32", "u64", "u128", "usize", "f32", "f64", "char",
   "bool", "&str", "String", "Symbol", "DateTime", "Duration", "Entity", "Tensor",
   "true", "false",
   "_",
   "import", "extern", "type", "const", "relation", "rel", "query"]

/-- The regular expressions (`grammar.lalrpop` 118–132). -/
def regexes : List (Kind × Re) :=
  [(.name, nameRe), (.specialized, specializedRe), (.int, intRe), (.float, floatRe), (.string, stringRe),
   (.triple, tripleRe), (.symbol, markedRe 's'), (.dateTime, markedRe 't'), (.duration, markedRe 'd'),
   (.char, charRe), (.skip, blanksRe), (.skip, lineCommentRe), (.skip, blockCommentRe)]

/-- The generated table: literals have the higher precedence and come last. -/
def table : List (Kind × Re) := regexes ++ literals.map fun s => (.sym s, Re.text s.toList)

/-- One entry of the table is tried (`lalrpop_util::lexer::Matcher::next`): `if len >= longest_match`. -/
def tryEntry (text : List Char) (cur : Nat × Kind) (e : Kind × Re) : Nat × Kind :=
  match e.2.longest text with
  | some n => if cur.1 ≤ n then (n, e.1) else cur
  | none => cur

/-- The longest match at the beginning of the text and its kind. -/
def best (text : List Char) : Nat × Kind := table.foldl (tryEntry text) (0, .skip)

/-- `Matcher::next`, repeated; `none` is the error for an invalid token.  The bound is the length of the text,
which suffices because every step consumes something: only the expression for blanks matches the
empty text, and then there is an error. -/
def lexN : Nat → List Char → Option (List Tok)
  | _, [] => some []
  | 0, _ :: _ => none
  | f + 1, c :: l => match best (c :: l) with
    | (0, _) => none
    | (n + 1, k) => match lexN f (l.drop n) with
      | none => none
      | some ts => if k = .skip then some ts else some (⟨k, (c :: l).take (n + 1)⟩ :: ts)

/-- The tokens of a text. -/
def lex (text : List Char) : Option (List Tok) := lexN text.length text

/-- `str::trim_start`. -/
def trimStart (w : List Char) : List Char := w.dropWhile isSpace

/-- `str::trim_end`. -/
def trimEnd (w : List Char) : List Char := (w.reverse.dropWhile isSpace).reverse

/-- The parts between the commas (`match_indices(",")`, `grammar.lalrpop` 949–952). -/
def commaParts : List Char → List (List Char)
  | [] => [[]]
  | c :: l => if c = ',' then [] :: commaParts l else match commaParts l with
    | [] => [[c]]
    | p :: ps => (c :: p) :: ps

/-- `SpecializedPredicate` (`grammar.lalrpop` 941–967): the name before the first `<` and the arguments after it; the
last part ends one character before the end of the text.  `none` is the panic of `find("<").unwrap()`.
Simplified: locations are left out. -/
def readSpecialized (s : List Char) : Option (List Char × List (List Char)) :=
  match s.dropWhile (· != '<') with
  | [] => none
  | _ :: rest => some (trimEnd (s.takeWhile (· != '<')), (commaParts rest.dropLast).map fun p => trimEnd (trimStart p))

end Scallop.Lexer
