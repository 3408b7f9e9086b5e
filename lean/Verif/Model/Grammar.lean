/-!
# The grammar of expressions and of formulas

`compiler/front/grammar.lalrpop`, after the text has been split into tokens.  The parser generator
refuses ambiguous grammars it cannot decide with one token of lookahead and otherwise accepts exactly
the token sequences the productions derive, so the model of the generated parser is the relation "this
sequence of tokens is derived by this nonterminal, with this tree as result".

Simplified: source locations are left out; literals and type keywords are tokens that carry their
text; the atomic formulas (atoms, constraints, aggregations, ranges, cases) are single tokens in the
part about formulas; destructing patterns (only allowed in the arguments of atoms) and the separate
expressions of tags are left out.
-/

namespace Scallop.Syn

/-- The symbols and keywords used by expressions (`grammar.lalrpop` 7–95). -/
inductive Sym
  | lpar | rpar | comma | quest | colon | if_ | then_ | else_ | as_ | dollar | new_ | wild
  | plus | minus | star | slash | percent | bang
  | andand | oror | caret | eqeq | neq | lt | leq | gt | geq
  deriving DecidableEq, Repr

/-- Tokens (`grammar.lalrpop` 7–133): symbols, names, literals and type keywords. -/
inductive Tok
  | sym (s : Sym)
  | name (n : String)
  | lit (c : String)
  | ty (t : String)
  deriving DecidableEq, Repr

/-- Binary operators (`common/binary_op.rs` 5–21; `_BinaryOp::and()` … in `ast/expr.rs`). -/
inductive BinOp
  | and | or | xor | eq | neq | lt | leq | gt | geq | add | sub | mul | div | mod
  deriving DecidableEq, Repr

/-- Unary operators other than casts (`ast/expr.rs` 285–293). -/
inductive UnOp
  | pos | neg | not
  deriving DecidableEq, Repr

/-- Types after `as` (`grammar.lalrpop` 173–200): a keyword or a name. -/
inductive Ty
  | kw (t : String)
  | named (n : String)
  deriving DecidableEq, Repr

/-- Expressions (`ast/expr.rs` 6–16). -/
inductive Ast
  | lit (c : String)
  | var (n : String)
  | wild
  | bin (op : BinOp) (a b : Ast)
  | un (op : UnOp) (a : Ast)
  | cast (a : Ast) (t : Ty)
  | ite (c t e : Ast)
  | call (f : String) (args : List Ast)
  | new (f : String) (args : List Ast)
  deriving Repr

/-- `AndOrBinaryOp` (`grammar.lalrpop` 704–709). -/
def andOrOp : Sym → Option BinOp
  | .andand => some .and
  | .oror => some .or
  | .caret => some .xor
  | _ => none

/-- `ComparisonBinaryOp` (`grammar.lalrpop` 722–730). -/
def cmpOp : Sym → Option BinOp
  | .eqeq => some .eq
  | .neq => some .neq
  | .lt => some .lt
  | .leq => some .leq
  | .gt => some .gt
  | .geq => some .geq
  | _ => none

/-- `AddSubBinaryOp` (`grammar.lalrpop` 743–747). -/
def addOp : Sym → Option BinOp
  | .plus => some .add
  | .minus => some .sub
  | _ => none

/-- `MulDivModBinaryOp` (`grammar.lalrpop` 759–764). -/
def mulOp : Sym → Option BinOp
  | .star => some .mul
  | .slash => some .div
  | .percent => some .mod
  | _ => none

/-- `UnaryOp` (`grammar.lalrpop` 777–782). -/
def unOp : Sym → Option UnOp
  | .plus => some .pos
  | .minus => some .neg
  | .bang => some .not
  | _ => none

/-- `Type` (`grammar.lalrpop` 173–200). -/
def tyTok : Tok → Option Ty
  | .ty t => some (.kw t)
  | .name n => some (.named n)
  | _ => none

/-- The nonterminals of expressions.  A name with `B` is the production written with an underscore in
the grammar: the expressions whose outermost operator is of that kind. -/
inductive NT
  | iteB | ite | andOrB | andOr | cmpB | cmp | addB | add | mulB | mul | unaryB | unary | complex | unit
  | args
  deriving DecidableEq, Repr

/-- What a nonterminal produces: an expression or a list of arguments. -/
inductive Out
  | one (e : Ast)
  | many (es : List Ast)

/-- The productions of expressions (`grammar.lalrpop` 689–838, `Separated` 1047–1049). -/
inductive D : NT → List Tok → Out → Prop
  /- `IfThenElseExpr`, 691–702 -/
  | ifThenElse {c t e a b d} : D .andOr c (.one a) → D .ite t (.one b) → D .ite e (.one d) →
      D .iteB (.sym .if_ :: c ++ .sym .then_ :: t ++ .sym .else_ :: e) (.one (.ite a b d))
  | question {c t e a b d} : D .andOr c (.one a) → D .ite t (.one b) → D .ite e (.one d) →
      D .iteB (c ++ .sym .quest :: t ++ .sym .colon :: e) (.one (.ite a b d))
  | iteOfB {t o} : D .iteB t o → D .ite t o
  | iteOf {t o} : D .andOr t o → D .ite t o
  /- `AndOrExpr`, 711–720 -/
  | andOr {l s o r a b} : D .andOr l (.one a) → andOrOp s = some o → D .cmp r (.one b) →
      D .andOrB (l ++ .sym s :: r) (.one (.bin o a b))
  | andOrOfB {t o} : D .andOrB t o → D .andOr t o
  | andOrOf {t o} : D .cmp t o → D .andOr t o
  /- `ComparisonExpr`, 732–741 -/
  | cmp {l s o r a b} : D .add l (.one a) → cmpOp s = some o → D .add r (.one b) →
      D .cmpB (l ++ .sym s :: r) (.one (.bin o a b))
  | cmpOfB {t o} : D .cmpB t o → D .cmp t o
  | cmpOf {t o} : D .add t o → D .cmp t o
  /- `AddSubExpr`, 749–757 -/
  | add {l s o r a b} : D .add l (.one a) → addOp s = some o → D .mul r (.one b) →
      D .addB (l ++ .sym s :: r) (.one (.bin o a b))
  | addOfB {t o} : D .addB t o → D .add t o
  | addOf {t o} : D .mul t o → D .add t o
  /- `MulDivModExpr`, 766–775 -/
  | mul {l s o r a b} : D .mul l (.one a) → mulOp s = some o → D .unary r (.one b) →
      D .mulB (l ++ .sym s :: r) (.one (.bin o a b))
  | mulOfB {t o} : D .mulB t o → D .mul t o
  | mulOf {t o} : D .unary t o → D .mul t o
  /- `UnaryExpr`, 784–796 -/
  | prefix {s o r a} : unOp s = some o → D .unit r (.one a) →
      D .unaryB (.sym s :: r) (.one (.un o a))
  | cast {l a k t} : D .unit l (.one a) → tyTok k = some t →
      D .unaryB (l ++ [.sym .as_, k]) (.one (.cast a t))
  | unaryOfB {t o} : D .unaryB t o → D .unary t o
  | unaryOf {t o} : D .unit t o → D .unary t o
  /- `ComplexExpr`, 798–805 -/
  | complexIte {t o} : D .iteB t o → D .complex t o
  | complexAndOr {t o} : D .andOrB t o → D .complex t o
  | complexCmp {t o} : D .cmpB t o → D .complex t o
  | complexAdd {t o} : D .addB t o → D .complex t o
  | complexMul {t o} : D .mulB t o → D .complex t o
  | complexUnary {t o} : D .unaryB t o → D .complex t o
  /- `UnitExpr`, 831–838; `CallExpr`, 812–817; `NewExpr`, 819–824 -/
  | paren {t o} : D .complex t o → D .unit (.sym .lpar :: t ++ [.sym .rpar]) o
  | wild : D .unit [.sym .wild] (.one .wild)
  | lit {c} : D .unit [.lit c] (.one (.lit c))
  | var {n} : D .unit [.name n] (.one (.var n))
  | call {f t es} : D .args t (.many es) →
      D .unit (.sym .dollar :: .name f :: .sym .lpar :: t ++ [.sym .rpar]) (.one (.call f es))
  | new {f t es} : D .args t (.many es) →
      D .unit (.sym .new_ :: .name f :: .sym .lpar :: t ++ [.sym .rpar]) (.one (.new f es))
  /- `Separated<Expr, ",">`: any number of expressions with a comma, perhaps one without -/
  | noArg : D .args [] (.many [])
  | lastArg {t e} : D .ite t (.one e) → D .args t (.many [e])
  | arg {t e ts es} : D .ite t (.one e) → D .args ts (.many es) →
      D .args (t ++ .sym .comma :: ts) (.many (e :: es))

/-- `Expr` (`grammar.lalrpop` 689): the tokens are read as this expression. -/
def Reads (ts : List Tok) (e : Ast) : Prop := D .ite ts (.one e)

/-- The token of a binary operator (`common/binary_op.rs` 23–42, `Display`). -/
def BinOp.sym : BinOp → Sym
  | .and => .andand
  | .or => .oror
  | .xor => .caret
  | .eq => .eqeq
  | .neq => .neq
  | .lt => .lt
  | .leq => .leq
  | .gt => .gt
  | .geq => .geq
  | .add => .plus
  | .sub => .minus
  | .mul => .star
  | .div => .slash
  | .mod => .percent

/-- The token of a unary operator (`pretty.rs` 832–841, `Display for UnaryOp`). -/
def UnOp.sym : UnOp → Sym
  | .pos => .plus
  | .neg => .minus
  | .not => .bang

/-- The token of a type (`ast/types.rs` 50–80, `Display for _Type`). -/
def Ty.tok : Ty → Tok
  | .kw t => .ty t
  | .named n => .name n

mutual
/-- `Display for Expr` (`pretty.rs` 781–851), as tokens: binary and unary expressions in parentheses,
conditional ones without. -/
def shown : Ast → List Tok
  | .lit c => [.lit c]
  | .var n => [.name n]
  | .wild => [.sym .wild]
  | .bin o a b => .sym .lpar :: shown a ++ .sym o.sym :: shown b ++ [.sym .rpar]
  | .un o a => .sym .lpar :: .sym o.sym :: shown a ++ [.sym .rpar]
  | .cast a t => .sym .lpar :: shown a ++ [.sym .as_, t.tok] ++ [.sym .rpar]
  | .ite c t e => .sym .if_ :: shown c ++ .sym .then_ :: shown t ++ .sym .else_ :: shown e
  | .call f es => .sym .dollar :: .name f :: .sym .lpar :: shownArgs es ++ [.sym .rpar]
  | .new f es => .sym .new_ :: .name f :: .sym .lpar :: shownArgs es ++ [.sym .rpar]

/-- Arguments joined by commas (`pretty.rs` 795–810). -/
def shownArgs : List Ast → List Tok
  | [] => []
  | [e] => shown e
  | e :: es => shown e ++ .sym .comma :: shownArgs es
end

/-! ### Formulas -/

/-- Tokens of formulas: the connectives (`grammar.lalrpop` 493, 507, 521, 534) and whole atomic
formulas; an atom may be negated, the other atomic formulas may not. -/
inductive FTok
  | lpar | rpar | comma | implies | or | and | not
  | atom (a : String)
  | other (f : String)
  deriving DecidableEq, Repr

/-- Formulas (`ast/formula.rs` 5–16). -/
inductive Fml
  | atom (a : String)
  | neg (a : String)
  | other (f : String)
  | conj (fs : List Fml)
  | disj (fs : List Fml)
  | implies (l r : Fml)
  deriving Repr

/-- The nonterminals of formulas; `List` ones are the parts `(S <E>)+` of `AtLeastTwoSeparatedStrict`. -/
inductive FNT
  | formula | comma | commaList | impliesB | implies | disjB | disjList | disj | conjB | conjList | conj
  | negB | annotated | complex | unit
  deriving DecidableEq, Repr

/-- What a nonterminal produces: a formula or a list of formulas. -/
inductive FOut
  | one (f : Fml)
  | many (fs : List Fml)

/-- The productions of formulas (`grammar.lalrpop` 479–553, 652–660, `AtLeastTwoSeparatedStrict`
1069–1071). -/
inductive FD : FNT → List FTok → FOut → Prop
  /- `ConjDisjFormula`, 481–484 -/
  | formulaComma {t o} : FD .comma t o → FD .formula t o
  | formulaOf {t o} : FD .implies t o → FD .formula t o
  /- `CommaConjunction`, 486–491 -/
  | comma {t f ts fs} : FD .annotated t (.one f) → FD .commaList ts (.many fs) →
      FD .comma (t ++ ts) (.one (.conj (f :: fs)))
  | commaLast {t f} : FD .annotated t (.one f) → FD .commaList (.comma :: t) (.many [f])
  | commaMore {t f ts fs} : FD .annotated t (.one f) → FD .commaList ts (.many fs) →
      FD .commaList (.comma :: t ++ ts) (.many (f :: fs))
  /- `Implies`, 495–505 -/
  | implies {l r a b} : FD .disj l (.one a) → FD .disj r (.one b) →
      FD .impliesB (l ++ .implies :: r) (.one (.implies a b))
  | impliesOfB {t o} : FD .impliesB t o → FD .implies t o
  | impliesOf {t o} : FD .disj t o → FD .implies t o
  /- `Disjunction`, 509–519 -/
  | disj {t f ts fs} : FD .conj t (.one f) → FD .disjList ts (.many fs) →
      FD .disjB (t ++ ts) (.one (.disj (f :: fs)))
  | disjLast {t f} : FD .conj t (.one f) → FD .disjList (.or :: t) (.many [f])
  | disjMore {t f ts fs} : FD .conj t (.one f) → FD .disjList ts (.many fs) →
      FD .disjList (.or :: t ++ ts) (.many (f :: fs))
  | disjOfB {t o} : FD .disjB t o → FD .disj t o
  | disjOf {t o} : FD .conj t o → FD .disj t o
  /- `Conjunction`, 523–533 -/
  | conj {t f ts fs} : FD .annotated t (.one f) → FD .conjList ts (.many fs) →
      FD .conjB (t ++ ts) (.one (.conj (f :: fs)))
  | conjLast {t f} : FD .annotated t (.one f) → FD .conjList (.and :: t) (.many [f])
  | conjMore {t f ts fs} : FD .annotated t (.one f) → FD .conjList ts (.many fs) →
      FD .conjList (.and :: t ++ ts) (.many (f :: fs))
  | conjOfB {t o} : FD .conjB t o → FD .conj t o
  | conjOf {t o} : FD .annotated t o → FD .conj t o
  /- `NegAtom`, 537–540; `AnnotatedAtomFormula`, 542–545 -/
  | neg {a} : FD .negB [.not, .atom a] (.one (.neg a))
  | annotatedNeg {t o} : FD .negB t o → FD .annotated t o
  | annotatedOf {t o} : FD .unit t o → FD .annotated t o
  /- `ComplexFormula`, 547–553 -/
  | complexComma {t o} : FD .comma t o → FD .complex t o
  | complexImplies {t o} : FD .impliesB t o → FD .complex t o
  | complexDisj {t o} : FD .disjB t o → FD .complex t o
  | complexConj {t o} : FD .conjB t o → FD .complex t o
  | complexNeg {t o} : FD .negB t o → FD .complex t o
  /- `UnitFormula`, 652–660 -/
  | paren {t o} : FD .complex t o → FD .unit (.lpar :: t ++ [.rpar]) o
  | atom {a} : FD .unit [.atom a] (.one (.atom a))
  | other {f} : FD .unit [.other f] (.one (.other f))

/-- `Formula` (`grammar.lalrpop` 479): the tokens are read as this formula. -/
def FReads (ts : List FTok) (f : Fml) : Prop := FD .formula ts (.one f)

end Scallop.Syn
