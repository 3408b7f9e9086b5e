import Verif.Model.Front
import Mathlib.Data.List.Dedup

/-!
# Queries

Models `/repo/core/src/compiler/front/transformations/atomic_query.rs`, the printing of atoms and expressions in
`/repo/core/src/compiler/front/pretty.rs` that names the relation of a query, and the outputs collected in
`/repo/core/src/compiler/front/f2b/f2b.rs`. Text is a list of characters. Not modelled: type arguments of atoms, tags, locations.
-/

namespace Scallop.Front

variable {F : Type}

/-! ## Printing -/

/-- A number in decimal digits (`IntLiteral`, `pretty.rs` 477-481). -/
def showInt (n : Int) : List Char := if n < 0 then '-' :: Nat.toDigits 10 n.natAbs else Nat.toDigits 10 n.natAbs

/-- Models the printing of literals (`pretty.rs` 461-529); `showFloat` prints floating point numbers, an entity is shown by its number. -/
def showVal (showFloat : F → List Char) : Val F → List Char
  | .int _ n => showInt n
  | .float _ x => showFloat x
  | .char c => ['\'', c, '\'']
  | .bool b => if b then "true".toList else "false".toList
  | .string s => '"' :: s.toList ++ ['"']
  | .symbol s => 's' :: '"' :: s.toList ++ ['"']
  | .entity e => 'e' :: '"' :: Nat.toDigits 10 e ++ ['"']

/-- Models `Display for BinaryOp` (`common/binary_op.rs` 23-42). -/
def showBin : BinOp → List Char
  | .add => "+".toList | .sub => "-".toList | .mul => "*".toList | .div => "/".toList | .mod => "%".toList | .and => "&&".toList | .or => "||".toList
  | .xor => "^".toList | .eq => "==".toList | .neq => "!=".toList | .lt => "<".toList | .leq => "<=".toList | .gt => ">".toList | .geq => ">=".toList

/-- The name of a variable; generated ones do not occur in queries when they are printed, they are shown by the kind only. -/
def showName : Name → List Char
  | .user x => x.toList
  | _ => "#".toList

/-- Texts with `, ` between them (`join(", ")`). -/
def commaSep : List (List Char) → List Char
  | [] => []
  | [x] => x
  | x :: y :: l => x ++ ',' :: ' ' :: commaSep (y :: l)

mutual
/-- Models `Display for Expr` (`pretty.rs` 781-850). -/
def showExpr (showFloat : F → List Char) : FExpr F → List Char
  | .const c => showVal showFloat c
  | .var x => showName x
  | .wild => ['_']
  | .bin op a b => '(' :: showExpr showFloat a ++ ' ' :: showBin op ++ ' ' :: showExpr showFloat b ++ [')']
  | .un (.cast t) a => '(' :: showExpr showFloat a ++ " as ".toList ++ t.toList ++ [')']
  | .un .neg a => '(' :: '-' :: showExpr showFloat a ++ [')']
  | .un .pos a => '(' :: '+' :: showExpr showFloat a ++ [')']
  | .un .not a => '(' :: '!' :: showExpr showFloat a ++ [')']
  | .ite c t e => "if ".toList ++ showExpr showFloat c ++ " then ".toList ++ showExpr showFloat t ++ " else ".toList ++ showExpr showFloat e
  | .call f args => '$' :: f.toList ++ '(' :: commaSep (showExprs showFloat args) ++ [')']
  | .new f args => "new ".toList ++ f.toList ++ '(' :: commaSep (showExprs showFloat args) ++ [')']
/-- The texts of several expressions. -/
def showExprs (showFloat : F → List Char) : List (FExpr F) → List (List Char)
  | [] => []
  | e :: es => showExpr showFloat e :: showExprs showFloat es
end

/-- Models `Display for Atom` (`pretty.rs` 405-434) without type arguments. -/
def showAtom (showFloat : F → List Char) (p : String) (args : List (FExpr F)) : List Char :=
  p.toList ++ '(' :: commaSep (showExprs showFloat args) ++ [')']

/-! ## Queries of atoms -/

/-- Models `enum Query` (`ast/query.rs` 3-8). -/
inductive Query (F : Type) where
  | predicate (p : String)
  | atom (p : String) (args : List (FExpr F))

/-- Models `Query::create_relation_name` (`ast/query.rs` 27-32). -/
def Query.name (showFloat : F → List Char) : Query F → String
  | .predicate p => p
  | .atom p args => String.ofList (showAtom showFloat p args)

/-- The variable `qa#i` (`atomic_query.rs` 46). -/
def queryVar (i : Nat) : Name := .user (String.ofList ('q' :: 'a' :: '#' :: Nat.toDigits 10 i))

/-- The arguments of the rule of a query (`atomic_query.rs` 38-50): variables and constants as they are, a variable for anything else. -/
def queryArgs : Nat → List (FExpr F) → List (FExpr F)
  | _, [] => []
  | i, .var x :: es => .var x :: queryArgs (i + 1) es
  | i, .const c :: es => .const c :: queryArgs (i + 1) es
  | i, _ :: es => .var (queryVar i) :: queryArgs (i + 1) es

/-- The equations of the rule (`atomic_query.rs` 53-66): none for wildcards, variables and constants. -/
def queryConstraints : Nat → List (FExpr F) → List (Formula F)
  | _, [] => []
  | i, .var _ :: es => queryConstraints (i + 1) es
  | i, .const _ :: es => queryConstraints (i + 1) es
  | i, .wild :: es => queryConstraints (i + 1) es
  | i, e :: es => .constraint (.bin .eq (.var (queryVar i)) e) :: queryConstraints (i + 1) es

/-- The rule made for a query of an atom (`atomic_query.rs` 36-70). -/
def queryRule (showFloat : F → List Char) (p : String) (args : List (FExpr F)) : FRule F :=
  ⟨.atom (String.ofList (showAtom showFloat p args)) (queryArgs 0 args), .conj (.atom p (queryArgs 0 args) :: queryConstraints 0 args)⟩

/-- Models `TransformAtomicQuery` over the queries of a program (`atomic_query.rs` 33-76): the rules that are added, in order. -/
def addedRules (showFloat : F → List Char) : List (Query F) → List (FRule F)
  | [] => []
  | .predicate _ :: qs => addedRules showFloat qs
  | .atom p args :: qs => queryRule showFloat p args :: addedRules showFloat qs

/-- Models the outputs of a program (`f2b.rs` 20-41, 56-74): the queried relations if there are any, otherwise all relations whose name has no `#`; `true`: hidden.
The names are a set. Files are not modelled. -/
def outputs (showFloat : F → List Char) (queries : List (Query F)) (relations : List String) (hidden : String → Bool) : List (String × Bool) :=
  match queries with
  | [] => (relations.filter (fun r => !r.toList.contains '#')).map (fun r => (r, hidden r))
  | qs => (qs.map (fun q => (q.name showFloat, false))).dedup

end Scallop.Front
