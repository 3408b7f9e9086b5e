import Verif.Model.Grammar

/-!
# What a user expects of written expressions and formulas
-/

namespace Scallop.Syn

/-- How strongly binary operators bind: products before sums before comparisons before the logical
operators, which all bind alike. -/
def BinOp.level : BinOp → Nat
  | .and | .or | .xor => 0
  | .eq | .neq | .lt | .leq | .gt | .geq => 1
  | .add | .sub => 2
  | .mul | .div | .mod => 3

/-- A written operand and what it stands for. -/
abbrev Operand := List Tok × Ast

/-- Operators of one strength associate to the left; comparisons do not associate. -/
def MayBeLeftOf (o o' : BinOp) : Prop := o'.level < o.level ∨ (o.level = o'.level ∧ o.level ≠ 1)

/-- How `x o₁ y₁ o₂ y₂ …` is grouped: at an operator such that what stands on its right binds more
strongly, and what stands on its left binds more strongly or equally and associates to the left. -/
inductive Groups : Operand → List (BinOp × Operand) → Ast → Prop
  | one (x : Operand) : Groups x [] x.2
  | node {x y : Operand} {l r : List (BinOp × Operand)} {o : BinOp} {a b : Ast} :
      Groups x l a → Groups y r b → (∀ p ∈ l, MayBeLeftOf p.1 o) → (∀ p ∈ r, o.level < p.1.level) →
      Groups x (l ++ (o, y) :: r) (.bin o a b)

/-- The tokens of `o₁ y₁ o₂ y₂ …`. -/
def opsTokens : List (BinOp × Operand) → List Tok
  | [] => []
  | (o, y) :: l => .sym o.sym :: y.1 ++ opsTokens l

/-- The tokens of `x o₁ y₁ o₂ y₂ …`. -/
def chainTokens (x : Operand) (l : List (BinOp × Operand)) : List Tok := x.1 ++ opsTokens l

/-- A name, a literal, `_`, a call, a construction or an expression in parentheses, perhaps with a prefix
operator or a cast: what may stand beside a binary operator. -/
def IsOperand (x : Operand) : Prop := D .unary x.1 (.one x.2)

/-- All operands of a chain are operands. -/
def AllOperands (x : Operand) (l : List (BinOp × Operand)) : Prop := IsOperand x ∧ ∀ p ∈ l, IsOperand p.2

/-- At most one comparison between two logical operators (`seen`: there was one since the last logical
operator). -/
def OneComparison : Bool → List (BinOp × Operand) → Prop
  | _, [] => True
  | seen, (o, _) :: l =>
    if o.level = 0 then OneComparison false l
    else if o.level = 1 then seen = false ∧ OneComparison true l
    else OneComparison seen l

mutual
/-- An expression written with parentheses around every operator and conditional. -/
def written : Ast → List Tok
  | .lit c => [.lit c]
  | .var n => [.name n]
  | .wild => [.sym .wild]
  | .bin o a b => .sym .lpar :: written a ++ .sym o.sym :: written b ++ [.sym .rpar]
  | .un o a => .sym .lpar :: .sym o.sym :: written a ++ [.sym .rpar]
  | .cast a t => .sym .lpar :: written a ++ [.sym .as_, t.tok] ++ [.sym .rpar]
  | .ite c t e => .sym .lpar :: .sym .if_ :: written c ++ .sym .then_ :: written t ++ .sym .else_ :: written e ++
      [.sym .rpar]
  | .call f es => .sym .dollar :: .name f :: .sym .lpar :: writtenArgs es ++ [.sym .rpar]
  | .new f es => .sym .new_ :: .name f :: .sym .lpar :: writtenArgs es ++ [.sym .rpar]

/-- Arguments, each followed by a comma. -/
def writtenArgs : List Ast → List Tok
  | [] => []
  | e :: es => written e ++ .sym .comma :: writtenArgs es
end

mutual
/-- No conditional is an operand of an operator, the condition of a conditional. -/
def NoInnerIte : Ast → Prop
  | .lit _ => True
  | .var _ => True
  | .wild => True
  | .bin _ a b => NoIte a ∧ NoIte b
  | .un _ a => NoIte a
  | .cast a _ => NoIte a
  | .ite c t e => NoIte c ∧ NoInnerIte t ∧ NoInnerIte e
  | .call _ es => NoInnerIteAll es
  | .new _ es => NoInnerIteAll es

/-- Moreover it is not a conditional itself. -/
def NoIte : Ast → Prop
  | .lit _ => True
  | .var _ => True
  | .wild => True
  | .bin _ a b => NoIte a ∧ NoIte b
  | .un _ a => NoIte a
  | .cast a _ => NoIte a
  | .ite _ _ _ => False
  | .call _ es => NoInnerIteAll es
  | .new _ es => NoInnerIteAll es

/-- All arguments are so. -/
def NoInnerIteAll : List Ast → Prop
  | [] => True
  | e :: es => NoInnerIte e ∧ NoInnerIteAll es
end

mutual
/-- A formula written with parentheses around every connective. -/
def fwritten : Fml → List FTok
  | .atom a => [.atom a]
  | .neg a => [.not, .atom a]
  | .other f => [.other f]
  | .conj fs => .lpar :: fwrittenList .and fs ++ [.rpar]
  | .disj fs => .lpar :: fwrittenList .or fs ++ [.rpar]
  | .implies l r => .lpar :: fwritten l ++ .implies :: fwritten r ++ [.rpar]

/-- Formulas joined by a connective. -/
def fwrittenList (c : FTok) : List Fml → List FTok
  | [] => []
  | [f] => fwritten f
  | f :: fs => fwritten f ++ c :: fwrittenList c fs
end

mutual
/-- Conjunctions and disjunctions have at least two parts. -/
def Proper : Fml → Prop
  | .atom _ => True
  | .neg _ => True
  | .other _ => True
  | .conj fs => 2 ≤ fs.length ∧ ProperAll fs
  | .disj fs => 2 ≤ fs.length ∧ ProperAll fs
  | .implies l r => Proper l ∧ Proper r

/-- All are so. -/
def ProperAll : List Fml → Prop
  | [] => True
  | f :: fs => Proper f ∧ ProperAll fs
end

/-- A written formula and what it stands for. -/
abbrev FOperand := List FTok × Fml

/-- An atomic formula, a negated atom or a formula in parentheses. -/
def IsFOperand (x : FOperand) : Prop := FD .annotated x.1 (.one x.2)

/-- Texts joined by a connective. -/
def joined (c : FTok) : List (List FTok) → List FTok
  | [] => []
  | [t] => t
  | t :: ts => t ++ c :: joined c ts

/-- One formula alone, several together. -/
def several (f : List Fml → Fml) : List Fml → Fml
  | [x] => x
  | xs => f xs

/-- Disjunctions of conjunctions of operands: the text. -/
def dnfTokens (ds : List (List FOperand)) : List FTok :=
  joined .or (ds.map fun c => joined .and (c.map (·.1)))

/-- Disjunctions of conjunctions of operands: the formula. -/
def dnfMeaning (ds : List (List FOperand)) : Fml :=
  several .disj (ds.map fun c => several .conj (c.map (·.2)))

/-- There is a disjunct, every disjunct has a conjunct, and all are operands. -/
def IsDnf (ds : List (List FOperand)) : Prop := ds ≠ [] ∧ ∀ c ∈ ds, c ≠ [] ∧ ∀ x ∈ c, IsFOperand x

end Scallop.Syn
