import Verif.Model.Query
import Verif.Spec.Front

/-!
# What a query asks for
-/

namespace Scallop.Front

variable {F : Type}

/-- The tuples that answer the query `p(args)`: facts of `p` that the arguments, as they are written, can have as values. -/
def Answers (X : Ext F) (D : DB F) (p : String) (args : List (FExpr F)) (vs : List (Val F)) : Prop := D p vs ∧ ∃ σ, FExpr.AllEvalTo X σ args vs

/-- A variable as users write them: without `#`. -/
def Name.Written (x : Name) : Prop := ∃ s, x = .user s ∧ '#' ∉ s.toList

/-- What the rules for a relation derive. -/
def RelationHolds (X : Ext F) (D : DB F) (G : Aggs F) (rules : List (FRule F)) (n : String) (vs : List (Val F)) : Prop :=
  ∃ r ∈ rules, ∃ args, r.head = .atom n args ∧ Derives X D G (fun _ => False) args r.body vs

/-- An identifier: a letter, then letters, digits and `_` (`grammar.lalrpop` 118). -/
def IsIdent (s : List Char) : Prop := ∃ c l, s = c :: l ∧ c.isAlpha ∧ ∀ d ∈ l, d.isAlphanum ∨ d = '_'

/-- Arguments that are not composed: numbers, booleans, strings and symbols without quotes and commas, variables and wildcards. -/
def SimpleArg : FExpr F → Prop
  | .const (.int _ _) => True
  | .const (.bool _) => True
  | .const (.string s) => '"' ∉ s.toList ∧ ',' ∉ s.toList
  | .const (.symbol s) => '"' ∉ s.toList ∧ ',' ∉ s.toList
  | .var (.user x) => IsIdent x.toList ∧ x ≠ "true" ∧ x ≠ "false"
  | .wild => True
  | _ => False

/-- The same argument, up to the type of an integer, which the column determines. -/
def SameArg (a b : FExpr F) : Prop := a = b ∨ ∃ k k' n, a = .const (.int k n) ∧ b = .const (.int k' n)

end Scallop.Front
