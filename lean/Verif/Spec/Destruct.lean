import Verif.Model.Destruct

/-!
# Specification of patterns in arguments (C125)
-/

namespace Scallop.Destr

variable {E V : Type}

/-- A value matches an argument: `adm e v` says that the expression `e` has the value `v` (any value if it is `_`) under the variables of the program; a pattern
`C(a, …)` is matched by an entity that is `C` of values that match its arguments; `DB p vs` says that `p(vs)` is a fact. -/
def Matches (adm : E → V → Prop) (DB : String → List V → Prop) : Arg E → V → Prop
  | .expr e, v => adm e v
  | .destr _ f args, v => ∃ vs, DB ("adt#" ++ f) (v :: vs) ∧ all args vs
where
  /-- The same for lists. -/
  all : List (Arg E) → List V → Prop
    | [], [] => True
    | a :: as, v :: vs => Matches adm DB a v ∧ all as vs
    | _, _ => False

/-- A value of an argument without patterns, where `σ` gives values to the new variables. -/
def Out.Adm (adm : E → V → Prop) (σ : Var → V) : Out E → V → Prop
  | .expr e, v => adm e v
  | .var x, v => σ x = v

/-- An atom without patterns is true. -/
def OAtom.Holds (adm : E → V → Prop) (DB : String → List V → Prop) (σ : Var → V) (a : OAtom E) : Prop :=
  ∃ vs, DB a.pred vs ∧ List.Forall₂ (Out.Adm adm σ) a.args vs

/-- A formula of the body made for a fact is true. -/
def Lit.Holds (adm : E → V → Prop) (DB : String → List V → Prop) (σ : Var → V) : Lit E → Prop
  | .atom a => a.Holds adm DB σ
  | .eq x e => adm e (σ x)

/-- The numbers of the outermost patterns. -/
def ids : List (Arg E) → List Nat
  | [] => []
  | .expr _ :: as => ids as
  | .destr id _ _ :: as => id :: ids as

end Scallop.Destr
