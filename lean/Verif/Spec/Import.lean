import Verif.Model.Import
import Mathlib.Logic.Relation

/-!
# What importing means
-/

namespace Scallop.Import

variable {Path Item : Type}

/-- File `p` can be read and imports `q`. -/
def Imports (fs : Files Path Item) (p q : Path) : Prop := ∃ imports items, fs p = some (some (imports, items)) ∧ q ∈ imports

/-- The files of some imports in the order in which they are to be compiled: the imports of a file before the file. -/
inductive Unfold (fs : Files Path Item) : List Path → List Path → Prop
  | nil : Unfold fs [] []
  | cons (p ps imports items o₁ o₂) : fs p = some (some (imports, items)) → Unfold fs imports o₁ → Unfold fs ps o₂ → Unfold fs (p :: ps) (o₁ ++ p :: o₂)

/-- The items of a file. -/
def fileItems (fs : Files Path Item) (p : Path) : List Item :=
  match fs p with
  | some (some (_, items)) => items
  | _ => []

/-- The items of some files. -/
def itemsOf (fs : Files Path Item) (order : List Path) : List Item := order.flatMap (fileItems fs)

/-- The analyses accept the items of each file after the items of those before. -/
def AllAccepted (fs : Files Path Item) (accept : List Item → List Item → Bool) (base : List Item) (order : List Path) : Prop :=
  ∀ a p b, order = a ++ p :: b → accept (base ++ itemsOf fs a) (fileItems fs p) = true

/-- The result of a recursion that ends. -/
def Ends (fs : Files Path Item) [DecidableEq Path] (accept : List Item → List Item → Bool) (c : Ctx Path Item) (s : Source Path Item) (r : Except (Err Path) (Ctx Path Item)) : Prop :=
  ∃ N, ∀ n ≥ N, compile fs accept n c s = r

end Scallop.Import
