import Verif.Model.Base

/-!
# Specification of tagged collections

What a collection of tagged tuples means, independently of how the code computes it.
-/

namespace Scallop

variable {α T W : Type*}

/-- All tags attached to tuple `x` in `l`, in order of occurrence. -/
def tagsOf [DecidableEq α] (l : List (Elem α T)) (x : α) : List T :=
  (l.filter (fun e => e.tuple = x)).map Elem.tag

/-- Sum of a list of tags from left to right with the provenance's addition; `none` for no tag at all. -/
def sumTags (c : Prov T W) : List T → Option T
  | [] => none
  | t :: ts => some (ts.foldl c.add t)

/-- A collection is sorted: tuples strictly ascending (hence unique). -/
def Sorted [LT α] (l : List (Elem α T)) : Prop := l.Pairwise (fun a b => a.tuple < b.tuple)

/-- The set of tuples of a collection. -/
def tuples (l : List (Elem α T)) : Set α := { x | ∃ e ∈ l, e.tuple = x }

/-- Sum of two optional tags. -/
def optAdd (c : Prov T W) : Option T → Option T → Option T
  | none, b => b
  | a, none => a
  | some a, some b => some (c.add a b)

end Scallop
