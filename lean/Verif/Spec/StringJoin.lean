import Verif.Model.Base
import Verif.Model.Tuple

/-!
# Facts with a string

A fact is a list of arguments and a string. Lists of facts with the same arguments are groups.
-/

namespace Scallop.StrJoin

variable {V T : Type}

/-- How the compiler lays out a string with `n` arguments; `inj` writes a string as a value. -/
def strTuple (inj : String → V) (n : Nat) (p : List (Tup V) × String) : Tup V := if n = 0 then .val (inj p.2) else .tup (p.1 ++ [.val (inj p.2)])

/-- The facts of a list of groups, one group after the other. -/
def ungroup (groups : List (List (Tup V) × List (Elem String T))) : List (Elem (List (Tup V) × String) T) :=
  groups.flatMap (fun g => g.2.map (fun e => ⟨(g.1, e.tuple), e.tag⟩))

end Scallop.StrJoin
