import Verif.Model.TopBottom
import Verif.Spec.World
import Verif.Spec.History
import Verif.Spec.Heap

/-!
# What a top-bottom-k tag says
-/

namespace Scallop

/-- The tag is true in a world. -/
def CnfDnf.holds (w : Nat → Bool) (t : CnfDnf) : Prop :=
  match t.kind with
  | .cnf => cnfHolds w t.clauses
  | .dnf => dnfHolds w t.clauses

end Scallop
