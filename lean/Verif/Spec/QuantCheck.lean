import Verif.Model.QuantCheck
import Verif.Spec.Front

/-!
# Specification of the check of universal quantification (C124)
-/

namespace Scallop.Front

variable {F : Type}

/-- `Inside g f`: the formula `g` is written somewhere in `f`. -/
inductive Inside : Formula F → Formula F → Prop
  | here (f) : Inside f f
  | disj {g f fs} : f ∈ fs → Inside g f → Inside g (.disj fs)
  | conj {g f fs} : f ∈ fs → Inside g f → Inside g (.conj fs)
  | left {g l r} : Inside g l → Inside g (.implies l r)
  | right {g l r} : Inside g r → Inside g (.implies l r)
  | body {g left op args bindings b gv gb} : Inside g b → Inside g (.reduce left op args bindings b gv gb)
  | where_ {g f left op args bindings b gv gb} : f ∈ gb → Inside g f → Inside g (.reduce left op args bindings b gv gb)
  | qbody {g n neg op bindings b gv gb} : Inside g b → Inside g (.quant n neg op bindings b gv gb)
  | qwhere {g f n neg op bindings b gv gb} : f ∈ gb → Inside g f → Inside g (.quant n neg op bindings b gv gb)

/-- The formula is `vs := forall(b)`. -/
def Formula.IsForall (f : Formula F) : Prop := ∃ left args bindings b gv gb, f = .reduce left "forall" args bindings b gv gb

/-- The formula is `vs := forall(b)` where `b` is not an implication. -/
def Formula.IsForallOther (f : Formula F) : Prop :=
  ∃ left args bindings b gv gb, f = .reduce left "forall" args bindings b gv gb ∧ ¬ b.IsImplies

/-- The formula is a `forall` that has a meaning: `v := forall(a implies b)`, with one variable, or the quantifier `forall(a implies b)`. Other formulas are
right as well. -/
def Formula.Right : Formula F → Prop
  | .reduce left op _ _ b _ _ => op = "forall" → (∃ v, left = [some v]) ∧ b.IsImplies
  | .quant _ _ op _ b _ _ => op = "forall" → b.IsImplies
  | _ => True

end Scallop.Front
