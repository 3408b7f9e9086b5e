import Verif.Spec.Sdd
import Verif.Model.InputTags
import Verif.Spec.Aggregate

/-!
# Weighted facts

A fact is a list of arguments and a number.
-/

namespace Scallop.WAgg

variable {V T W Ω α K : Type}

/-- How the compiler lays out a number with `n` arguments; `inj` writes a number as a value. -/
def wTuple (inj : K → V) (n : Nat) (p : List (Tup V) × K) : Tup V := if n = 0 then .val (inj p.2) else .tup (p.1 ++ [.val (inj p.2)])

open Classical in
/-- The facts true in a world. -/
noncomputable def factsIn (holds : T → Ω → Prop) (w : Ω) (l : List (Elem α T)) : List (Elem α T) := l.filter (fun e => decide (holds e.tag w))

/-- The expectation of a number that depends on independent variables `V`, the variable `i` being true with probability `p i`. -/
def expectation [CommRing K] (p : Nat → K) (V : Finset Nat) (x : Finset Nat → K) : K :=
  ∑ S ∈ V.powerset, (∏ i ∈ S, p i) * (∏ i ∈ V \ S, (1 - p i)) * x S

end Scallop.WAgg

namespace Scallop.WAgg

open Scallop.Input

/-- A state of a provenance with proofs reached by registering facts one after the other, with their choices. -/
inductive History {K : Type} : Reg K → List (Option Nat) → Prop
  | new : History Reg.new []
  | register {s s' : Reg K} {log : List (Option Nat)} {p : K} {e : Option Nat} {t : Dnf} : History s log → s.register p e = some (s', t) → History s' (log ++ [e])

end Scallop.WAgg
