import Verif.Model.InputTags

/-!
# What the tag of a fact says

A tag says with which probability its fact holds and to which choice it belongs (two facts of one choice never hold together).
-/

namespace Scallop.Input

variable {K V : Type*}

section
variable [Zero K] [One K]

/-- What a tag of a fact says: no tag, a new variable: the fact holds; `true`, a positive number: it holds; `false`, the number 0: it does not; a
probability: this one; an exclusion: the choice. -/
def DynTag.says : DynTag K → K × Option Nat
  | .none => (1, .none)
  | .newVariable => (1, .none)
  | .exclusive e => (1, some e)
  | .bool true => (1, .none)
  | .bool false => (0, .none)
  | .natural 0 => (0, .none)
  | .natural (_ + 1) => (1, .none)
  | .float f => (f, .none)
  | .exclusiveFloat f e => (f, some e)
  | .floatWithId _ f => (f, .none)
  | .exclusiveFloatWithId _ f e => (f, some e)
  | .tensor f => (f, .none)

/-- What an input tag says. -/
def InTag.says : InTag K → K × Option Nat
  | .unit => (1, .none)
  | .bool true => (1, .none)
  | .bool false => (0, .none)
  | .natural 0 => (0, .none)
  | .natural (_ + 1) => (1, .none)
  | .exclusion e => (1, e)
  | .float f => (f, .none)
  | .exclusiveProb p e => (p, e)
  | .diffProb p _ => (p, .none)
  | .exclusiveDiffProb p _ e => (p, e)
  | .exclusiveDiffProbWithId _ p _ e => (p, e)

/-- What a provenance takes from an optional input tag: without one, the fact holds. -/
def taken : Option (InTag K) → K × Option Nat
  | .none => (1, .none)
  | some t => t.says

end

/-- The gradient of an input tag is kept. -/
def InTag.gradient : InTag K → Bool
  | .diffProb _ g => g
  | .exclusiveDiffProb _ g _ => g
  | .exclusiveDiffProbWithId _ _ g _ => g
  | _ => false

/-- The probability of the `i`-th registered fact. -/
def Reg.prob [Zero K] (s : Reg K) (i : Nat) : K := (s.probs[i]?).getD 0

/-- The probability that the facts of a program or of an input say for position `j` (positions that do not exist: 1). -/
def saidProb [Zero K] [One K] (fs : List (DynTag K × Tup V)) (j : Nat) : K :=
  match fs[j]? with
  | some f => f.1.says.1
  | none => 1

/-- A written tag says something that is kept. -/
def WrittenTag.says [One K] [Zero K] : WrittenTag K → Option K
  | .bool true => some 1
  | .bool false => some 0
  | .number f => some f
  | _ => none

/-- The choice of each alternative when choices are written one after the other. -/
def owners {α : Type*} (ds : List (List α)) : List Nat := (ds.zipIdx.map (fun d => List.replicate d.1.length d.2)).flatten

/-- The choice of each fact: facts that belong to none, followed by the alternatives of choices. -/
def choices {α : Type*} (plain : List α) (ds : List (List α)) : List (Option Nat) := List.replicate plain.length none ++ (owners ds).map some

end Scallop.Input
