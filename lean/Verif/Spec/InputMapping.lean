import Mathlib.Data.List.Forall2
import Verif.Model.InputMapping

/-!
# What facts a tensor means

The notions the statements of C115 are made with.
-/

namespace Scallop.InputMap

/-- An index of a tensor of the given shape. -/
def Valid : List Nat → List Nat → Prop
  | [], [] => True
  | d :: s, i :: x => i < d ∧ Valid s x
  | _, _ => False

/-- The value at a place of nested lists. -/
def Src.at : Src α → List Nat → Option (Src α)
  | s, [] => some s
  | .list l, i :: x => match l[i]? with
    | some s => Src.at s x
    | none => none
  | _, _ :: _ => none

/-- The tuple that an innermost value stands for: a primitive is a tuple of one. -/
inductive Means : Src α → Item α → Prop
  | prim (a : α) : Means (.prim a) (.tuple [a])
  | tuple (l : List α) : Means (.tuple l) (.tuple l)

/-- Nested lists of the given shape with `good` innermost values. -/
def Rect (good : Src α → Prop) : List Nat → Src α → Prop
  | [], s => good s
  | d :: sh, .list l => l.length = d ∧ ∀ s ∈ l, Rect good sh s
  | _ :: _, _ => False

/-- The innermost values are primitives (`none`) or tuples of some length. -/
def LeafOf : Option Nat → Src α → Prop
  | none, .prim _ => True
  | some n, .tuple l => l.length = n
  | _, _ => False

/-- Two indices that differ in one dimension at most. -/
def SameExcept (d : Nat) (x y : List Nat) : Prop := ∀ i, i ≠ d → x[i]? = y[i]?

/-- What the settings say about the numbers of the choices, which come from `c0`, … up to before `c1`: none at all, the same
one for all facts, or the same one for the facts that differ in the given dimension only. -/
def Choices (supports disjunctive : Bool) (dim : Option Nat) (shape : List Nat) (c0 c1 : Nat) (ch : List Nat → Option Nat) : Prop :=
  match supports, dim, disjunctive with
  | false, _, _ => ∀ x, ch x = none
  | true, none, false => ∀ x, ch x = none
  | true, none, true => ∃ n, c0 ≤ n ∧ n < c1 ∧ ∀ x, ch x = some n
  | true, some d, _ => (∀ x, Valid shape x → ∃ n, c0 ≤ n ∧ n < c1 ∧ ch x = some n) ∧
      ∀ x y, Valid shape x → Valid shape y → (ch x = ch y ↔ SameExcept d x y)

/-- The facts are those of the indices that are `kept`, each once, in the order of the indices, with the probabilities of
the tensor, the tuples of the mapping, and the numbers `ch`. -/
def FactsOf (m : Mapping α) (t : List Nat → P) (keep : List Nat → Prop) (ch : List Nat → Option Nat) (fs : List (Fact P α)) : Prop :=
  ∃ kept : List (List Nat), kept.Pairwise (· < ·) ∧ (∀ x, x ∈ kept ↔ Valid m.shape x ∧ keep x) ∧
    List.Forall₂ (fun x f => f.prob = t x ∧ f.choice = ch x ∧ m.get x = some f.item) kept fs

/-- Not below the threshold. -/
def AboveThreshold (lt : P → P → Bool) (r : Option P) (p : P) : Prop := ∀ q, r = some q → lt p q = false

/-- A mapping has an element for every index. -/
def Mapping.Ok (m : Mapping α) : Prop := ∀ x, Valid m.shape x → ∃ i, m.get x = some i

/-- The settings a mapping accepts: dimensions exist (`input_mapping.py` 63–69). -/
def Config.Ok (c : Config P) (shape : List Nat) : Prop :=
  (∀ d, c.disjunctiveDim = some d → d < shape.length) ∧ (∀ d, c.sampleDim = some d → d < shape.length)

/-- What `torch.topk` promises: as many different places as asked for, holding numbers not smaller than those of all
other places. -/
def TopkRight (lt : P → P → Bool) (T : Torch P) : Prop :=
  ∀ (l : List P) (k : Nat), k ≤ l.length → (T.topk l k).length = k ∧ (T.topk l k).Nodup ∧ (∀ i ∈ T.topk l k, i < l.length) ∧
    ∀ i ∈ T.topk l k, ∀ j, j ∉ T.topk l k → ∀ a b, l[i]? = some a → l[j]? = some b → lt a b = false

/-- What `Categorical` promises: a place of the list holding a positive number, if there is one. -/
def DrawRight (pos : P → Prop) (T : Torch P) : Prop :=
  ∀ (l : List P) (key : List Nat), (∃ p ∈ l, pos p) → ∃ p, l[T.draw l key]? = some p ∧ pos p

/-- What samples along a dimension are to be: for every index, the samples among those that differ from it in that
dimension only are `k` and all positive. -/
def LineDraws (pos : P → Prop) (shape : List Nat) (t : List Nat → P) (k d : Nat) (drawn : List (List Nat)) : Prop :=
  ∀ x, Valid shape x → (∃ y, Valid shape y ∧ SameExcept d x y ∧ pos (t y)) →
    ∃ js : List Nat, js.length = k ∧ (∀ j ∈ js, ∃ y, Valid shape y ∧ SameExcept d x y ∧ y[d]? = some j) ∧
      ∀ y, Valid shape y → SameExcept d x y → (y ∈ drawn ↔ ∃ j ∈ js, y[d]? = some j) ∧ (y ∈ drawn → pos (t y))

end Scallop.InputMap
