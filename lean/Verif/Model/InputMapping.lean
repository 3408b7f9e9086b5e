/-!
# Tensors as facts

`etc/scallopy/scallopy/input_mapping.py` and the part of `etc/scallopy/scallopy/forward.py` that uses it: a tensor of
probabilities becomes a list of facts by means of a mapping from indices to tuples.  Exceptions are `none`.
Probabilities are of any type `P` with a comparison; primitive Python values are of any type `α`.  The operations
of `torch` that choose indices are parameters.
-/

namespace Scallop.InputMap

/-- A Python value from which a mapping can be made: a primitive, a tuple of primitives, a list or range, or
anything else (`input_mapping.py` 31–52, 320–328, 358–360). -/
inductive Src (α : Type) where
  | prim (a : α)
  | tuple (l : List α)
  | list (l : List (Src α))
  | other

/-- An element of the finished mapping (`input_mapping.py` 246): a tuple, or a value that is none. -/
inductive Item (α : Type) where
  | tuple (l : List α)
  | raw (a : α)
  deriving DecidableEq, Repr

mutual
/-- The depth of a value; bounds the loop of `input_mapping.py` 191. -/
def depth : Src α → Nat
  | .list l => depths l + 1
  | _ => 1
/-- The largest depth (bounds the loop of `input_mapping.py` 191). -/
def depths : List (Src α) → Nat
  | [] => 0
  | s :: l => max (depth s) (depths l)
end

/-- The check of the innermost elements (`input_mapping.py` 194–209).  `size` is `None` if the first one is a
primitive and its length otherwise; `len` of a primitive is defined for strings only (`strLen`). -/
def checkLeaves (strLen : α → Option Nat) (size : Option Nat) : List (Src α) → Option (List (Item α))
  | [] => some []
  | .prim a :: l => match size with
    | none => (checkLeaves strLen size l).map (.tuple [a] :: ·)
    | some n => if strLen a = some n then (checkLeaves strLen size l).map (.raw a :: ·) else none
  | .tuple t :: l => match size with
    | none => none
    | some n => if t.length = n then (checkLeaves strLen size l).map (.tuple t :: ·) else none
  | _ :: _ => none

/-- All elements must be lists of the same length; their elements (`input_mapping.py` 223–231, 235). -/
def flattenAll (n : Nat) : List (Src α) → Option (List (Src α))
  | [] => some []
  | .list l :: r => if l.length = n then (flattenAll n r).map (l ++ ·) else none
  | _ :: _ => none

/-- The loop of `_initialize_list_mapping` (`input_mapping.py` 191–239). -/
def levels (strLen : α → Option Nat) : Nat → List (Src α) → List Nat → Option (List Nat × List (Item α))
  | 0, _, _ => none
  | f + 1, cur, shape => match cur with
    | [] => none
    | .prim _ :: _ => (checkLeaves strLen none cur).map ((shape, ·))
    | .tuple t :: _ => (checkLeaves strLen (some t.length) cur).map ((shape, ·))
    | .list l :: _ =>
      if l.length = 0 then none else match flattenAll l.length cur with
        | none => none
        | some cur' => levels strLen f cur' (shape ++ [l.length])
    | .other :: _ => none

/-- `_initialize_list_mapping` (`input_mapping.py` 176–246): the shape and the elements. -/
def initList (strLen : α → Option Nat) (m : List (Src α)) : Option (List Nat × List (Item α)) :=
  if m.length = 0 then none else levels strLen (depths m + 1) m [m.length]

/-- `_initialize_dict_mapping` (`input_mapping.py` 248–295): the lists of all dimensions, which must be 0, 1, … and not
empty.  Simplified: keys are natural numbers and the elements primitives. -/
def initDict {α : Type} (m : List (Nat × List α)) : Option (List (List α)) :=
  if m.length = 0 then none else
  match (List.range ((m.map Prod.fst).foldl max 0 + 1)).mapM (fun i => m.lookup i) with
  | none => none
  | some dims => if dims.all (fun d => d.length != 0) then some dims else none

/-- A mapping; values and tuples are lists of shape `()` (`input_mapping.py` 297–318). -/
inductive Mapping (α : Type) where
  | list (shape : List Nat) (items : List (Item α))
  | dict (dims : List (List α))

/-- `shape` (`input_mapping.py` 189, 234, 287, 307, 315). -/
def Mapping.shape : Mapping α → List Nat
  | .list s _ => s
  | .dict dims => dims.map List.length

/-- The product of numbers, the `reduce` (`input_mapping.py` 333). -/
def prod : List Nat → Nat
  | [] => 1
  | d :: s => d * prod s

/-- `_mult_dim_index_to_index` (`input_mapping.py` 330–334). -/
def flat : List Nat → List Nat → Option Nat
  | [], _ => some 0
  | _ :: _, [] => none
  | _ :: s, i :: x => (flat s x).map (i * prod s + ·)

/-- The loop of `_index_to_mult_dim_index`, from the last dimension on (`input_mapping.py` 339–341). -/
def unflatRev : List Nat → Nat → List Nat
  | [], _ => []
  | d :: r, k => k % d :: unflatRev r (k / d)

/-- `_index_to_mult_dim_index` (`input_mapping.py` 336–342). -/
def unflat (shape : List Nat) (k : Nat) : List Nat := (unflatRev shape.reverse k).reverse

/-- `tuple([self._mapping[i][j] for (i, j) in enumerate(index)])` (`input_mapping.py` 79). -/
def pick {α : Type} : List (List α) → List Nat → Option (List α)
  | _, [] => some []
  | [], _ :: _ => none
  | d :: ds, i :: x => match d[i]?, pick ds x with
    | some a, some l => some (a :: l)
    | _, _ => none

/-- `__getitem__` (`input_mapping.py` 76–81). -/
def Mapping.get (m : Mapping α) (x : List Nat) : Option (Item α) :=
  match m with
  | .list s items => (flat s x).bind fun k => items[k]?
  | .dict dims => (pick dims x).map .tuple

/-- `itertools.product` of ranges (`input_mapping.py` 92–93). -/
def allIndices : List Nat → List (List Nat)
  | [] => [[]]
  | d :: s => (List.range d).flatMap fun i => (allIndices s).map (i :: ·)

/-- `sample_strategy` (`input_mapping.py` 60, 122, 128). -/
inductive Strategy where
  | top | categorical
  deriving DecidableEq

/-- The settings of a mapping (`input_mapping.py` 54–61); `disjunctive` is also set by `disjunctive_dim`. -/
structure Config (P : Type) where
  disjunctive : Bool := false
  disjunctiveDim : Option Nat := none
  retainThreshold : Option P := none
  retainK : Option Nat := none
  sampleDim : Option Nat := none
  strategy : Strategy := .top
  supports : Bool := false

/-- The operations of `torch`: `torch.topk` of a list of numbers, which gives indices, and a sample of
`torch.distributions.Categorical`, which depends on the list and on the number of the sample
(`input_mapping.py` 124, 129, 137, 142). -/
structure Torch (P : Type) where
  topk : List P → Nat → List Nat
  draw : List P → List Nat → Nat

/-- Exchanges two places of a shape or an index: `transpose` (`input_mapping.py` 123, 125). -/
def swap (i j : Nat) (l : List Nat) : List Nat :=
  match l[i]?, l[j]? with
  | some a, some b => (l.set i b).set j a
  | _, _ => l

/-- `before + (j,) + after` (`input_mapping.py` 346–349). -/
def insertDim (d j : Nat) (p : List Nat) : List Nat := p.take d ++ j :: p.drop d

/-- An index of a tensor that is valid in the first dimensions; `torch` raises an exception for others
(`input_mapping.py` 355). -/
def inShape : List Nat → List Nat → Bool
  | _, [] => true
  | [], _ :: _ => false
  | d :: s, i :: x => decide (i < d) && inShape s x

/-- The samples along a dimension by `categorical` (`input_mapping.py` 122–127, 351–356): the dimension is exchanged with the
last one, samples are taken for every row, in a new first dimension, the first dimension is exchanged with the
last one, and the result is indexed with the other dimensions in their order.  (The index `[]` is never asked for.) -/
def categoricalDim (T : Torch P) (shape : List Nat) (t : List Nat → P) (k d : Nat) : Option (List (List Nat)) :=
  match shape[d]? with
  | none => none
  | some size =>
  let n := shape.length
  let tshape := swap d (n - 1) shape
  let tt := fun x => t (swap d (n - 1) x)
  let row := fun b => (List.range size).map fun j => tt (b ++ [j])
  let sampled := fun x => match x with
    | [] => 0
    | m :: b => T.draw (row b) (m :: b)
  let sshape := swap 0 (n - 1) (k :: tshape.take (n - 1))
  let sampled' := fun x => sampled (swap 0 (n - 1) x)
  let partials := allIndices (shape.eraseIdx d)
  if partials.all (fun p => inShape sshape p) then
    some (partials.flatMap fun p => (List.range k).map fun m => insertDim d (sampled' (p ++ [m])) p)
  else none

/-- The indices that are chosen (`input_mapping.py` 118–146, 344–349); `torch.topk` raises an exception if there are fewer than `k`. -/
def chosen (T : Torch P) (c : Config P) (shape : List Nat) (t : List Nat → P) : Option (List (List Nat)) :=
  match c.retainK with
  | none => some []
  | some k => match c.sampleDim, c.strategy with
    | none, .top =>
      if k ≤ prod shape then some ((T.topk ((allIndices shape).map t) k).map (unflat shape)) else none
    | none, .categorical => some ((List.range k).map fun m => unflat shape (T.draw ((allIndices shape).map t) [m]))
    | some d, .top => match shape[d]? with
      | none => none
      | some size =>
        if k ≤ size then
          some ((allIndices (shape.eraseIdx d)).flatMap fun p =>
            (T.topk ((List.range size).map fun j => t (insertDim d j p)) k).map fun j => insertDim d j p)
        else none
    | some d, .categorical => categoricalDim T shape t k d

/-- `InclusiveSet`: everything until something is added (`input_mapping.py` 395–406). -/
def included (added : List (List Nat)) (x : List Nat) : Bool := added.isEmpty || added.contains x

/-- The indices whose facts are made (`input_mapping.py` 148–155, 408–416). -/
def filtered (lt : P → P → Bool) (c : Config P) (shape : List Nat) (t : List Nat → P) (added : List (List Nat)) :
    List (List Nat) :=
  (allIndices shape).filter fun x => included added x && match c.retainThreshold with
    | none => true
    | some r => !lt (t x) r

/-- A fact: its probability, the number of the choice it belongs to, and its tuple
(`input_mapping.py` 164–171). -/
structure Fact (P α : Type) where
  prob : P
  choice : Option Nat
  item : Item α

/-- The number of the choice of an index, the first unused one being `c0` (`input_mapping.py` 157–171). -/
def choiceOf (c : Config P) (shape : List Nat) (c0 : Nat) (x : List Nat) : Option (Option Nat) :=
  if c.supports then
    match c.disjunctiveDim with
    | some d => (((allIndices (shape.eraseIdx d)).zipIdx c0).lookup (x.eraseIdx d)).map some
    | none => if c.disjunctive then some (some c0) else some none
  else some none

/-- The first unused number afterwards (`utils/counter.py`, `input_mapping.py` 162, 166). -/
def nextChoice (c : Config P) (shape : List Nat) (c0 : Nat) : Nat :=
  if c.supports then
    match c.disjunctiveDim with
    | some d => c0 + (allIndices (shape.eraseIdx d)).length
    | none => if c.disjunctive then c0 + 1 else c0
  else c0

/-- The fact of an index (`input_mapping.py` 164, 167, 169, 171). -/
def factOf (m : Mapping α) (c : Config P) (t : List Nat → P) (c0 : Nat) (x : List Nat) : Option (Fact P α) :=
  match choiceOf c m.shape c0 x, m.get x with
  | some ch, some i => some ⟨t x, ch, i⟩
  | _, _ => none

/-- `_process_one_tensor` (`input_mapping.py` 115–174): the facts of a tensor of the shape of the mapping. -/
def processOne (lt : P → P → Bool) (T : Torch P) (m : Mapping α) (c : Config P) (t : List Nat → P) (c0 : Nat) :
    Option (List (Fact P α) × Nat) :=
  match chosen T c m.shape t with
  | none => none
  | some added => match (filtered lt c m.shape t added).mapM (factOf m c t c0) with
    | none => none
    | some fs => some (fs, nextChoice c m.shape c0)

/-- `process_tensor` of a batch (`input_mapping.py` 110–111): one counter for all. -/
def processBatch (lt : P → P → Bool) (T : Torch P) (m : Mapping α) (c : Config P) : List (List Nat → P) → Nat →
    Option (List (List (Fact P α)))
  | [], _ => some []
  | t :: ts, c0 => match processOne lt T m c t c0 with
    | none => none
    | some (fs, c1) => (processBatch lt T m c ts c1).map (fs :: ·)

/-- The facts of the relations given to a forward function (`forward.py` 453–515, `input_mapping.py` 102–108): the
counter of choices is a new one for each relation. -/
def forwardInputs (lt : P → P → Bool) (T : Torch P) : List (Mapping α × Config P × (List Nat → P)) → Option (List (List (Fact P α)))
  | [] => some []
  | (m, c, t) :: r => match processOne lt T m c t 0, forwardInputs lt T r with
    | some (fs, _), some fss => some (fs :: fss)
    | _, _ => none

end Scallop.InputMap
