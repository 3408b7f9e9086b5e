/-!
# Facts given as a list, with disjunctions

`etc/scallopy/scallopy/context.py` (`_process_disjunctive_elements`), the branch of
`etc/scallopy/scallopy/forward.py` (`_process_input_facts`) for lists, and what the bindings read
(`etc/scallopy/src/provenance.rs`).  Exceptions are `none`.
-/

namespace Scallop.ListFacts

/-- A tag as a Python value: a probability (a tensor with one element), a number, `None`, or a tuple (`context.py` 782–797). -/
inductive PyTag (P : Type) where
  | prob (p : P)
  | num (n : Nat)
  | nul
  | tup (l : List (PyTag P))

/-- The inner loop of `_process_disjunctive_elements` (`context.py` 779–785): the facts of one disjunction.  Simplified: numbers of facts are
not negative; provenances that take no tags are left out. -/
def assignOne (elems : List (PyTag P × τ)) (id : Nat) : List Nat → List (PyTag P × τ) → Option (List (PyTag P × τ))
  | [], pr => some pr
  | i :: d, pr => match elems[i]? with
    | none => none
    | some (tag, t) => assignOne elems id d (pr.set i (.tup [tag, .num id], t))

/-- The loop over the disjunctions (`context.py` 774–785). -/
def assignAll (elems : List (PyTag P × τ)) : List (List Nat) → Nat → List (PyTag P × τ) → Option (List (PyTag P × τ))
  | [], _, pr => some pr
  | d :: ds, c, pr => match assignOne elems c d pr with
    | none => none
    | some pr' => assignAll elems ds (c + 1) pr'

/-- The tag of a fact that is in no disjunction (`context.py` 792–795). -/
def alone : PyTag P → PyTag P
  | .tup l => .tup (l ++ [.nul])
  | tag => .tup [tag, .nul]

/-- The facts that are in no disjunction (`context.py` 788–795). -/
def finish (visited : Nat → Bool) : Nat → List (PyTag P × τ) → List (PyTag P × τ) → List (PyTag P × τ)
  | _, [], pr => pr
  | n, (tag, t) :: es, pr => finish visited (n + 1) es (if visited n then pr else pr.set n (alone tag, t))

/-- `_process_disjunctive_elements` (`context.py` 762–800): the facts with their tags and the counter afterwards. -/
def processElems (supports : Bool) (elems : List (PyTag P × τ)) (ds : Option (List (List Nat))) (c : Nat) :
    Option (List (PyTag P × τ) × Nat) :=
  if supports then
    match ds with
    | none => some (finish (fun _ => false) 0 elems elems, c)
    | some ds => match assignAll elems ds c elems with
      | none => none
      | some pr => some (finish (fun n => ds.any (fun d => d.contains n)) 0 elems pr, c + ds.length)
  else some (elems, c)

/-- Inserts before the first element that is smaller or equal; a step of `sorted` (`forward.py` 488, 492). -/
def insertDesc (lt : P → P → Bool) (x : (P × τ) × Nat) : List ((P × τ) × Nat) → List ((P × τ) × Nat)
  | [] => [x]
  | y :: l => if lt x.1.1 y.1.1 then y :: insertDesc lt x l else x :: y :: l

/-- `sorted(…, reverse=True)`, which keeps the order of equal elements (`forward.py` 488, 492); insertion sort in place of Python's. -/
def sortDesc (lt : P → P → Bool) : List ((P × τ) × Nat) → List ((P × τ) × Nat)
  | [] => []
  | x :: l => insertDesc lt x (sortDesc lt l)

/-- The branch of `_process_input_facts` for lists (`forward.py` 483–498). -/
def listFacts (lt : P → P → Bool) (supports : Bool) (retain : Option Nat) (facts : List (P × τ)) (ds : Option (List (List Nat))) (c : Nat) :
    Option (List (PyTag P × τ) × Nat) :=
  match retain with
  | none => processElems supports (facts.map fun f => (.prob f.1, f.2)) ds c
  | some k =>
    let indexed := (sortDesc lt facts.zipIdx).take (min k facts.length)
    processElems supports (indexed.map fun f => (.prob f.1.1, f.1.2))
      (ds.map fun ds => ds.map fun d => d.filterMap fun i => ((indexed.map Prod.snd).zipIdx).lookup i) c

/-- What the bindings read of a tag: the probability and the number of the disjunction (`provenance.rs` 312–321, the same for the other
provenances with disjunctions). -/
def readTag : PyTag P → Option (P × Option Nat)
  | .tup [.prob p, .num e] => some (p, some e)
  | .tup [.prob p, .nul] => some (p, none)
  | _ => none

/-- The same for the provenance for debugging, with the number the user gave to the fact (`provenance.rs` 359–379). -/
def readDebugTag : PyTag P → Option (P × Nat × Option Nat)
  | .tup [.prob p, .num i, .num e] => if i = 0 then none else some (p, i, some e)
  | .tup [.prob p, .num i, .nul] => if i = 0 then none else some (p, i, none)
  | _ => none

end Scallop.ListFacts
