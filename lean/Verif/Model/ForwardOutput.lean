import Mathlib.Algebra.Ring.Defs

/-!
# Outputs and gradients of forward functions

The second half of `etc/scallopy/scallopy/forward.py`: what is returned for the collections that were computed, and
the matrix of derivatives with which gradients are passed back (`etc/scallopy/scallopy/utils/backward_proxy.py`).
Exceptions are `none`.  Numbers are of any commutative semiring; rounding is not modelled.
-/

namespace Scallop.ForwardOut

/-- A dictionary, in the order of insertion: setting a key (`forward.py` 378–411, 614). -/
def dictSet [DecidableEq κ] (k : κ) (v : β) : List (κ × β) → List (κ × β)
  | [] => [(k, v)]
  | (k', v') :: d => if k' = k then (k', v) :: d else (k', v') :: dictSet k v d

/-- The value of a key. -/
def dictGet [DecidableEq κ] (k : κ) : List (κ × β) → Option β
  | [] => none
  | (k', v) :: d => if k' = k then some v else dictGet k d

/-- An output tag of the differentiable provenances: the probability and the derivatives by the input facts
(`provenance.rs`, `to_output_py_tag`). -/
structure Tag (R : Type) where
  prob : R
  deriv : List (Nat × R)

/-- `{ tup: tag for (tag, tup) in internal_collection }` (`forward.py` 614). -/
def dictOf [DecidableEq τ] (coll : List (Tag R × τ)) : List (τ × Tag R) := coll.foldl (fun d e => dictSet e.2 e.1 d) []

/-- The result of `_process_single_output`: a list in the order of the mapping, or the dictionary (`forward.py` 615–618). -/
inductive Out (R τ : Type) where
  | listed (l : List (Option (Tag R)))
  | dict (d : List (τ × Tag R))

/-- An output mapping: whether it is a single tuple, and the tuples (`forward.py` 226–236). -/
abbrev Mapping (τ : Type) := Bool × List τ

/-- `_process_single_output` (`forward.py` 610–618). -/
def singleOutput [DecidableEq τ] (mapping : Option (Mapping τ)) (coll : List (Tag R × τ)) : Out R τ :=
  match mapping with
  | some m => .listed (m.2.map fun t => dictGet t (dictOf coll))
  | none => .dict (dictOf coll)

/-- A probability, zero for a missing tuple (`forward.py` 744–748). -/
def probOf [Zero R] : Option (Tag R) → R
  | some t => t.prob
  | none => 0

/-- `_batched_prob` (`forward.py` 740–750); `torch.stack` of no tensors is an exception. -/
def batchedProb [Zero R] (rows : List (List (Option (Tag R)))) : Option (List (List R)) :=
  if rows.isEmpty || rows.any List.isEmpty then none else some (rows.map fun r => r.map probOf)

/-- What is returned for a relation (`forward.py` 647–705): a vector if the mapping is a single tuple, a matrix, or the tuples that were found and a matrix.
Simplified: the debugging information is left out. -/
inductive Res (R τ : Type) where
  | vec (l : List R)
  | mat (m : List (List R))
  | found (tuples : List τ) (m : List (List R))

/-- The lists of a batch; a dictionary in their place is an exception (simplified: for some dictionaries, the first components of
the tuples would be taken for probabilities). -/
def listedAll : List (Out R τ) → Option (List (List (Option (Tag R))))
  | [] => some []
  | .listed l :: r => (listedAll r).map (l :: ·)
  | .dict _ :: _ => none

/-- The dictionaries of a batch; a list has no `items` (`forward.py` 668–670). -/
def dictAll : List (Out R τ) → Option (List (List (τ × Tag R)))
  | [] => some []
  | .dict d :: r => (dictAll r).map (d :: ·)
  | .listed _ :: _ => none

/-- `_process_one_output` (`forward.py` 647–705).  `order` is the order in which Python lists the elements of a set. -/
def oneOutput [DecidableEq τ] [Zero R] (order : List τ → List τ) (mapping : Option (Mapping τ)) (outs : List (Out R τ)) : Option (Res R τ) :=
  match mapping with
  | some m => match listedAll outs with
    | none => none
    | some rows => (batchedProb rows).map fun v => if m.1 then .vec v.flatten else .mat v
  | none => match dictAll outs with
    | none => none
    | some ds =>
      let tuples := order (ds.flatMap fun d => d.map Prod.fst)
      if tuples.isEmpty then some (.found [] (ds.map fun _ => []))
      else (batchedProb (ds.map fun d => tuples.map fun t => dictGet t d)).map fun v => .found tuples v

/-- `_process_output` (`forward.py` 620–645): for each output its name and what is returned.  Simplified: a single output is returned without
its name. -/
def processOutput [DecidableEq τ] [Zero R] (order : List τ → List τ) (outputs : List String) (mappings : List (String × Option (Mapping τ)))
    (results : List (List (Out R τ))) : Option (List (String × Res R τ)) :=
  let outs := if outputs.isEmpty then mappings.map Prod.fst else outputs
  if outs.isEmpty then none else
  outs.zipIdx.mapM fun (name, i) => match dictGet name mappings, results.mapM (fun r => r[i]?) with
    | some m, some col => (oneOutput order m col).map fun r => (name, r)
    | _, _ => none

/-- The output relations of a call: those of the function if the call names none (`forward.py` 358–363). -/
def askedFor (outputs : List String) : Option (List String) → List String
  | some r => r
  | none => outputs

/-- `_call_with_dynamic_ctx` (`forward.py` 339–434): `outputs` and `mappings` are those of the forward function, `relations` and `given` those of the
call, `run` the collections computed for the items of the batch.  Simplified: the output relations are the same for all items, and the mappings
of the call are a dictionary of non-empty mappings (387–391, 401–404: others are exceptions). -/
def forward [DecidableEq τ] [Zero R] (order : List τ → List τ) (outputs : List String) (mappings : List (String × Option (Mapping τ)))
    (relations : Option (List String)) (given : List (String × Mapping τ)) (run : List (String → List (Tag R × τ))) :
    Option (List (String × Res R τ)) :=
  let rels := askedFor outputs relations
  let current := given.foldl (fun d e => dictSet e.1 (some e.2) d) mappings
  if run.isEmpty || rels.isEmpty then none
  else if given.any (fun e => e.2.2.isEmpty) then none
  else if given.any (fun e => !rels.contains e.1) then none
  else processOutput order outputs current (run.map fun coll => rels.map fun r =>
    singleOutput (match dictGet r current with | some m => m | none => none) (coll r))

/-! ## Gradients -/

/-- A row of the dense matrix: zeros, in which the derivatives are set (`forward.py` 838–845). -/
def denseRow (row : List R) : List (Nat × R) → Option (List R)
  | [] => some row
  | (i, w) :: d => if i < row.length then denseRow (row.set i w) d else none

/-- A row for each output of an item (`forward.py` 838–845). -/
def denseRows [Zero R] (n : Nat) : List (Option (Tag R)) → Option (List (List R))
  | [] => some []
  | none :: l => (denseRows n l).map (List.replicate n 0 :: ·)
  | some t :: l => match denseRow (List.replicate n 0) t.deriv, denseRows n l with
    | some r, some rs => some (r :: rs)
    | _, _ => none

/-- The sum of the products of the gradients with the entries of a column: `einsum("ikj,ik->ij")` (`backward_proxy.py` 32). -/
def column [CommSemiring R] (j : Nat) : List (List R) → List R → Option R
  | [], [] => some 0
  | r :: rs, g :: gs => match r[j]?, column j rs gs with
    | some w, some s => some (w * g + s)
    | _, _ => none
  | _, _ => none

/-- The gradients of the inputs of an item with the dense matrix. -/
def gradDense [CommSemiring R] (n : Nat) (outs : List (Option (Tag R))) (gs : List R) : Option (List R) :=
  match denseRows n outs with
  | none => none
  | some rs => (List.range n).mapM fun j => column j rs gs

/-- The entries of the sparse matrix for an item, multiplied with the gradients (`forward.py` 819–830, `backward_proxy.py` 25–30). -/
def entries [CommSemiring R] : List (Option (Tag R)) → List R → List (Nat × R)
  | some t :: l, g :: gs => t.deriv.map (fun e => (e.1, e.2 * g)) ++ entries l gs
  | none :: l, _ :: gs => entries l gs
  | _, _ => []

/-- The sum of the entries of a column. -/
def sumAt [CommSemiring R] (j : Nat) : List (Nat × R) → R
  | [] => 0
  | (i, w) :: l => if i = j then w + sumAt j l else sumAt j l

/-- The gradients of the inputs of an item with the sparse matrix (`backward_proxy.py` 25–30). -/
def gradSparse [CommSemiring R] (n : Nat) (outs : List (Option (Tag R))) (gs : List R) : Option (List R) :=
  if (entries outs gs).any (fun e => decide (n ≤ e.1)) then none else some ((List.range n).map fun j => sumAt j (entries outs gs))

/-- An output for which the sparse matrix gets no entries (`forward.py` 824–828). -/
def noDeriv : Option (Tag R) → Bool
  | some t => t.deriv.isEmpty
  | none => true

/-- `_diff_proofs_batched_proxy_output` and its use (`forward.py` 795–854): the gradients of the inputs of all items, each item having as many
inputs as the one with most of them; those that an item does not have are dropped (the padding of `mat_i`).  Without inputs, none are passed back
(807).  Without any derivative, `torch.tensor([]).t()` has one dimension, which `torch.sparse_coo_tensor` does not take as indices (831–836): an exception. -/
def gradients [CommSemiring R] (sparse : Bool) (inputs : List Nat) (outs : List (List (Option (Tag R)))) (gs : List (List R)) : Option (List (List R)) :=
  let n := inputs.foldl max 0
  if n = 0 then some (inputs.map fun _ => [])
  else if sparse && outs.all (fun o => o.all noDeriv) then none
  else (inputs.zip (outs.zip gs)).mapM fun (k, o, g) => (if sparse then gradSparse n o g else gradDense n o g).map (List.take k)

end Scallop.ForwardOut
