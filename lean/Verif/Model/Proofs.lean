import Verif.Model.Dnf
import Mathlib.Data.List.Lex

/-!
# Proof-set tags and histories of tagging

Models `/repo/core/src/runtime/provenance/discrete/proofs.rs`, the stateful part of
`/repo/core/src/runtime/provenance/probabilistic/top_k_proofs.rs`, and
`/repo/core/src/runtime/provenance/probabilistic/sample_k_proofs.rs`.
-/

namespace Scallop

/-- Models `struct Proof` (`proofs.rs` 9-12), a `BTreeSet<usize>`. The derived order is lexicographic, as that of lists. -/
abbrev Proof := List Nat

/-- Models `struct Proofs` (`proofs.rs` 57-60), a `BTreeSet<Proof>`. -/
abbrev Proofs := List Proof

/-- Models `Proof::merge` (`proofs.rs` 15-19). -/
def Proof.merge (p1 p2 : Proof) : Proof := bsetCollect (p1 ++ p2)

/-- Models `Proofs::union` (`proofs.rs` 83-87). -/
def Proofs.union (t1 t2 : Proofs) : Proofs := bsetCollect (t1 ++ t2)

/-- Models `Proofs::cartesian_product` (`proofs.rs` 89-96). -/
def Proofs.cartesianProduct (t1 t2 : Proofs) : Proofs := bsetCollect (t1.flatMap (fun p1 => t2.map (fun p2 => Proof.merge p1 p2)))

/-- Models `ProofsProvenance` (`proofs.rs` 154-217) in a state with the given mutual exclusions. In the code `negate` panics; no theorem here
uses the field. -/
def proofsProv (ds : Disjunctions) : Prov Proofs Unit where
  zero := []
  one := [[]]
  add := Proofs.union
  mult := fun t1 t2 => (Proofs.cartesianProduct t1 t2).filter (fun p => !ds.hasConflict p)
  negate := fun _ => none
  saturated := fun a b => decide (a = b)
  discard := fun t => t.isEmpty
  weight := fun _ => ()

/-! ### Histories -/

/-- One use of a provenance during the life of a program: tag a new fact (with the identifier of its mutual exclusion, if any), or combine
tags obtained before (referred to by their position). -/
inductive TagOp where
  | tag (exclusion : Option Nat)
  | zero
  | one
  | add (i j : Nat)
  | mult (i j : Nat)
  | negate (i : Nat)

/-- The state of `ProofsProvenance` (`proofs.rs` 134-137) and the tags handed out so far. -/
structure ProofsState where
  nextId : Nat
  disj : Disjunctions
  tags : List Proofs

/-- Models `tagging_fn` (`proofs.rs` 169-179). -/
def ProofsState.tagging (s : ProofsState) : Option Nat → Option (ProofsState)
  | none => some { s with nextId := s.nextId + 1, tags := s.tags ++ [[[s.nextId]]] }
  | some e => (s.disj.addDisjunction e s.nextId).map (fun d => ⟨s.nextId + 1, d, s.tags ++ [[[s.nextId]]]⟩)

/-- One operation; `none` for a position that does not exist, or a panic. -/
def ProofsState.step (s : ProofsState) : TagOp → Option ProofsState
  | .tag e => s.tagging e
  | .zero => some { s with tags := s.tags ++ [(proofsProv s.disj).zero] }
  | .one => some { s with tags := s.tags ++ [(proofsProv s.disj).one] }
  | .add i j =>
    match s.tags[i]?, s.tags[j]? with
    | some a, some b => some { s with tags := s.tags ++ [(proofsProv s.disj).add a b] }
    | _, _ => none
  | .mult i j =>
    match s.tags[i]?, s.tags[j]? with
    | some a, some b => some { s with tags := s.tags ++ [(proofsProv s.disj).mult a b] }
    | _, _ => none
  | .negate _ => none

/-- A whole history from the initial state (`proofs.rs` 139-146). -/
def ProofsState.run (ops : List TagOp) : Option ProofsState := ops.foldlM ProofsState.step ⟨0, Disjunctions.new, []⟩

variable {K : Type*} [Field K] [LinearOrder K]

/-- The state of `TopKProofsProvenance` (`top_k_proofs.rs` 4-9) and the tags handed out so far. `prob` gives the probability each fact will
be tagged with (`probs` in the code); only `numFacts` ids are in use. -/
structure TopKState (K : Type*) where
  numFacts : Nat
  ctx : DnfCtx K
  tags : List Dnf

/-- Models `tagging_fn` (`top_k_proofs.rs` 77-89). -/
def TopKState.tagging (s : TopKState K) : Option Nat → Option (TopKState K)
  | none => some { s with numFacts := s.numFacts + 1, tags := s.tags ++ [[[.pos s.numFacts]]] }
  | some e => (s.ctx.disj.addDisjunction e s.numFacts).map
      (fun d => ⟨s.numFacts + 1, { s.ctx with disj := d }, s.tags ++ [[[.pos s.numFacts]]]⟩)

/-- One operation (`top_k_proofs.rs` 105-127); `none` for a position that does not exist, or a panic. -/
def TopKState.step (pop : List (DnfCtx.HeapElem K) → Option (DnfCtx.HeapElem K × List (DnfCtx.HeapElem K))) (k : Nat) (s : TopKState K) :
    TagOp → Option (TopKState K)
  | .tag e => s.tagging e
  | .zero => some { s with tags := s.tags ++ [[]] }
  | .one => some { s with tags := s.tags ++ [[[]]] }
  | .add i j =>
    match s.tags[i]?, s.tags[j]? with
    | some a, some b => some { s with tags := s.tags ++ [s.ctx.topKAdd k a b] }
    | _, _ => none
  | .mult i j =>
    match s.tags[i]?, s.tags[j]? with
    | some a, some b => some { s with tags := s.tags ++ [s.ctx.topKMult k a b] }
    | _, _ => none
  | .negate i =>
    match s.tags[i]? with
    | some a => (s.ctx.topKNegate pop a k).map (fun n => { s with tags := s.tags ++ [n] })
    | none => none

/-- A whole history from the initial state (`top_k_proofs.rs` 34-41). -/
def TopKState.run (pop : List (DnfCtx.HeapElem K) → Option (DnfCtx.HeapElem K × List (DnfCtx.HeapElem K))) (k : Nat) (prob : Nat → K)
    (ops : List TagOp) : Option (TopKState K) :=
  ops.foldlM (TopKState.step pop k) ⟨0, ⟨prob, Disjunctions.new⟩, []⟩

/-! ### Sampling -/

/-- Models `sample_k_clauses` (`dnf_context.rs` 43-68). The positions drawn by the random generator are a parameter; the code draws at most
`k` different ones. -/
def DnfCtx.sampleKClauses (x : DnfCtx K) (clauses : Dnf) (k : Nat) (ids : List Nat) : Dnf :=
  if clauses.isEmpty then []
  else if clauses.length ≤ k then clauses
  else if (clauses.map x.clauseProb).foldl (fun a w => a + w) 0 = 0 then clauses.take k
  else (clauses.zipIdx.filter (fun p => decide (p.2 ∈ ids))).map Prod.fst

/-- Models `add` (`sample_k_proofs.rs` 99-105). -/
def DnfCtx.sampleKAdd (x : DnfCtx K) (k : Nat) (ids : List Nat) (t1 t2 : Dnf) : Dnf := x.sampleKClauses (t1.or t2) k ids

/-- Models `mult` (`sample_k_proofs.rs` 111-118); the code calls `or`. -/
def DnfCtx.sampleKMult (x : DnfCtx K) (k : Nat) (ids : List Nat) (t1 t2 : Dnf) : Dnf :=
  x.sampleKClauses (x.retainNoConflict (t1.or t2)) k ids

end Scallop
