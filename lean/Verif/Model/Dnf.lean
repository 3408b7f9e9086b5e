import Verif.Model.Clause
import Verif.Model.Provenance
import Mathlib.Algebra.Field.Basic

/-!
# Top-k proofs

Models `/repo/core/src/runtime/provenance/common/{dnf_formula,dnf_context}.rs` and
`/repo/core/src/runtime/provenance/probabilistic/top_k_proofs.rs`. Probabilities are elements of an ordered field `K` (no rounding, no
NaN, so that `partial_cmp(..).unwrap()` does not panic).
-/

namespace Scallop

variable {K : Type*} [Field K] [LinearOrder K]

/-- Models `struct DNFFormula` (`dnf_formula.rs` 6-8). -/
abbrev Dnf := List Clause

/-- Models `DNFFormula::or` (`dnf_formula.rs` 54-58). -/
def Dnf.or (t1 t2 : Dnf) : Dnf := t1 ++ t2

/-- Models `DNFFormula::and` (`dnf_formula.rs` 60-67). -/
def Dnf.and (t1 t2 : Dnf) : Dnf := t1.flatMap (fun c1 => t2.filterMap (fun c2 => c1.merge c2))

/-- Models `DNFFormula::dedup` (`dnf_formula.rs` 69-84): keep the first of equal clauses; `acc` is `result_clauses`. -/
def Dnf.dedupLoop : Dnf → Dnf → Dnf
  | acc, [] => acc
  | acc, c :: cs => if c ∈ acc then dedupLoop acc cs else dedupLoop (acc ++ [c]) cs

/-- Models `DNFFormula::dedup` (`dnf_formula.rs` 69-84). -/
def Dnf.dedup (t : Dnf) : Dnf := Dnf.dedupLoop [] t

/-- The state behind a `DNFContextTrait` (`dnf_context.rs` 9-12, `top_k_proofs.rs` 56-64): the probability of each fact and the mutual
exclusions. The code panics on a fact id that was never allocated; here every id has a probability. -/
structure DnfCtx (K : Type*) where
  prob : Nat → K
  disj : Disjunctions

namespace DnfCtx

/-- Models `literal_probability` (`dnf_context.rs` 14-19). -/
def literalProb (x : DnfCtx K) : Literal → K
  | .pos i => x.prob i
  | .neg i => 1 - x.prob i

/-- Models `clause_probability` (`dnf_context.rs` 21-26). -/
def clauseProb (x : DnfCtx K) (c : Clause) : K := c.foldl (fun agg l => agg * x.literalProb l) 1

/-- Models `retain_no_conflict` (`dnf_context.rs` 28-30). -/
def retainNoConflict (x : DnfCtx K) (cs : Dnf) : Dnf := cs.filter (fun c => !x.disj.hasConflict c.posFactIds)

/-- A stable sort by descending key, as `sort_by(.. .partial_cmp(..).reverse())`. The result of a stable sort is unique, so insertion sort
stands for the library's algorithm. -/
def sortDesc {β : Type*} (key : β → K) (l : List β) : List β := l.insertionSort (fun a b => key b ≤ key a)

/-- Models `retain_top_k` (`dnf_context.rs` 32-41). -/
def retainTopK (x : DnfCtx K) (cs : Dnf) (k : Nat) : Dnf := (sortDesc x.clauseProb cs).take k

/-- Models `top_k_add` (`dnf_context.rs` 211-216). -/
def topKAdd (x : DnfCtx K) (k : Nat) (t1 t2 : Dnf) : Dnf := x.retainTopK (t1.or t2).dedup k

/-- Models `top_k_mult` (`dnf_context.rs` 218-224). -/
def topKMult (x : DnfCtx K) (k : Nat) (t1 t2 : Dnf) : Dnf := x.retainTopK (x.retainNoConflict (t1.and t2).dedup) k

/-! ### cnf2dnf_k -/

/-- Models `struct Element` in `cnf2dnf_k` (`dnf_context.rs` 71-76). -/
structure HeapElem (K : Type*) where
  prob : K
  indices : List Nat
  clause : Clause

/-- The literals selected by an index vector (`dnf_context.rs` 113-121); `none` when an index is over bound. (An index vector of
another length would panic; all have the length of the list of clauses.) -/
def choose : List Clause → List Nat → Option (List Literal)
  | [], [] => some []
  | c :: cs, i :: is =>
    match c[i]?, choose cs is with
    | some l, some ls => some (l :: ls)
    | _, _ => none
  | _, _ => none

/-- The key of `literals.sort_by_key` (`dnf_context.rs` 122). -/
def literalKey (l : Literal) : Nat := l.factId * 2 + if l.sign then 0 else 1

/-- Models `Vec::dedup`: drop an element equal to the one before it. -/
def dedupAdj : List Literal → List Literal
  | a :: b :: l => if a = b then dedupAdj (b :: l) else a :: dedupAdj (b :: l)
  | l => l

/-- Models `create_element` (`dnf_context.rs` 108-129). -/
def createElement (x : DnfCtx K) (cnf : List Clause) (indices : List Nat) : Option (HeapElem K) :=
  (choose cnf indices).map (fun ls =>
    let clause := dedupAdj (ls.insertionSort (fun a b => literalKey a ≤ literalKey b))
    ⟨x.clauseProb clause, indices, clause⟩)

/-- Models `next_elements` (`dnf_context.rs` 132-145). -/
def nextElements (x : DnfCtx K) (cnf : List Clause) (indices : List Nat) : List (HeapElem K) :=
  (List.range indices.length).filterMap (fun i => createElement x cnf (indices.modify i (· + 1)))

/-- The `while` loop of `cnf2dnf_k` (`dnf_context.rs` 168-188), for at most the given number of turns (`none` when they do not suffice).
`pop` is `BinaryHeap::pop`: it returns some element of greatest probability and the remaining heap, the choice among equals is left
open. -/
def cnf2dnfLoop (x : DnfCtx K) (pop : List (HeapElem K) → Option (HeapElem K × List (HeapElem K))) (cnf : List Clause) (k : Nat) :
    Nat → List (HeapElem K) → List (List Nat) → Dnf → Option Dnf
  | 0, _, _, _ => none
  | fuel + 1, heap, visited, result =>
    if result.length < k then
      match pop heap with
      | none => some result
      | some (e, heap) =>
        if e.indices ∈ visited then cnf2dnfLoop x pop cnf k fuel heap visited result
        else
          cnf2dnfLoop x pop cnf k fuel (heap ++ nextElements x cnf e.indices) (e.indices :: visited)
            (if e.clause.isValid && !x.disj.hasConflict e.clause.posFactIds then result ++ [e.clause] else result)
    else some result

/-- Number of turns after which the loop has always ended (`c28_terminates`): one for each element ever pushed. -/
def cnf2dnfFuel (cnf : List Clause) : Nat := cnf.length * (cnf.map List.length).prod + 2

/-- Models `cnf2dnf_k` (`dnf_context.rs` 70-193). `none` is a panic or a loop that does not end. -/
def cnf2dnfK (x : DnfCtx K) (pop : List (HeapElem K) → Option (HeapElem K × List (HeapElem K))) (f : List Clause) (k : Nat) : Option Dnf :=
  let cnf := f.map (sortDesc x.literalProb)
  if cnf.isEmpty then some [[]]
  else if cnf.any List.isEmpty then some []
  else
    match createElement x cnf (List.replicate cnf.length 0) with
    | none => none
    | some first => cnf2dnfLoop x pop cnf k (cnf2dnfFuel cnf) [first] [] []

/-- Models `top_k_negate` (`dnf_context.rs` 226-236). -/
def topKNegate (x : DnfCtx K) (pop : List (HeapElem K) → Option (HeapElem K × List (HeapElem K))) (t : Dnf) (k : Nat) : Option Dnf :=
  cnf2dnfK x pop (t.map (fun c => c.map Literal.negate)) k

/-- One possible `BinaryHeap::pop`: remove the first of the elements of greatest probability. Used in examples. -/
def popMax : List (HeapElem K) → Option (HeapElem K × List (HeapElem K))
  | [] => none
  | e :: h =>
    match popMax h with
    | none => some (e, [])
    | some (m, rest) => if m.prob ≤ e.prob then some (e, h) else some (m, e :: rest)

end DnfCtx

/-- Models the operations of `TopKProofsProvenance` (`top_k_proofs.rs` 66-130) in a state with the given probabilities and exclusions. A
negation that panics is undefined here; it never does (`c28_negate`). The weight (a probability) is left out. -/
def topKProv (x : DnfCtx K) (pop : List (DnfCtx.HeapElem K) → Option (DnfCtx.HeapElem K × List (DnfCtx.HeapElem K))) (k : Nat) : Prov Dnf Unit where
  zero := []
  one := [[]]
  add := x.topKAdd k
  mult := x.topKMult k
  negate := fun t => x.topKNegate pop t k
  saturated := fun a b => decide (a = b)
  discard := fun t => t.isEmpty
  weight := fun _ => ()

end Scallop
