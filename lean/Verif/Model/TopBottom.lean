import Verif.Model.Proofs
import Verif.Model.Wmc

/-!
# Top-bottom-k clauses

Models `/repo/core/src/runtime/provenance/common/{cnf_dnf_formula,cnf_dnf_context}.rs`,
`/repo/core/src/runtime/provenance/probabilistic/top_bottom_k_clauses.rs` and the operations of
`/repo/core/src/runtime/provenance/differentiable/diff_top_bottom_k_clauses.rs`, which are the same: a tag is a disjunction of at most `k`
probable conjunctions, or a conjunction of at most `k` improbable disjunctions.

Simplified as in `Model/Dnf.lean`: probabilities are elements of an ordered field. A disjunction is weighed by the probability that it is
false, instead of true (`DnfCtx.dual`), and the heap, that pops the least probable disjunction, pops the greatest of these weights.
-/

namespace Scallop

variable {K : Type*} [Field K] [LinearOrder K]

/-- Models `enum FormulaKind` (`cnf_dnf_formula.rs` 3-7). -/
inductive FormulaKind where
  | cnf
  | dnf
deriving DecidableEq, Repr

/-- Models `counterpart` (`cnf_dnf_formula.rs` 31-36). -/
def FormulaKind.counterpart : FormulaKind → FormulaKind
  | .cnf => .dnf
  | .dnf => .cnf

/-- Models `struct CNFDNFFormula` (`cnf_dnf_formula.rs` 40-44). -/
structure CnfDnf where
  kind : FormulaKind
  clauses : List Clause
deriving DecidableEq

namespace CnfDnf

/-- Models `dnf_zero` (`cnf_dnf_formula.rs` 106-108). -/
def dnfZero : CnfDnf := ⟨.dnf, []⟩

/-- Models `dnf_one` (`cnf_dnf_formula.rs` 110-112). -/
def dnfOne : CnfDnf := ⟨.dnf, [[]]⟩

/-- Models `dnf_singleton` (`cnf_dnf_formula.rs` 114-116). -/
def dnfSingleton (v : Nat) : CnfDnf := ⟨.dnf, [[.pos v]]⟩

/-- Models `is_zero` (`cnf_dnf_formula.rs` 118-123). -/
def isZero (t : CnfDnf) : Bool :=
  match t.kind with
  | .cnf => t.clauses.any List.isEmpty
  | .dnf => t.clauses.isEmpty

/-- Models `negate` (`cnf_dnf_formula.rs` 125-139). -/
def negate (t : CnfDnf) : CnfDnf :=
  match t.clauses with
  | [[l]] => ⟨t.kind, [[l.negate]]⟩
  | cs => ⟨t.kind.counterpart, cs.map (fun c => c.map Literal.negate)⟩

/-- Models `as_boolean_formula` (`cnf_dnf_formula.rs` 142-159). -/
def asBooleanFormula (t : CnfDnf) : BoolForm :=
  match t.kind with
  | .cnf => cnfAsBooleanFormula t.clauses
  | .dnf => Dnf.asBooleanFormula t.clauses

/-- Models `wmc` (`as_boolean_formula.rs` 13-20), and with the real numbers `recover_fn` without exclusions (`top_bottom_k_clauses.rs`
78-86). -/
def wmc {E : Type*} (t : CnfDnf) (s : Sdd.Diagram.Algebra E) (v : Nat → E) : Option E := t.asBooleanFormula.wmc s v

end CnfDnf

namespace DnfCtx

/-- The weights of disjunctions: each literal has the probability that it is false; exclusions do not matter. -/
def dual (x : DnfCtx K) : DnfCtx K := ⟨fun i => 1 - x.prob i, Disjunctions.new⟩

/-- Models `disjunction_probability` (`cnf_dnf_context.rs` 22-28). -/
def disjunctionProb (x : DnfCtx K) (c : Clause) : K := 1 - c.foldl (fun acc l => acc * x.literalProb l.negate) 1

/-- Models the loop of `add_formula_top_k` (`cnf_dnf_context.rs` 52-76): the heads of the lists are compared; equal ones are taken once. The
first argument is the number of conjunctions there is room for. -/
def mergeK (x : DnfCtx K) : Nat → List Clause → List Clause → List Clause
  | 0, _, _ => []
  | _ + 1, [], [] => []
  | k + 1, a :: as, [] => a :: mergeK x k as []
  | k + 1, [], b :: bs => b :: mergeK x k [] bs
  | k + 1, a :: as, b :: bs =>
    if a = b then a :: mergeK x k as bs
    else if x.clauseProb b < x.clauseProb a then a :: mergeK x k as (b :: bs)
    else b :: mergeK x k (a :: as) bs

/-- Models `add_formula_top_k` (`cnf_dnf_context.rs` 30-80). -/
def addFormulaTopK (x : DnfCtx K) (f1 f2 : List Clause) (k : Nat) : List Clause := x.mergeK k f1 f2

/-- Models `add_formula_bottom_k` (`cnf_dnf_context.rs` 82-132): the same with the less probable disjunction first. -/
def addFormulaBottomK (x : DnfCtx K) (f1 f2 : List Clause) (k : Nat) : List Clause := x.dual.mergeK k f1 f2

/-- Models `create_element` of the products (`cnf_dnf_context.rs` 172-180, 260-268); the two indices are a list. -/
def pairElement (x : DnfCtx K) (f1 f2 : List Clause) : List Nat → Option (HeapElem K)
  | [i, j] =>
    match f1[i]?, f2[j]? with
    | some a, some b => some ⟨x.clauseProb (a.mergeUnchecked b), [i, j], a.mergeUnchecked b⟩
    | _, _ => none
  | _ => none

/-- The `while` loop of the products (`cnf_dnf_context.rs` 187-215, 275-299), for at most the given number of turns: `create` makes an
element, `keep` says whether a clause is put into the result. The successors are those with the first and with the second index
incremented. -/
def heapLoop (create : List Nat → Option (HeapElem K)) (keep : Clause → Bool)
    (pop : List (HeapElem K) → Option (HeapElem K × List (HeapElem K))) (k : Nat) :
    Nat → List (HeapElem K) → List (List Nat) → List Clause → Option (List Clause)
  | 0, _, _, _ => none
  | fuel + 1, heap, visited, result =>
    if result.length < k then
      match pop heap with
      | none => some result
      | some (e, heap) =>
        if e.indices ∈ visited then heapLoop create keep pop k fuel heap visited result
        else
          heapLoop create keep pop k fuel
            (heap ++ (List.range e.indices.length).filterMap (fun i => create (e.indices.modify i (· + 1))))
            (e.indices :: visited) (if keep e.clause then result ++ [e.clause] else result)
    else some result

/-- The products after the corner cases. The number of turns always suffices (`c95_total`). -/
def multLoop (x : DnfCtx K) (keep : Clause → Bool) (pop : List (HeapElem K) → Option (HeapElem K × List (HeapElem K)))
    (f1 f2 : List Clause) (k : Nat) : Option (List Clause) :=
  match pairElement x f1 f2 [0, 0] with
  | none => none
  | some first => heapLoop (pairElement x f1 f2) keep pop k (2 * (f1.length * f2.length) + 2) [first] [] []

/-- Models `mult_formula_top_k` (`cnf_dnf_context.rs` 134-220). `none` is a panic or a loop that does not end. -/
def multFormulaTopK (x : DnfCtx K) (pop : List (HeapElem K) → Option (HeapElem K × List (HeapElem K))) (f1 f2 : List Clause) (k : Nat) :
    Option (List Clause) :=
  if f1.length = 0 ∨ f2.length = 0 then some []
  else if f1 = f2 then some f1
  else multLoop x (fun c => c.isValid && !x.disj.hasConflict c.posFactIds) pop f1 f2 k

/-- Models `mult_formula_bottom_k` (`cnf_dnf_context.rs` 222-304). -/
def multFormulaBottomK (x : DnfCtx K) (pop : List (HeapElem K) → Option (HeapElem K × List (HeapElem K))) (f1 f2 : List Clause) (k : Nat) :
    Option (List Clause) :=
  if f1.length = 0 ∨ f2.length = 0 then some [[]]
  else if f1 = f2 then some f1
  else multLoop x.dual Clause.isValid pop f1 f2 k

/-- Models `dnf2cnf_k` (`cnf_dnf_context.rs` 431-554). It is the code of `cnf2dnf_k` (`cnf_dnf_context.rs` 306-429, as in
`dnf_context.rs`) with ascending instead of descending probabilities, disjunctions instead of conjunctions and no exclusions; the results
in the corner cases, `cnf_zero` for `dnf_one` and `cnf_one` for `dnf_zero`, have the same clauses. -/
def dnf2cnfK (x : DnfCtx K) (pop : List (HeapElem K) → Option (HeapElem K × List (HeapElem K))) (f : List Clause) (k : Nat) :
    Option (List Clause) := x.dual.cnf2dnfK pop f k

/-- Models `top_bottom_k_add` (`cnf_dnf_context.rs` 556-564). -/
def topBottomKAdd (x : DnfCtx K) (pop : List (HeapElem K) → Option (HeapElem K × List (HeapElem K))) (k : Nat) (t1 t2 : CnfDnf) :
    Option CnfDnf :=
  match t1.kind, t2.kind with
  | .cnf, .cnf => (x.multFormulaBottomK pop t1.clauses t2.clauses k).map (CnfDnf.mk .cnf)
  | .dnf, .dnf => some ⟨.dnf, x.addFormulaTopK t1.clauses t2.clauses k⟩
  | .cnf, .dnf => (x.cnf2dnfK pop t1.clauses k).map (fun c => ⟨.dnf, x.addFormulaTopK c t2.clauses k⟩)
  | .dnf, .cnf => (x.cnf2dnfK pop t2.clauses k).map (fun c => ⟨.dnf, x.addFormulaTopK t1.clauses c k⟩)

/-- Models `top_bottom_k_mult` (`cnf_dnf_context.rs` 566-574). -/
def topBottomKMult (x : DnfCtx K) (pop : List (HeapElem K) → Option (HeapElem K × List (HeapElem K))) (k : Nat) (t1 t2 : CnfDnf) :
    Option CnfDnf :=
  match t1.kind, t2.kind with
  | .cnf, .cnf => some ⟨.cnf, x.addFormulaBottomK t1.clauses t2.clauses k⟩
  | .dnf, .dnf => (x.multFormulaTopK pop t1.clauses t2.clauses k).map (CnfDnf.mk .dnf)
  | .cnf, .dnf => (x.dnf2cnfK pop t2.clauses k).map (fun c => ⟨.cnf, x.addFormulaBottomK t1.clauses c k⟩)
  | .dnf, .cnf => (x.dnf2cnfK pop t1.clauses k).map (fun c => ⟨.cnf, x.addFormulaBottomK c t2.clauses k⟩)

end DnfCtx

/-- The state of `TopBottomKClausesProvenance` (`top_bottom_k_clauses.rs` 7-12) and the tags handed out so far, as in `TopKState`. -/
structure TopBottomState (K : Type*) where
  numFacts : Nat
  ctx : DnfCtx K
  tags : List CnfDnf

/-- Models `tagging_fn` (`top_bottom_k_clauses.rs` 62-75). -/
def TopBottomState.tagging (s : TopBottomState K) : Option Nat → Option (TopBottomState K)
  | none => some { s with numFacts := s.numFacts + 1, tags := s.tags ++ [.dnfSingleton s.numFacts] }
  | some e => (s.ctx.disj.addDisjunction e s.numFacts).map
      (fun d => ⟨s.numFacts + 1, { s.ctx with disj := d }, s.tags ++ [.dnfSingleton s.numFacts]⟩)

/-- One operation (`top_bottom_k_clauses.rs` 92-111); `none` for a position that does not exist, or a panic. -/
def TopBottomState.step (pop : List (DnfCtx.HeapElem K) → Option (DnfCtx.HeapElem K × List (DnfCtx.HeapElem K))) (k : Nat)
    (s : TopBottomState K) : TagOp → Option (TopBottomState K)
  | .tag e => s.tagging e
  | .zero => some { s with tags := s.tags ++ [.dnfZero] }
  | .one => some { s with tags := s.tags ++ [.dnfOne] }
  | .add i j =>
    match s.tags[i]?, s.tags[j]? with
    | some a, some b => (s.ctx.topBottomKAdd pop k a b).map (fun t => { s with tags := s.tags ++ [t] })
    | _, _ => none
  | .mult i j =>
    match s.tags[i]?, s.tags[j]? with
    | some a, some b => (s.ctx.topBottomKMult pop k a b).map (fun t => { s with tags := s.tags ++ [t] })
    | _, _ => none
  | .negate i => (s.tags[i]?).map (fun a => { s with tags := s.tags ++ [a.negate] })

/-- A whole history from the initial state (`top_bottom_k_clauses.rs` 25-33). -/
def TopBottomState.run (pop : List (DnfCtx.HeapElem K) → Option (DnfCtx.HeapElem K × List (DnfCtx.HeapElem K))) (k : Nat) (prob : Nat → K)
    (ops : List TagOp) : Option (TopBottomState K) :=
  ops.foldlM (TopBottomState.step pop k) ⟨0, ⟨prob, Disjunctions.new⟩, []⟩

end Scallop
