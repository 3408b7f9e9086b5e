import Verif.Model.Dnf
import Verif.Model.Tuple

/-!
# Tags of facts

Models how a fact gets its tag: the tag written in a program (`/repo/core/src/compiler/front/f2b/f2b.rs`,
`/repo/core/src/compiler/front/transformations/non_constant_fact_to_rule.rs`), the tag of a fact of a program or of an input
(`/repo/core/src/common/input_tag.rs`), its conversion to the input tag of a provenance
(`/repo/core/src/runtime/provenance/common/input_tags/`), its registration when a database is internalized
(`/repo/core/src/runtime/database/extensional/relation.rs`, `tagging_fn` and `tagging_optional_fn` of the provenances), and the numbers
of mutual exclusions (`/repo/core/src/compiler/back/b2r.rs`, `/repo/core/src/runtime/database/extensional/database.rs`,
`/repo/core/src/runtime/env/environment.rs`, `/repo/core/src/runtime/dynamic/dataflow/dynamic_exclusion.rs`).

Simplified: floating point numbers are elements of an ordered field; of a tensor only the number it holds is kept, and of the tag that
receives gradients only whether there is one.
-/

namespace Scallop.Input

variable {K V : Type*}

/-! ## Tags -/

/-- Models `enum DynamicInputTag` (`common/input_tag.rs` 5-17). -/
inductive DynTag (K : Type*) where
  | none
  | newVariable
  | exclusive (e : Nat)
  | bool (b : Bool)
  | natural (n : Nat)
  | float (f : K)
  | exclusiveFloat (f : K) (e : Nat)
  | floatWithId (id : Nat) (f : K)
  | exclusiveFloatWithId (id : Nat) (f : K) (e : Nat)
  | tensor (f : K)
deriving DecidableEq

/-- Models `with_exclusivity` (`common/input_tag.rs` 34-41). -/
def DynTag.withExclusivity (e : Nat) : DynTag K → DynTag K
  | .none => .exclusive e
  | .float f => .exclusiveFloat f e
  | .exclusiveFloat f _ => .exclusiveFloat f e
  | t => t

/-- The types of input tags (`provenance/common/input_tags/`). -/
inductive Kind where
  | unit
  | bool
  | natural
  | exclusion
  | float
  | exclusiveProb
  | diffProb
  | exclusiveDiffProb
  | exclusiveDiffProbWithId
deriving DecidableEq

/-- The values of these types: `()`, `bool`, `usize`, `Exclusion` (`input_exclusion.rs` 6-10; `none` is `Independent`), `f64`,
`InputExclusiveProb` (`input_exclusive_prob.rs` 6-13), `InputDiffProb` (`input_diff_prob.rs` 15-16), `InputExclusiveDiffProb`
(`input_exclusive_diff_prob.rs` 6-16), `InputExclusiveDiffProbWithID` (`input_exclusive_diff_prob_with_id.rs` 6-19). -/
inductive InTag (K : Type*) where
  | unit
  | bool (b : Bool)
  | natural (n : Nat)
  | exclusion (e : Option Nat)
  | float (f : K)
  | exclusiveProb (p : K) (e : Option Nat)
  | diffProb (p : K) (grad : Bool)
  | exclusiveDiffProb (p : K) (grad : Bool) (e : Option Nat)
  | exclusiveDiffProbWithId (id : Nat) (p : K) (grad : Bool) (e : Option Nat)
deriving DecidableEq

section
variable [Zero K] [One K] [LT K] [DecidableLT K]

/-- `if b { 1.0 } else { 0.0 }`. -/
def ofBool (b : Bool) : K := if b then 1 else 0

/-- Models `from_dynamic_input_tag` for each type (`boolean.rs`, `natural.rs`, `float.rs`, `unit.rs`, `input_exclusion.rs`: the first `impl` of each,
`input_exclusive_prob.rs` 51-61, `input_diff_prob.rs` 30-45, `input_exclusive_diff_prob.rs` 52-103, `input_exclusive_diff_prob_with_id.rs` 58-83). -/
def ofDyn : Kind → DynTag K → Option (InTag K)
  | .unit, _ => some .unit
  | .bool, .bool b => some (.bool b)
  | .bool, _ => none
  | .natural, .natural n => some (.natural n)
  | .natural, .bool b => some (.natural (if b then 1 else 0))
  | .natural, .float f => some (.natural (if 0 < f then 1 else 0))
  | .natural, .exclusiveFloat f _ => some (.natural (if 0 < f then 1 else 0))
  | .natural, .floatWithId _ f => some (.natural (if 0 < f then 1 else 0))
  | .natural, .exclusiveFloatWithId _ f _ => some (.natural (if 0 < f then 1 else 0))
  | .natural, .tensor _ => some (.natural 1)
  | .natural, _ => none
  | .exclusion, .exclusive e => some (.exclusion (some e))
  | .exclusion, .exclusiveFloat _ e => some (.exclusion (some e))
  | .exclusion, _ => some (.exclusion none)
  | .float, .float f => some (.float f)
  | .float, .exclusiveFloat f _ => some (.float f)
  | .float, _ => none
  | .exclusiveProb, .float f => some (.exclusiveProb f none)
  | .exclusiveProb, .exclusive e => some (.exclusiveProb 1 (some e))
  | .exclusiveProb, .exclusiveFloat f e => some (.exclusiveProb f (some e))
  | .exclusiveProb, .tensor f => some (.exclusiveProb f none)
  | .exclusiveProb, _ => none
  | .diffProb, .bool b => some (.diffProb (ofBool b) false)
  | .diffProb, .natural n => some (.diffProb (ofBool (decide (0 < n))) false)
  | .diffProb, .float f => some (.diffProb f false)
  | .diffProb, .exclusiveFloat f _ => some (.diffProb f false)
  | .diffProb, .floatWithId _ f => some (.diffProb f false)
  | .diffProb, .exclusiveFloatWithId _ f _ => some (.diffProb f false)
  | .diffProb, .tensor f => some (.diffProb f true)
  | .diffProb, _ => none
  | .exclusiveDiffProb, .none => none
  | .exclusiveDiffProb, .newVariable => some (.exclusiveDiffProb 1 false none)
  | .exclusiveDiffProb, .bool b => some (.exclusiveDiffProb (ofBool b) false none)
  | .exclusiveDiffProb, .natural n => some (.exclusiveDiffProb (ofBool (decide (0 < n))) false none)
  | .exclusiveDiffProb, .exclusive e => some (.exclusiveDiffProb 1 false (some e))
  | .exclusiveDiffProb, .float f => some (.exclusiveDiffProb f false none)
  | .exclusiveDiffProb, .exclusiveFloat f e => some (.exclusiveDiffProb f false (some e))
  | .exclusiveDiffProb, .floatWithId _ f => some (.exclusiveDiffProb f false none)
  | .exclusiveDiffProb, .exclusiveFloatWithId _ f e => some (.exclusiveDiffProb f false (some e))
  | .exclusiveDiffProb, .tensor f => some (.exclusiveDiffProb f true none)
  | .exclusiveDiffProbWithId, .floatWithId id f => some (.exclusiveDiffProbWithId id f false none)
  | .exclusiveDiffProbWithId, .exclusiveFloatWithId id f e => some (.exclusiveDiffProbWithId id f false (some e))
  | .exclusiveDiffProbWithId, _ => none

/-- `if p > 0.0 { 1 } else { 0 }`. -/
def posNat (p : K) : InTag K := .natural (if 0 < p then 1 else 0)

/-- Models `from_input_tag` (the other `impl`s of the same files), used when a context is cloned with another provenance
(`relation.rs` 71-94). The outer `none`: there is no such conversion (the program does not compile). -/
def convert : Kind → InTag K → Option (Option (InTag K))
  | .unit, _ => some (some .unit)
  | .bool, .unit => some none
  | .bool, .bool b => some (some (.bool b))
  | .bool, .natural n => some (some (.bool (decide (0 < n))))
  | .bool, .float f => some (some (.bool (decide (0 < f))))
  | .bool, .diffProb p _ => some (some (.bool (decide (0 < p))))
  | .bool, _ => none
  | .natural, .unit => some none
  | .natural, .bool b => some (some (.natural (if b then 1 else 0)))
  | .natural, .natural n => some (some (.natural n))
  | .natural, .exclusion _ => some none
  | .natural, .float f => some (some (posNat f))
  | .natural, .exclusiveProb p _ => some (some (posNat p))
  | .natural, .diffProb p _ => some (some (posNat p))
  | .natural, _ => none
  | .exclusion, .unit => some none
  | .exclusion, .bool _ => some none
  | .exclusion, .natural _ => some none
  | .exclusion, .float _ => some none
  | .exclusion, .exclusion e => some (some (.exclusion e))
  | .exclusion, .exclusiveProb _ e => some (some (.exclusion e))
  | .exclusion, .diffProb _ _ => some none
  | .exclusion, .exclusiveDiffProb _ _ e => some (some (.exclusion e))
  | .exclusion, .exclusiveDiffProbWithId _ _ _ e => some (some (.exclusion e))
  | .float, .unit => some none
  | .float, .bool b => some (some (.float (ofBool b)))
  | .float, .natural n => some (some (.float (ofBool (decide (0 < n)))))
  | .float, .exclusion _ => some none
  | .float, .float f => some (some (.float f))
  | .float, .exclusiveProb p _ => some (some (.float p))
  | .float, .diffProb p _ => some (some (.float p))
  | .float, .exclusiveDiffProb p _ _ => some (some (.float p))
  | .float, .exclusiveDiffProbWithId _ p _ _ => some (some (.float p))
  | .exclusiveProb, .unit => some none
  | .exclusiveProb, .bool b => some (if b then none else some (.exclusiveProb 0 none))
  | .exclusiveProb, .natural n => some (if 0 < n then none else some (.exclusiveProb 0 none))
  | .exclusiveProb, .float f => some (some (.exclusiveProb f none))
  | .exclusiveProb, .exclusion none => some none
  | .exclusiveProb, .exclusion (some e) => some (some (.exclusiveProb 1 (some e)))
  | .exclusiveProb, .exclusiveProb p e => some (some (.exclusiveProb p e))
  | .exclusiveProb, .diffProb p _ => some (some (.exclusiveProb p none))
  | .exclusiveProb, .exclusiveDiffProb p _ e => some (some (.exclusiveProb p e))
  | .exclusiveProb, .exclusiveDiffProbWithId _ p _ e => some (some (.exclusiveProb p e))
  | .diffProb, .unit => some none
  | .diffProb, .bool b => some (if b then none else some (.diffProb 0 false))
  | .diffProb, .natural n => some (if 0 < n then none else some (.diffProb 0 false))
  | .diffProb, .exclusion _ => some none
  | .diffProb, .float f => some (some (.diffProb f false))
  | .diffProb, .exclusiveProb p _ => some (some (.diffProb p false))
  | .diffProb, .diffProb p g => some (some (.diffProb p g))
  | .diffProb, .exclusiveDiffProb p _ _ => some (some (.diffProb p false))
  | .diffProb, .exclusiveDiffProbWithId _ p g _ => some (some (.diffProb p g))
  | .exclusiveDiffProb, .unit => some none
  | .exclusiveDiffProb, .bool b => some (if b then none else some (.exclusiveDiffProb 0 false none))
  | .exclusiveDiffProb, .natural n => some (if 0 < n then none else some (.exclusiveDiffProb 0 false none))
  | .exclusiveDiffProb, .exclusion none => some none
  | .exclusiveDiffProb, .exclusion (some e) => some (some (.exclusiveDiffProb 1 false (some e)))
  | .exclusiveDiffProb, .float f => some (some (.exclusiveDiffProb f false none))
  | .exclusiveDiffProb, .exclusiveProb p e => some (some (.exclusiveDiffProb p false e))
  | .exclusiveDiffProb, .diffProb p _ => some (some (.exclusiveDiffProb p false none))
  | .exclusiveDiffProb, .exclusiveDiffProb p g e => some (some (.exclusiveDiffProb p g e))
  | .exclusiveDiffProb, .exclusiveDiffProbWithId _ p g e => some (some (.exclusiveDiffProb p g e))
  | .exclusiveDiffProbWithId, .exclusiveDiffProb _ _ _ => none
  | .exclusiveDiffProbWithId, _ => some none

end

/-! ## Facts of a program -/

/-- The tag of a fact as it is written: a constant (a Boolean, a number or one of the others) or another expression. -/
inductive WrittenTag (K : Type*) where
  | bool (b : Bool)
  | number (f : K)
  | otherConstant
  | expr
deriving DecidableEq

/-- Models `to_constant_dyn_input_tag` (`f2b.rs` 630-641), after `as_constant` (`f2b.rs` 138). -/
def constantTag : Option (WrittenTag K) → DynTag K
  | some (.bool b) => .bool b
  | some (.number f) => .float f
  | some .otherConstant => .none
  | some .expr => .none
  | none => .none

/-- What a written fact becomes: a fact with a tag, or a rule whose tag predicate is registered or not (a tag predicate that is not registered is
an empty relation). -/
inductive FactItem (K : Type*) where
  | fact (t : DynTag K)
  | rule (tagged registered : Bool)
deriving DecidableEq

/-- Models the way of a fact through `non_constant_fact_to_rule.rs` 25-91, `tagged_rule.rs` 19-57 and `register_predicates`
(`analyzers/tagged_rule.rs` 47-71): `constantArgs` says whether all arguments are constants. The rule made of a fact with other arguments has a location without a
number (`Rule::new`); under this location its tag predicate is stored; the nodes get numbers afterwards (`annotation.rs` 25-31; `next` is the number of the rule), and
the predicate is looked up among the rules by their numbered locations. -/
def compileFact (next : Nat) (constantArgs : Bool) (t : Option (WrittenTag K)) : FactItem K :=
  if constantArgs then .fact (constantTag t)
  else
    let stored : Option Nat := none
    let annotated : Option Nat := some (stored.getD next)
    match t with
    | none => .rule false false
    | some _ => .rule true (decide (stored = annotated))

/-- Models `exclusive_fact_to_ram_fact` over all disjunctions of a program (`b2r.rs` 275-293, 339-344): the number of an exclusion is the position of
its disjunction. (The code does this for each relation, with the positions in the whole program.) -/
def programExclusive (ds : List (List (DynTag K × Tup V))) : List (DynTag K × Tup V) :=
  (ds.zipIdx.map (fun d => d.1.map (fun f => (f.1.withExclusivity d.2, f.2)))).flatten

/-! ## Registration -/

/-- The state of the provenances that number their facts (`top_k_proofs.rs` 4-9): the probabilities and the mutual exclusions. -/
structure Reg (K : Type*) where
  probs : List K
  disj : Disjunctions

/-- The initial state. -/
def Reg.new : Reg K := ⟨[], Disjunctions.new⟩

/-- Models `tagging_fn` (`top_k_proofs.rs` 77-89; likewise `sample_k_proofs.rs` 67-79, `diff_top_k_proofs.rs` 64-82 with `add_prob` of
`diff_prob_storage.rs` 40-54): the new state and the tag. `none` is a panic. -/
def Reg.register (s : Reg K) (p : K) (e : Option Nat) : Option (Reg K × Dnf) :=
  match e with
  | none => some (⟨s.probs ++ [p], s.disj⟩, [[.pos s.probs.length]])
  | some d => (s.disj.addDisjunction d s.probs.length).map (fun d' => (⟨s.probs ++ [p], d'⟩, [[.pos s.probs.length]]))

/-- The probability and the exclusion in an input tag of `top_k_proofs.rs` and `diff_top_k_proofs.rs` 65-69. -/
def InTag.entry : InTag K → Option (K × Option Nat)
  | .exclusiveProb p e => some (p, e)
  | .exclusiveDiffProb p _ e => some (p, e)
  | _ => none

section
variable [Zero K] [One K] [LT K] [DecidableLT K]

/-- Models the part of `internalize` (`relation.rs` 158-182) before sorting, for a provenance whose input tags are of the given type, with `tagging_optional_fn`
(`provenance.rs` 27-32): a fact without an input tag gets the tag `one`. -/
def internalize (k : Kind) : Reg K → List (DynTag K × Tup V) → Option (Reg K × List (Elem (Tup V) Dnf))
  | s, [] => some (s, [])
  | s, (t, u) :: fs =>
    match (ofDyn k t).bind InTag.entry with
    | none => (internalize k s fs).map (fun r => (r.1, ⟨u, [[]]⟩ :: r.2))
    | some (p, e) => (s.register p e).bind (fun r => (internalize k r.1 fs).map (fun q => (q.1, ⟨u, r.2⟩ :: q.2)))

end

/-! ## Numbers of exclusions -/

/-- The counter in a database: models the number used by `add_exclusive_probabilistic_facts` (`database.rs` 317-339), for a sequence of calls; the facts of each
call with their input tags. -/
def databaseExclusive : Nat → List (List (K × Tup V)) → List (List (InTag K × Tup V))
  | _, [] => []
  | n, fs :: rest => fs.map (fun f => (.exclusiveProb f.1 (some n), f.2)) :: databaseExclusive (n + 1) rest

/-- The map of `DynamicExclusionDataflow` from tuples to exclusions (`dynamic_exclusion.rs` 10, 27-28). -/
abbrev Visited (V : Type*) := List (Tup V × Nat)

/-- Models the first lines of `next_elem` (`dynamic_exclusion.rs` 135-148): the number of a tuple, the counter of the environment (`environment.rs` 177-179) and
the map. (`curr_exclusion_id` is never set.) -/
def exclusionOf [DecidableEq (Tup V)] (s : Nat × Visited V) (t : Tup V) : Nat × (Nat × Visited V) :=
  match s.2.lookup t with
  | some id => (id, s)
  | none => (s.1, (s.1 + 1, (t, s.1) :: s.2))

/-- Models draining `DynamicExclusionBatch`es (`dynamic_exclusion.rs` 131-168), all batches of one evaluation of the dataflow one after the other: for each tuple
on the left and each alternative, the number of its exclusion. A tuple gets its number also if there are no alternatives. -/
def exclusionBatch [DecidableEq (Tup V)] (alts : List (Tup V)) :
    Nat × Visited V → List (Tup V) → List (Tup V × Tup V × Nat) × (Nat × Visited V)
  | s, [] => ([], s)
  | s, t :: ts =>
    let r := exclusionOf s t
    let q := exclusionBatch alts r.2 ts
    (alts.map (fun a => (t, a, r.1)) ++ q.1, q.2)

/-- The evaluations of the dataflow of one rule over the iterations of a stratum: the dataflow is built anew in every iteration
(`iteration.rs` 102-107, 380-384), with an empty map (`dynamic_exclusion.rs` 33-47); the counter goes on. -/
def exclusionRun [DecidableEq (Tup V)] (alts : List (Tup V)) : Nat → List (List (Tup V)) → List (List (Tup V × Tup V × Nat)) × Nat
  | n, [] => ([], n)
  | n, ts :: rest =>
    let r := exclusionBatch alts (n, []) ts
    let q := exclusionRun alts r.2.1 rest
    (r.1 :: q.1, q.2)

/-- The tag of an alternative (`dynamic_exclusion.rs` 154). -/
def altTag (id : Nat) : DynTag K := .exclusive id

end Scallop.Input
