import Verif.Model.Iteration
import Verif.Model.Front
import Verif.Model.TypeInfer

/-!
# Tagged rules

Models the rules `t :: head :- body`: their transformation (`/repo/core/src/compiler/front/transformations/tagged_rule.rs`), the types that a tag may have
and the predicate that turns a value into a tag (`/repo/core/src/compiler/front/analyzers/tagged_rule.rs`), and the evaluation of that predicate
(`/repo/core/src/runtime/dynamic/dataflow/foreign_predicate/constraint.rs`) in the loop of a stratum. Every evaluation registers a new fact in the provenance
(`tagging_fn`), here called an event, so that the loop has a state beside its relations.

Simplifications. The code registers only the probability of an event; here the state also says for which rule and tuple an event was made. The operations
of the provenance do not depend on the events registered (the probabilities of all events are fixed beforehand, see `DnfCtx`); events of tagged rules are in no mutual
exclusion (`TagPredicate` gives a plain floating point number). Dataflows with a tag predicate have it directly below the last projection of an update;
the query planner may put other operators above it (`c96_planned`), which the code evaluates in the same update or after storing the result in a
temporary relation.
-/

namespace Scallop.Tagged

open Scallop.Front (FExpr Formula Name)

/-! ## The transformation -/

/-- The predicate of a tagged rule: `rule_tag_predicate` (`ast/relation_decl.rs` 92-102); `none` is a panic, for heads that are not a single atom. -/
def tagPredicate (head : Option String) (id : Nat) : Option String := head.map (fun p => "rt#" ++ p ++ "#" ++ toString id)

/-- The variable that holds the tag (`tagged_rule.rs` 26-28). -/
def tagVar (pred : String) : Name := .user (pred ++ "#var")

/-- Models the change of the body in `visit_mut` (`tagged_rule.rs` 30-47): the constraint, the atom of the predicate, the body. -/
def tagBody {F : Type} (pred : String) (tag : FExpr F) (body : Formula F) : Formula F :=
  .conj [.conj [.constraint (.bin .eq (.var (tagVar pred)) tag), .atom pred [.var (tagVar pred)]], body]

/-! ## Types of tags -/

/-- Models `TAG_TYPE` (`analyzers/tagged_rule.rs` 15-20). -/
def tagTypes : List Ty.VTy := [.float .f64, .float .f32, .bool]

/-- Models `get_target_tag_type` (`analyzers/tagged_rule.rs` 74-100): the type of the argument of the predicate, `none` is a compile error. -/
def targetTagType (s : Ty.TSet) : Option Ty.VTy :=
  match s with
  | .base b => if b ∈ tagTypes then some b else if tagTypes.any (fun t => s.canCast t) then some s.default else none
  | _ => if tagTypes.any (fun t => s.canCast t) then some s.default else none

/-- What a tag predicate gives for a value of a type: a panic, nothing, or a number. -/
inductive TagOutcome where
  | panic
  | evaluated
deriving DecidableEq

/-- Models the cast in `TagPredicate::evaluate_with_env` (`analyzers/tagged_rule.rs` 171-186): it panics if the table of casts
(`runtime/env/environment.rs` 599-707) has no case for the type. -/
def tagEvaluate (src : Ty.VTy) : TagOutcome := if Ty.castCase src (.float .f64) then .evaluated else .panic

/-! ## Evaluation -/

variable {V T W ι κ K : Type*}

/-- An event: the rule (by its predicate) and the tuple for which it was made, and its probability (`top_k_proofs.rs` 87-100 and likewise in the other
provenances; the number of an event is its position). -/
structure Event (V K : Type*) where
  rule : String
  inst : Tup V
  prob : K

/-- An update of a stratum: a dataflow as before, or the projection by `g` of the tuples of `d` that the tag predicate accepts. The predicate `f` gives
`none` for a panic, `some none` if it has no result, and otherwise the probability. -/
inductive Upd (V ι κ K : Type*) where
  | plain (i : ι) (d : DF V ι κ)
  | tagged (rule : String) (i : ι) (d : DF V ι κ) (f : Tup V → Option (Option K)) (g : Tup V → Option (Tup V))

/-- Models draining a `ForeignPredicateConstraintBatch` (`foreign_predicate/constraint.rs` 89-124) below a projection (`project.rs` 68-78): every element
that is accepted gets a new event, also if its tuple had one before. `ev n` is the tag of the event with number `n`. -/
def tagElems (c : Prov T W) (ev : Nat → T) (rule : String) (f : Tup V → Option (Option K)) (g : Tup V → Option (Tup V)) :
    List (Event V K) → List (Elem (Tup V) T) → Option (List (Event V K) × List (Elem (Tup V) T))
  | log, [] => some (log, [])
  | log, e :: es =>
    match f e.tuple with
    | none => none
    | some none => tagElems c ev rule f g log es
    | some (some p) =>
      (tagElems c ev rule f g (log ++ [⟨rule, e.tuple, p⟩]) es).map (fun q =>
        (q.1, ((g e.tuple).map (fun t => (⟨t, c.mult e.tag (ev log.length)⟩ : Elem (Tup V) T))).toList ++ q.2))

/-- All batches of a dataflow, one after the other (`relation.rs` 192-206). -/
def tagBatches (c : Prov T W) (ev : Nat → T) (rule : String) (f : Tup V → Option (Option K)) (g : Tup V → Option (Tup V)) :
    List (Event V K) → List (List (Elem (Tup V) T)) → Option (List (Event V K) × List (List (Elem (Tup V) T)))
  | log, [] => some (log, [])
  | log, b :: bs =>
    (tagElems c ev rule f g log b).bind (fun r => (tagBatches c ev rule f g r.1 bs).map (fun q => (q.1, r.2 :: q.2)))

/-- A stratum with tagged rules: `Stratum` (see `Model/Iteration.lean`) with other updates. -/
structure EStratum (V T ι κ K : Type*) where
  input : κ → List (Elem (Tup V) T)
  edb : ι → Option (List (Elem (Tup V) T))
  updates : List (Upd V ι κ K)
  sched : ι → Scheduler
  goals : List ι
  iterLimit : Option Nat
  stopAtGoal : Bool
  earlyDiscard : Bool

/-- The tag predicate has a result. -/
def accepts (f : Tup V → Option (Option K)) (t : Tup V) : Bool :=
  match f t with
  | some (some _) => true
  | _ => false

/-- The update without its tags. -/
def Upd.forget : Upd V ι κ K → ι × DF V ι κ
  | .plain i d => (i, d)
  | .tagged _ i d f g => (i, .project (.filter d (accepts f)) g)

/-- The stratum without the tags of its rules. Its updates are not used in the definition of the run. -/
def EStratum.forget (p : EStratum V T ι κ K) : Stratum V T ι κ where
  input := p.input
  edb := p.edb
  updates := p.updates.map Upd.forget
  sched := p.sched
  goals := p.goals
  iterLimit := p.iterLimit
  stopAtGoal := p.stopAtGoal
  earlyDiscard := p.earlyDiscard

variable [LinearOrder V] [LinearOrder W] [Fintype ι] [DecidableEq ι]

/-- One `insert_dataflow_recent` (`relation.rs` 192-206, `iteration.rs` 102-107), with the events so far. -/
def applyUpd (c : Prov T W) (ev : Nat → T) (p : EStratum V T ι κ K) (first : Bool) (x : List (Event V K) × (ι → Relation (Tup V) T)) :
    Upd V ι κ K → Option (List (Event V K) × (ι → Relation (Tup V) T))
  | .plain i d => (d.recent c ⟨x.2, p.input, first⟩).map (fun bs =>
      (x.1, Function.update x.2 i ((x.2 i).insertBatches c p.earlyDiscard (bs.map Batch.elems))))
  | .tagged rule i d f g => (d.recent c ⟨x.2, p.input, first⟩).bind (fun bs =>
      (tagBatches c ev rule f g x.1 (bs.map Batch.elems)).map (fun r =>
        (r.1, Function.update x.2 i ((x.2 i).insertBatches c p.earlyDiscard r.2))))

/-- The state of the loop: the events, and the state of `Model/Iteration.lean`. -/
abbrev EState (V T ι K : Type*) := List (Event V K) × IterState V T ι

/-- The body of the loop in `run` (`iteration.rs` 100-113). -/
def eIterBody (c : Prov T W) (ev : Nat → T) (p : EStratum V T ι κ K) (s : EState V T ι K) : Option (EState V T ι K) :=
  (p.updates.foldlM (applyUpd c ev p (s.2.num == 0)) (s.1, s.2.rel)).map (fun r => (r.1, ⟨s.2.num + 1, r.2⟩))

/-- Outcome of running the loop for a bounded number of turns. -/
inductive ERunResult (V T ι K : Type*) where
  | outOfFuel
  | panic
  | done (log : List (Event V K)) (s : IterState V T ι)

/-- Models the `while` loop of `run` (`iteration.rs` 98-114), for at most the given number of turns. -/
def eRunLoop (c : Prov T W) (ev : Nat → T) (p : EStratum V T ι κ K) : Nat → EState V T ι K → ERunResult V T ι K
  | 0, _ => .outOfFuel
  | fuel + 1, s =>
    match needToIterate c p.forget s.2 with
    | none => .panic
    | some (s', false) => .done s.1 s'
    | some (s', true) =>
      match eIterBody c ev p (s.1, s') with
      | none => .panic
      | some s'' => eRunLoop c ev p fuel s''

/-- Models `run` (`iteration.rs` 98-123) on relations with their facts; no events have been made. (Facts of the program are registered before the run;
`ev` numbers the events after them.) -/
def EStratum.run (c : Prov T W) (ev : Nat → T) (p : EStratum V T ι κ K) (fuel : Nat) : ERunResult V T ι K :=
  eRunLoop c ev p fuel ([], p.forget.init c)

end Scallop.Tagged
