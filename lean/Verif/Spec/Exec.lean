import Verif.Model.Exec
import Verif.Spec.Strata
import Verif.Spec.Fixpoint

/-!
# What the execution of a program has to compute

The meaning of a program in the intermediate language is that of `Spec/Strata.lean`: `StratModel` of its strata, over the facts of the extensional
database. This file says what expressions, foreign predicates and aggregates of a runtime environment mean, and what the compiler guarantees about
programs.
-/

namespace Scallop.Exec

open Scallop.Ram Scallop.Plan

variable {F T W : Type}

/-- The tuples of the extensional database. -/
def edbFacts (edb : Db F T) : Interp (Tup (Val F)) := fun r t => ∃ a, edb r = some a ∧ t ∈ tuples a.elems

variable [LinearOrder (Val F)]

/-- The list is strictly ascending and holds the tuples of the set. -/
def Contents (l : List (Elem (Tup (Val F)) T)) (S : Tup (Val F) → Prop) : Prop := Sorted l ∧ ∀ t, t ∈ tuples l ↔ S t

/-- What the environment says about foreign predicates and aggregates. The results of an aggregation are those over collections with the contents
of the relations. -/
def Runtime.setting (c : Prov T W) (R : Runtime F T) : Setting F where
  X := R.X
  Fp := fun n vs ws => ∃ f, R.fps n = some f ∧ ∃ tag, (tag, ws) ∈ f vs
  red := fun J a p g t => ∃ agg inp bs, R.aggs a = some agg ∧ (∀ r, (r = p ∨ g = .join r) → ∃ l, inp r = some (.sorted l) ∧ Contents l (J r)) ∧
    reduceBatches c agg inp p g = some bs ∧ t ∈ tuples bs.flatten

omit [LinearOrder (Val F)] in
/-- Which results an aggregate has does not depend on the tags of what it aggregates (true of all aggregates with unit tags; not of `rank`, `top` or
aggregates over possible worlds with other tags). -/
def Runtime.TagFree (R : Runtime F T) (a : String) : Prop :=
  ∀ agg, R.aggs a = some agg → ∀ l l' : List (Elem (Tup (Val F)) T), l.map Elem.tuple = l'.map Elem.tuple →
    (agg l).map (List.map Elem.tuple) = (agg l').map (List.map Elem.tuple)

/-! ## Conditions on dataflows -/

omit [LinearOrder (Val F)] in
/-- No negation and no aggregation inside. -/
def Positive : Ram.Dataflow F → Prop
  | .leaf (.reduce _ _ _) => False
  | .leaf _ => True
  | .un _ d | .project d _ => Positive d
  | .bin .antijoin _ _ | .bin .difference _ _ => False
  | .bin _ d1 d2 => Positive d1 ∧ Positive d2

omit [LinearOrder (Val F)] in
/-- Looks at one relation, which is not among `own`. -/
def Static (own : List String) : Ram.Dataflow F → Prop
  | .leaf (.rel r) => r ∉ own
  | .un .overwriteOne d | .un (.filter _) d | .un (.find _) d | .project d _ => Static own d
  | _ => False

omit [LinearOrder (Val F)] in
/-- Negation and aggregation look at relations of earlier strata only, and are not below joins. -/
def Stratified (own : List String) : Ram.Dataflow F → Prop
  | .leaf (.reduce _ p g) => p ∉ own ∧ ∀ r, g = .join r → r ∉ own
  | .leaf _ => True
  | .un _ d | .project d _ => Stratified own d
  | .bin .antijoin d1 d2 | .bin .difference d1 d2 => Stratified own d1 ∧ Static own d2
  | .bin .union d1 d2 => Stratified own d1 ∧ Stratified own d2
  | .bin _ d1 d2 => Positive d1 ∧ Positive d2

/-- Strictly ascending, given that relations are. -/
def OutSorted (X : Ext F) : Ram.Dataflow F → Prop
  | .leaf (.unit _) | .leaf (.rel _) => True
  | .leaf (.untagged ts) => ts.Pairwise (· < ·)
  | .leaf _ => False
  | .un .overwriteOne d | .un (.filter _) d | .un (.find _) d => OutSorted X d
  | .un _ _ => False
  | .project d e => OutSorted X d ∧ ∀ x y x' y', x < y → e.eval X x = .ok x' → e.eval X y = .ok y' → x' < y'
  | .bin .union d1 d2 | .bin .intersect d1 d2 => OutSorted X d1 ∧ OutSorted X d2
  | .bin .difference d1 _ | .bin .antijoin d1 _ => OutSorted X d1
  | .bin _ _ _ => False

/-- Ascending, given that relations are. -/
def OutSortedLe (X : Ext F) : Ram.Dataflow F → Prop
  | .leaf (.unit _) | .leaf (.rel _) | .un .sorted _ => True
  | .leaf (.untagged ts) => ts.Pairwise (· ≤ ·)
  | .leaf _ => False
  | .un .overwriteOne d | .un (.filter _) d | .un (.find _) d => OutSortedLe X d
  | .un _ _ => False
  | .project d e => OutSortedLe X d ∧ ∀ x y x' y', x ≤ y → e.eval X x = .ok x' → e.eval X y = .ok y' → x' ≤ y'
  | .bin .union d1 d2 => OutSortedLe X d1 ∧ OutSortedLe X d2
  | .bin .intersect d1 d2 => OutSorted X d1 ∧ OutSorted X d2
  | .bin .difference d1 _ => OutSorted X d1
  | .bin .antijoin d1 _ => OutSortedLe X d1
  | .bin _ _ _ => False

/-- Operators that merge or search get ascending operands. -/
def WellSorted (X : Ext F) : Ram.Dataflow F → Prop
  | .leaf _ => True
  | .un (.find _) d => WellSorted X d ∧ OutSortedLe X d
  | .un _ d | .project d _ => WellSorted X d
  | .bin .union d1 d2 | .bin .product d1 d2 => WellSorted X d1 ∧ WellSorted X d2
  | .bin .intersect d1 d2 => WellSorted X d1 ∧ WellSorted X d2 ∧ OutSorted X d1 ∧ OutSorted X d2
  | .bin .join d1 d2 => WellSorted X d1 ∧ WellSorted X d2 ∧ OutSortedLe X d1 ∧ OutSortedLe X d2
  | .bin .difference d1 d2 => WellSorted X d1 ∧ WellSorted X d2 ∧ OutSorted X d1 ∧ OutSortedLe X d2
  | .bin .antijoin d1 d2 => WellSorted X d1 ∧ WellSorted X d2 ∧ OutSortedLe X d1 ∧ OutSortedLe X d2

omit [LinearOrder (Val F)] in
/-- Foreign predicates get constants and components of tuples; one without free arguments has at most one result, without values. -/
def ForeignOk (R : Runtime F T) : Ram.Dataflow F → Prop
  | .leaf _ => True
  | .un (.foreignConstraint n es) d => ForeignOk R d ∧ (∀ e ∈ es, (∃ a, e = .access a) ∨ ∃ v, e = .const v) ∧
      ∀ f, R.fps n = some f → ∀ vs, (f vs).length ≤ 1 ∧ ∀ r ∈ f vs, r.2 = []
  | .un (.foreignJoin _ es) d => ForeignOk R d ∧ ∀ e ∈ es, (∃ a, e = .access a) ∨ ∃ v, e = .const v
  | .un _ d | .project d _ => ForeignOk R d
  | .bin _ d1 d2 => ForeignOk R d1 ∧ ForeignOk R d2

omit [LinearOrder (Val F)] in
/-- Which tuples are derived does not depend on tags: what is negated is removed, and aggregates do not look at tags. True of dataflows without
negation and aggregation, with any tags. -/
def Discrete (c : Prov T W) (R : Runtime F T) : Ram.Dataflow F → Prop
  | .leaf (.reduce a _ _) => R.TagFree a
  | .leaf _ => True
  | .un _ d | .project d _ => Discrete c R d
  | .bin .antijoin d _ | .bin .difference d _ => (∀ a b, c.minus a b = none) ∧ Discrete c R d
  | .bin _ d1 d2 => Discrete c R d1 ∧ Discrete c R d2

/-! ## Conditions on programs -/

omit [LinearOrder (Val F)] in
/-- All dataflows of the program are `Discrete`. -/
def Program.Discrete (c : Prov T W) (R : Runtime F T) (P : Program F) : Prop := ∀ st ∈ P.strata, ∀ u ∈ st.updates, Exec.Discrete c R u.flow

/-- What the compiler guarantees: every relation is in one stratum; what a stratum reads is in it or an earlier one; updates are of relations of the
stratum that are not declared immutable; negation and aggregation look at earlier strata; merging operators get sorted operands. And no relation is
stored as an indexed vector. -/
structure Program.Ok (R : Runtime F T) (P : Program F) : Prop where
  once : ∀ (j k : Nat) st st' r, P.strata[j]? = some st → P.strata[k]? = some st' → r ∈ st.relations → r ∈ st'.relations → j = k
  target : ∀ st ∈ P.strata, ∀ u ∈ st.updates, u.target ∈ st.relations ∧ (P.decl u.target).immutable = false
  reads : ∀ (k : Nat) st u, P.strata[k]? = some st → u ∈ st.updates → ∀ r ∈ flowDeps u.flow,
    ∃ (j : Nat) (st' : Ram.Stratum F), j ≤ k ∧ P.strata[j]? = some st' ∧ r ∈ st'.relations
  flow : ∀ st ∈ P.strata, ∀ u ∈ st.updates, Stratified st.relations u.flow ∧ WellSorted R.X u.flow ∧ ForeignOk R u.flow
  storage : ∀ r ∈ P.relations, (P.decl r).indexed = false

/-- Settings under which strata run to their least fixed points: tags are not discarded early, no limit, no stopping at goals, no beam of size 0. -/
structure Runtime.Full (c : Prov T W) (R : Runtime F T) (P : Program F) : Prop where
  keep : R.earlyDiscard = true → ∀ t, c.discard t = false
  sched : ∀ r ∈ P.relations, (P.decl r).sched.getD R.sched ≠ .beam 0
  limit : R.iterLimit = none
  goal : R.stopAtGoal = false

end Scallop.Exec
