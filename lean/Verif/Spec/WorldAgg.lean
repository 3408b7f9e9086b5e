import Verif.Spec.WorldExec
import Verif.Spec.Aggregate

/-!
# Aggregations in possible worlds

In one world an aggregate is a function from the list of the tuples that are aggregated, in ascending order, to its results. What an aggregation of a relation
yields is said here without tags and without the order in which groups are formed.
-/

namespace Scallop.Exec

open Scallop.Ram Scallop.Plan

variable {F T W : Type}

/-- The aggregates of the world, by name. -/
abbrev WorldAggs (F : Type) := String → Option (List (Tup (Val F)) → List (Tup (Val F)))

/-- The tuples that are true in the world, in the order of the list. -/
noncomputable abbrev trueOnes (v : T → Prop) (l : List (Elem (Tup (Val F)) T)) : List (Tup (Val F)) := trueIn (fun t (_ : Unit) => v t) () l

/-- Multiplying with the negation of a tag is exact. -/
def _root_.Scallop.Prov.CoExactAt (c : Prov T W) (Q v : T → Prop) : Prop :=
  ∀ a b, Q a → Q b → ∃ n, c.negate b = some n ∧ Q (c.mult a n) ∧ (v (c.mult a n) ↔ v a ∧ ¬ v b)

/-- Counting in one world. -/
def worldCount (l : List (Tup (Val F))) : List (Tup (Val F)) := [.val (.int .usize l.length)]

/-- Existence in one world. -/
def worldExists (l : List (Tup (Val F))) : List (Tup (Val F)) := [.val (.bool (!l.isEmpty))]

variable [LinearOrder (Val F)]

open Classical in
/-- The least or the greatest tuple in one world; none if there are no tuples. -/
noncomputable def worldMinMax (isMin : Bool) (l : List (Tup (Val F))) : List (Tup (Val F)) := l.filter (fun t => decide (∀ u ∈ l, AsExtreme isMin t u))

/-- The results of the aggregator over a collection are, in the world, those of `u` over the tuples that are true there; their tags are in `Q`. -/
def AggExactAt (Q v : T → Prop) (agg : Agg.Aggregator (Val F) T) (u : List (Tup (Val F)) → List (Tup (Val F))) : Prop :=
  ∀ l rs, Sorted l → AllTags Q l → agg l = some rs → AllTags Q rs ∧ ∀ t, t ∈ worldOf v rs ↔ t ∈ u (trueOnes v l)

/-- The aggregation of `p` with the aggregate `a`, grouped by `g`, can be read in the world: aggregate `a` is exact; if there are groups, then the tuples of `p`
are pairs of a key and a value; and if the groups are those of the tuples themselves, then there are no results for no tuples. -/
def AggOk (Q v : T → Prop) (R : Runtime F T) (U : WorldAggs F) (L : Interp (Tup (Val F))) (a p : String) (g : GroupBy) : Prop :=
  ∃ u, U a = some u ∧ (∀ agg, R.aggs a = some agg → AggExactAt Q v agg u) ∧ (g ≠ .none → ∀ t, L p t → ∃ k y, t = .tup [k, y]) ∧ (g = .implicit → u [] = [])

/-- The tuples of a set in ascending order. -/
def Lists' (l : List (Tup (Val F))) (S : Tup (Val F) → Prop) : Prop := l.Pairwise (· < ·) ∧ ∀ t, t ∈ l ↔ S t

/-- What follows the key `k` in the tuples of the list. -/
def groupAt (k : Tup (Val F)) (l : List (Tup (Val F))) : List (Tup (Val F)) := l.filterMap (fun t => if t.at? 0 = some k then t.at? 1 else none)

/-- The results of aggregations in the world: over all tuples of `p`; over the groups of the tuples of `p` with the same key, each result with its key; and for
each tuple of `g`, over the group of the tuples of `p` with its key, which may be empty, each result with the tuple of `g`. -/
def redIn (U : WorldAggs F) : Aggregates F := fun J a p g t => ∃ u l, U a = some u ∧ Lists' l (J p) ∧
  match g with
  | .none => t ∈ u l
  | .implicit => ∃ k, (∃ x ∈ l, x.at? 0 = some k) ∧ ∃ r ∈ u (groupAt k l), t = .tup [k, r]
  | .join q => ∃ x k y, J q x ∧ x.at? 0 = some k ∧ x.at? 1 = some y ∧ ∃ r ∈ u (groupAt k l), t = .tup [k, y, r]

/-- What results aggregations can have, whatever the tags are: those over some of the tuples. -/
def redAny (c : Prov T W) (R : Runtime F T) : Aggregates F := fun L a p g t => ∃ agg inp bs, R.aggs a = some agg ∧
  (∀ r l, inp r = some l → ∃ m, l = .sorted m ∧ Sorted m ∧ ∀ t ∈ tuples m, L r t) ∧ reduceBatches c agg inp p g = some bs ∧ t ∈ tuples bs.flatten

/-- The tuple `t` of relation `r` can be derived in the world: it is in the model of the strata over the true facts, with the aggregates `U` of the world (there
is exactly one: `c82_aggregates_model`). -/
def Program.holdsWith (R : Runtime F T) (U : WorldAggs F) (P : Program F) (edb : Db F T) (v : T → Prop) (r : String) (t : Tup (Val F)) : Prop :=
  ∃ J, StratModel (edbIn v edb) (P.strata.map (ramLayer ((R.settingIn v).withRed (redIn U)))) J ∧ J r t

end Scallop.Exec
