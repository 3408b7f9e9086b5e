import Verif.Spec.Exec
import Verif.Spec.Worlds

/-!
# Executing programs in possible worlds

`v` says which tags are true in one world. The program of the world has the same rules, the facts that are true, and the results of foreign predicates that are
true. Its meaning is that of `Spec/Strata.lean`: tags and provenances do not occur in it.
-/

namespace Scallop.Exec

open Scallop.Ram Scallop.Plan

variable {F T W : Type}

/-- The facts that are true in the world. -/
def edbIn (v : T → Prop) (edb : Db F T) : Interp (Tup (Val F)) := fun r t => ∃ a, edb r = some a ∧ t ∈ worldOf v a.elems

/-- What foreign predicates say in the world. There are no aggregates. -/
def Runtime.settingIn (v : T → Prop) (R : Runtime F T) : Setting F where
  X := R.X
  Fp := fun n vs ws => ∃ f, R.fps n = some f ∧ ∃ tag, (tag, ws) ∈ f vs ∧ v tag
  red := fun _ _ _ _ _ => False

/-- What aggregates say: the results of the aggregate `a` over the relation `p`, grouped by `g`, when relations hold what the interpretation says. -/
abbrev Aggregates (F : Type) := Interp (Tup (Val F)) → String → String → GroupBy → Tup (Val F) → Prop

/-- The setting with other aggregates. -/
def _root_.Scallop.Plan.Setting.withRed (G : Setting F) (red : Aggregates F) : Setting F := ⟨G.X, G.Fp, red⟩

/-- No aggregation, no exclusion, and no operator that gives tuples the tag 1. -/
def KeepsTags : Ram.Dataflow F → Prop
  | .leaf (.reduce _ _ _) | .un .overwriteOne _ | .un (.exclusion _) _ => False
  | .leaf _ => True
  | .un _ d | .project d _ => KeepsTags d
  | .bin _ d1 d2 => KeepsTags d1 ∧ KeepsTags d2

/-- No exclusion, no operator that gives tuples the tag 1, and only the aggregations in `K`: of what aggregate, of what relation, grouped how. -/
def KeepsWith (K : String → String → GroupBy → Prop) : Ram.Dataflow F → Prop
  | .leaf (.reduce a p g) => K a p g
  | .un .overwriteOne _ | .un (.exclusion _) _ => False
  | .leaf _ => True
  | .un _ d | .project d _ => KeepsWith K d
  | .bin _ d1 d2 => KeepsWith K d1 ∧ KeepsWith K d2

/-- Neither difference nor anti-join. -/
def NoMinus : Ram.Dataflow F → Prop
  | .leaf _ => True
  | .un _ d | .project d _ => NoMinus d
  | .bin .difference _ _ | .bin .antijoin _ _ => False
  | .bin _ d1 d2 => NoMinus d1 ∧ NoMinus d2

/-- The dataflow without what is subtracted. -/
def positive : Ram.Dataflow F → Ram.Dataflow F
  | .leaf l => .leaf l
  | .un o d => .un o (positive d)
  | .project d e => .project (positive d) e
  | .bin .difference d1 _ | .bin .antijoin d1 _ => positive d1
  | .bin o d1 d2 => .bin o (positive d1) (positive d2)

/-- Whatever the tags are and whatever is subtracted, relation `r` holds only tuples `t` with `L r t`: `L` has the facts and is closed under the rules without
their subtractions. -/
structure Program.Bound (R : Runtime F T) (P : Program F) (edb : Db F T) (L : Interp (Tup (Val F))) : Prop where
  facts : ∀ r t, edbIn (fun _ => True) edb r t → L r t
  rules : ∀ st ∈ P.strata, ∀ u ∈ st.updates, ∀ t, Den ((R.settingIn (fun _ => True)).world L) (positive u.flow) t → L u.target t

/-- A relation is read through filters and projections, and no projection makes two of the tuples that it can get the same. -/
def Injects (W : World F) : Ram.Dataflow F → Prop
  | .leaf (.rel _) => True
  | .un (.filter _) d | .un (.find _) d => Injects W d
  | .project d e => Injects W d ∧ ∀ t t' u, Den W d t → Den W d t' → e.eval W.X t = .ok u → e.eval W.X t' = .ok u → t = t'
  | _ => False

/-- What is subtracted has each tuple once. -/
def Sharp (W : World F) : Ram.Dataflow F → Prop
  | .leaf _ => True
  | .un _ d | .project d _ => Sharp W d
  | .bin .difference d1 d2 | .bin .antijoin d1 d2 => Sharp W d1 ∧ Injects W d2
  | .bin _ d1 d2 => Sharp W d1 ∧ Sharp W d2

/-- What is required of a program beyond `Program.Ok`: see `KeepsTags`, and `Sharp` for some bound on the contents of relations; and all relations have the
default scheduler. -/
structure Program.Plain (R : Runtime F T) (P : Program F) (edb : Db F T) : Prop where
  tags : ∀ st ∈ P.strata, ∀ u ∈ st.updates, KeepsTags u.flow
  sharp : ∃ L, P.Bound R edb L ∧ ∀ st ∈ P.strata, ∀ u ∈ st.updates, Sharp ((R.settingIn (fun _ => True)).world L) u.flow
  lfp : ∀ r ∈ P.relations, (P.decl r).sched.getD R.sched = .lfp

/-- `Program.Bound` for programs with aggregations: `red` says what results aggregations may have. -/
structure Program.BoundWith (red : Aggregates F) (R : Runtime F T) (P : Program F) (edb : Db F T) (L : Interp (Tup (Val F))) : Prop where
  facts : ∀ r t, edbIn (fun _ => True) edb r t → L r t
  rules : ∀ st ∈ P.strata, ∀ u ∈ st.updates, ∀ t, Den (((R.settingIn (fun _ => True)).withRed red).world L) (positive u.flow) t → L u.target t

/-- `Program.Plain` for programs with aggregations, whose results are as `red` says. For some bound `L` on the contents of relations, they are in `K L`. -/
structure Program.PlainWith (K : Interp (Tup (Val F)) → String → String → GroupBy → Prop) (red : Aggregates F) (R : Runtime F T) (P : Program F) (edb : Db F T) :
    Prop where
  flows : ∃ L, P.BoundWith red R edb L ∧ ∀ st ∈ P.strata, ∀ u ∈ st.updates,
    KeepsWith (K L) u.flow ∧ Sharp (((R.settingIn (fun _ => True)).withRed red).world L) u.flow
  lfp : ∀ r ∈ P.relations, (P.decl r).sched.getD R.sched = .lfp

/-- The program has no negation. -/
def Program.NoMinus (P : Program F) : Prop := ∀ st ∈ P.strata, ∀ u ∈ st.updates, Exec.NoMinus u.flow

/-- The tuple `t` of relation `r` can be derived in the world: it is in the model of the strata over the true facts (there is exactly one: `c82_model`). -/
def Program.holdsIn (R : Runtime F T) (P : Program F) (edb : Db F T) (v : T → Prop) (r : String) (t : Tup (Val F)) : Prop :=
  ∃ J, StratModel (edbIn v edb) (P.strata.map (ramLayer (R.settingIn v))) J ∧ J r t

/-- All tags that foreign predicates give are in `Q`. -/
def Runtime.TagsIn (Q : T → Prop) (R : Runtime F T) : Prop := ∀ n f, R.fps n = some f → ∀ vs, ∀ r ∈ f vs, Q r.1

variable [LinearOrder (Val F)] [LinearOrder W]

/-- The strata that are executed one after the other, each with the results that it starts from. -/
def execTrace (c : Prov T W) (R : Runtime F T) (P : Program F) (incremental : Bool) (fuel : Nat) (edb : Db F T) :
    Nat → List (Ram.Stratum F) → Db F T → List (Ram.Stratum F × Db F T)
  | _, [], _ => []
  | i, st :: rest, idb =>
    (st, idb) :: match execStratum c R P incremental fuel st edb idb with
      | .done rs => execTrace c R P incremental fuel edb (i + 1) rest (extendDb idb (rs.filter (fun q => kept P i q.1)))
      | _ => []

/-- In no stratum of the execution a scan gallops (see `Relation.noGallop`). -/
def QuietRun (c : Prov T W) (R : Runtime F T) (P : Program F) (incremental : Bool) (fuel : Nat) (edb : Db F T) : Prop :=
  ∀ q ∈ execTrace c R P incremental fuel (tapAll P edb) 0 P.strata (fun _ => none), ∀ p, setUp c R P incremental q.1 (tapAll P edb) q.2 = some p →
    ∀ s, p.Reached c s → ∀ i, (s.rel i).noGallop c

end Scallop.Exec
