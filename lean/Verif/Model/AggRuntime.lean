import Verif.Model.Group
import Verif.Model.Exec

/-!
# Aggregators of the runtime

The results of the aggregators of `Model/Aggregate.lean` as tuples of the runtime. `/repo/core/src/common/foreign_aggregates/{count,exists,min_max,sum_prod,avg}.rs`
build them with `DynamicElement::new` from values.
-/

namespace Scallop.Exec

variable {F T W : Type}

/-- `count` with results of type `usize` (`count.rs` 65-85). -/
def countAgg (c : Prov T W) : Agg.Aggregator (Val F) T := fun l =>
  some ((Agg.count c false l).map (fun e => ⟨.val (.int .usize e.tuple), e.tag⟩))

/-- `exists` with results of type `bool` (`exists.rs` 84-91). -/
def existsAgg (c : Prov T W) : Agg.Aggregator (Val F) T := fun l =>
  some ((Agg.exists c false l).map (fun e => ⟨.val (.bool e.tuple), e.tag⟩))

/-- `min` and `max` without arguments (`min_max.rs` 285-293). -/
def minMaxAgg [LinearOrder (Val F)] (c : Prov T W) (isMin : Bool) : Agg.Aggregator (Val F) T := Agg.minMax c isMin false 0 false

/-- An aggregator that goes through all sets of facts, as `sum`, `prod` and `avg` do (`sum_prod.rs` 128-144, `avg.rs` 95-111); `f` aggregates the tuples of one
set, and `none` is a panic. -/
def loopAgg (c : Prov T W) (f : List (Tup (Val F)) → Option (Tup (Val F))) : Agg.Aggregator (Val F) T := Agg.multiWorld c f

/-- `count` for boolean tags (`discrete/boolean.rs` 61-71). -/
def countBoolAgg : Agg.Aggregator (Val F) Bool := fun l => some ((Agg.countBool l).map (fun e => ⟨.val (.int .usize e.tuple), e.tag⟩))

/-- `exists` for boolean tags (`discrete/boolean.rs` 73-83). -/
def existsBoolAgg : Agg.Aggregator (Val F) Bool := fun l => some ((Agg.existsBool l).map (fun e => ⟨.val (.bool e.tuple), e.tag⟩))

/-- `min` and `max` for boolean tags (`discrete/boolean.rs` 85-95). -/
def minMaxBoolAgg [LinearOrder (Val F)] (isMin : Bool) : Agg.Aggregator (Val F) Bool := Agg.minMaxBool isMin false 0

end Scallop.Exec
