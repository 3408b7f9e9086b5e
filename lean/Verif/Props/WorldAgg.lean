import Verif.Proof.WorldAggs
import Verif.Props.WorldExec

/-!
# Property theorem C82: executing programs with aggregations in possible worlds
-/

namespace Scallop.Exec

open Scallop.Ram Scallop.Plan
open Scallop.Back (noExt)
open DnfCtx (HeapElem)

section
variable {F T W : Type} [LinearOrder (Val F)]

/-- What can be derived in a world with the aggregates of that world: there is one model of the strata, and only one. -/
theorem c82_aggregates_model (R : Runtime F T) (U : WorldAggs F) (P : Program F) (ok : P.Ok R) (edb : Db F T) (v : T → Prop) :
    (∃ J, StratModel (edbIn v edb) (P.strata.map (ramLayer ((R.settingIn v).withRed (redIn U)))) J) ∧
    ∀ J, StratModel (edbIn v edb) (P.strata.map (ramLayer ((R.settingIn v).withRed (redIn U)))) J → ∀ r ∈ P.relations, ∀ t,
      J r t ↔ P.holdsWith R U edb v r t := by
  have hl := layers_layered_gen (redIn_local (v := v) (R := R) (U := U)) ok
  have hJ := model_exists (facts := edbIn v edb) (J := fun _ _ => False) hl
  refine ⟨⟨_, hJ⟩, fun J hJ r hr t => ⟨fun h => ⟨J, hJ, h⟩, ?_⟩⟩
  rintro ⟨J', hJ', h⟩
  obtain ⟨st, hst, hr⟩ := List.mem_flatMap.mp hr
  exact (model_unique hl hJ' hJ (by simp) _ (List.mem_map.mpr ⟨st, hst, rfl⟩) r hr t).mp h

/-- **C82 (partial), aggregations.** As `c82_worlds_partial`, for programs with aggregations whose aggregators are exact in the world: their results are, in the
world, those of the aggregate over the tuples that are true there. Missing: exclusions, scans that gallop, groups that are overwritten with tag 1, and groups made
of the aggregated tuples for aggregates that have a result for no tuples (see `c82_implicit_count_false`). -/
theorem c82_aggregates_partial [LinearOrder W] (c : Prov T W) (Q v : T → Prop) (hm : c.Uniform) (hc : c.ExactAt Q v) (R : Runtime F T) (U : WorldAggs F)
    (K : Interp (Tup (Val F)) → String → String → GroupBy → Prop) (hK : ∀ L a p g, K L a p g → AggOk Q v R U L a p g)
    (P : Program F) (ok : P.Ok R) (edb : Db F T) (pl : P.PlainWith K (redAny c R) R edb)
    (hR : R.TagsIn Q) (hneg : (c.NegSoundAt v ∧ c.NegExactAt Q v) ∨ P.NoMinus) (hkeep : R.earlyDiscard = true → ∀ t, c.discard t = true → ¬ v t)
    (hlim : R.iterLimit = none) (hgoal : R.stopAtGoal = false)
    (hedb : ∀ r a, edb r = some a → ∃ l, a = .sorted l ∧ Sorted l ∧ AllTags Q l) (incremental : Bool) (fuel : Nat)
    (hq : (c.ExactAt (fun _ => True) v ∧ c.LinearAt v) ∨ QuietRun c R P incremental fuel edb) (idb : Db F T)
    (h : executeFrom c R P incremental fuel edb (fun _ => none) = .done idb) :
    ∀ r ∈ P.relations, (P.decl r).hidden = false →
      ∃ l, idb r = some (.sorted l) ∧ Sorted l ∧ AllTags Q l ∧ ∀ t, t ∈ worldOf v l ↔ P.holdsWith R U edb v r t := by
  intro r hr hv
  obtain ⟨⟨J, hJ⟩, hu⟩ := c82_aggregates_model R U P ok edb v
  obtain ⟨l, h1, h2, h3, h4⟩ := executeFrom_worldWith hm hc ok pl redIn_local (fun L a p g hk => redIn_exact hc L a p g (hK L a p g hk)) (fun L => redAny_bound _)
    hR hneg hkeep hlim hgoal hedb hq hJ h hr hv
  exact ⟨l, h1, h2, h3, fun t => (h4 t).trans (hu J hJ r hr t)⟩

end

/-! ### Aggregators -/

section
variable {F T W : Type} [LinearOrder (Val F)] {c : Prov T W} {Q v : T → Prop}

/-- C82, C37, C38, C39: `count`, `exists`, `min` and `max` are exact in every world in which the operations on tags are; and so is every aggregator that goes
through all sets of facts, as `sum`, `prod` and `avg` do. -/
theorem c82_aggregators_exact (hc : c.ExactAt Q v) (hn : c.CoExactAt Q v) :
    AggExactAt (F := F) Q v (countAgg c) worldCount ∧ AggExactAt (F := F) Q v (existsAgg c) worldExists ∧
    (∀ isMin, AggExactAt (F := F) Q v (minMaxAgg c isMin) (worldMinMax isMin)) ∧
    ∀ f, AggExactAt (F := F) Q v (loopAgg c f) (fun l => (f l).toList) := by
  refine ⟨?_, ?_, minMax_at hc hn, fun f => ?_⟩
  · intro l rs _ hl hr
    simp only [countAgg, Option.some.injEq] at hr
    subst hr
    obtain ⟨h1, h2⟩ := count_at hc hn hl
    refine ⟨fun e he => ?_, fun t => ?_⟩
    · obtain ⟨x, hx, rfl⟩ := List.mem_map.mp he
      exact h1 x hx
    · rw [mem_trueOnes_map (g := fun n : Nat => .val (.int .usize n)), h2]
      simp [worldCount]
  · intro l rs _ hl hr
    simp only [existsAgg, Option.some.injEq] at hr
    subst hr
    obtain ⟨h1, h2⟩ := exists_at hc hn hl
    refine ⟨fun e he => ?_, fun t => ?_⟩
    · obtain ⟨x, hx, rfl⟩ := List.mem_map.mp he
      exact h1 x hx
    · rw [mem_trueOnes_map (g := fun b : Bool => .val (.bool b))]
      simp only [h2, worldExists, exists_eq_left, List.mem_singleton]
  · intro l rs _ hl hr
    obtain ⟨h1, x, h2, h3⟩ := multiWorld_at hc hn hl hr
    refine ⟨h1, fun t => ?_⟩
    have h3' : trueOnes v rs = [x] := h3
    have h2' : f (trueOnes v l) = some x := h2
    rw [← mem_trueOnes, h3']
    show t ∈ [x] ↔ t ∈ (f (trueOnes v l)).toList
    rw [h2']
    simp

end

/-! ### Provenances -/

section
variable {F : Type} [LinearOrder (Val F)]

theorem boolProv_exactAt : boolProv.ExactAt (fun _ => True) (· = true) := by
  refine ⟨⟨?_, ?_⟩, trivial, fun _ _ _ _ => trivial, fun _ _ _ _ => trivial, rfl, ?_, ?_, ?_⟩ <;>
    · unfold boolProv
      simp only [Prov.AddSoundAt]
      decide

/-- C82: the aggregators for boolean tags are exact. -/
theorem c82_boolean_aggregators : AggExactAt (F := F) (fun _ => True) (· = true) countBoolAgg worldCount ∧
    AggExactAt (F := F) (fun _ => True) (· = true) existsBoolAgg worldExists ∧
    ∀ isMin, AggExactAt (F := F) (fun _ => True) (· = true) (minMaxBoolAgg isMin) (worldMinMax isMin) := by
  have hl : ∀ l : List (Elem (Tup (Val F)) Bool), trueOnes (· = true) l = (l.filter Elem.tag).map Elem.tuple := by
    intro l
    simp only [trueIn]
    congr 1
    exact List.filter_congr (fun e _ => by cases e.tag <;> simp)
  have hone : ∀ a t : Tup (Val F), t ∈ worldOf (· = true) [(⟨a, true⟩ : Elem (Tup (Val F)) Bool)] ↔ t ∈ [a] := by
    intro a t
    simp only [worldOf, List.mem_singleton, Set.mem_setOf_eq]
    exact ⟨fun ⟨e, he, ht, _⟩ => by rw [← ht, he], fun h => ⟨_, rfl, h.symm, rfl⟩⟩
  have hany : ∀ l : List (Elem (Tup (Val F)) Bool), l.any Elem.tag = !(trueOnes (· = true) l).isEmpty := by
    intro l
    rw [hl]
    induction l with
    | nil => rfl
    | cons e l ih => cases he : e.tag <;> simp_all
  refine ⟨?_, ?_, fun isMin => ?_⟩
  · intro l rs _ _ hr
    refine ⟨fun _ _ => trivial, fun t => ?_⟩
    have hk : ∀ (l : List (Elem (Tup (Val F)) Bool)) (n : Nat), l.foldl (fun n e => if e.tag then n + 1 else n) n = n + (l.filter Elem.tag).length := by
      intro l
      induction l with
      | nil => simp
      | cons e l ih => intro n; rw [List.foldl_cons, ih]; cases he : e.tag <;> simp [he]; omega
    simp only [countBoolAgg, Agg.countBool, List.map_cons, List.map_nil, Option.some.injEq, hk, Nat.zero_add] at hr
    subst hr
    rw [hone, worldCount, hl, List.length_map]
  · intro l rs _ _ hr
    refine ⟨fun _ _ => trivial, fun t => ?_⟩
    simp only [existsBoolAgg, Agg.existsBool, List.map_cons, List.map_nil, Option.some.injEq] at hr
    subst hr
    rw [hone, worldExists, hany]
  · intro l rs _ _ hr
    obtain ⟨res, h1, h2, h3⟩ := Agg.c39_bool isMin l
    obtain rfl : rs = res := Option.some.inj (hr.symm.trans h1)
    refine ⟨fun _ _ => trivial, fun t => ?_⟩
    have hmem : ∀ t, t ∈ trueOnes (· = true) l ↔ ∃ e ∈ l, e.tag = true ∧ e.tuple = t := by
      intro t; rw [hl]; simp [and_assoc]
    simp only [worldMinMax, List.mem_filter, decide_eq_true_eq, hmem]
    have : t ∈ worldOf (· = true) rs ↔ ∃ e ∈ rs, e.tuple = t :=
      ⟨fun ⟨e, he, het, _⟩ => ⟨e, he, het⟩, fun ⟨e, he, het⟩ => ⟨e, he, het, h2 e he⟩⟩
    rw [this, h3]
    refine and_congr_right' ⟨?_, fun h e he hv => h e.tuple ⟨e, he, hv, rfl⟩⟩
    rintro h u ⟨e, he, hv, rfl⟩
    exact h e he hv

/-- The boolean tags, with aggregations. -/
theorem c82_boolean_aggregates_partial (R : Runtime F Bool) (U : WorldAggs F) (P : Program F) (ok : P.Ok R) (edb : Db F Bool)
    (pl : P.PlainWith (AggOk (fun _ => True) (· = true) R U) (redAny boolProv R) R edb) (hlim : R.iterLimit = none) (hgoal : R.stopAtGoal = false)
    (hedb : ∀ r a, edb r = some a → ∃ l, a = .sorted l ∧ Sorted l) (incremental : Bool) (fuel : Nat) (idb : Db F Bool)
    (h : executeFrom boolProv R P incremental fuel edb (fun _ => none) = .done idb) :
    ∀ r ∈ P.relations, (P.decl r).hidden = false →
      ∃ l, idb r = some (.sorted l) ∧ Sorted l ∧ ∀ t, t ∈ worldOf (· = true) l ↔ P.holdsWith R U edb (· = true) r t := by
  intro r hr hv
  have hl : boolProv.LinearAt (· = true) := by unfold boolProv Prov.LinearAt; decide
  have hn : boolProv.NegSoundAt (· = true) := by unfold boolProv Prov.NegSoundAt; decide
  have hn' : boolProv.NegExactAt (fun _ => True) (· = true) := by
    refine ⟨fun _ _ _ _ _ _ => trivial, ?_⟩
    unfold boolProv
    decide
  obtain ⟨l, h1, h2, _, h3⟩ := c82_aggregates_partial boolProv _ _ (fun _ _ _ => rfl) boolProv_exactAt R U _ (fun _ _ _ _ h => h) P ok edb pl (fun _ _ _ _ _ _ => trivial)
    (.inl ⟨hn, hn'⟩) (fun _ t ht => by cases t <;> simp_all [boolProv]) hlim hgoal
    (fun r a h => by obtain ⟨l, h1, h2⟩ := hedb r a h; exact ⟨l, h1, h2, fun _ _ => trivial⟩) incremental fuel (.inl ⟨boolProv_exactAt, hl⟩) idb h r hr hv
  exact ⟨l, h1, h2, h3⟩

variable {K : Type} [Field K] [LinearOrder K]

/-- C82: with top-k proofs and `k` above the bound, multiplying with negated tags is exact, so that the aggregators are, in every world in which no two facts of one
exclusion are true. -/
theorem c82_top_k_aggregators (x : DnfCtx K) (hds : ∀ d ∈ x.disj.disjunctions, Asc d) (pop : List (HeapElem K) → Option (HeapElem K × List (HeapElem K)))
    (hpop : IsPop pop) (n k : Nat) (hk : topKBound n < k) (w : Nat → Bool) (hw : consistent w x.disj.disjunctions) :
    (topKProv x pop k).CoExactAt (tagOver n) (dnfHolds w) := by
  intro a b ha hb
  obtain ⟨r, hr, _, hc, _⟩ := cnf2dnfK_spec x hds pop hpop (b.map (fun c => c.map Literal.negate)) k
  obtain ⟨r', hr', _, _, _, _, hex⟩ := c28_negate x hds pop hpop b k
  obtain rfl : r = r' := Option.some.inj (hr.symm.trans hr')
  have hs : ∀ c ∈ r, c.Sorted ∧ ∀ l ∈ c, l.factId < n := by
    intro c hcr
    refine ⟨(hc c hcr).1, fun l hl => ?_⟩
    obtain ⟨d, hd, hld⟩ := (hc c hcr).2.2.1 l hl
    obtain ⟨d', hd', rfl⟩ := List.mem_map.1 hd
    obtain ⟨l', hl', rfl⟩ := List.mem_map.1 hld
    have := (hb.2 d' hd').2 l' hl'
    cases l' <;> exact this
  have hov := tagOver_mult x hds k ha.2 hs
  refine ⟨r, hr, hov, ?_⟩
  rw [← hex ((negate_length x pop hpop hb k r hr).trans_lt hk) w hw]
  exact (c27_mult x hds k a r (fun c hc => (ha.2 c hc).1) (fun c hc => (hs c hc).1)).2.2.2.2.1
      (.inl (((tagOver_length hov).trans (le_topKBound n)).trans_lt hk)) w hw

/-- Top-k proofs, with aggregations: as `c82_top_k_partial`. -/
theorem c82_top_k_aggregates_partial (x : DnfCtx K) (hds : ∀ d ∈ x.disj.disjunctions, Asc d) (pop : List (HeapElem K) → Option (HeapElem K × List (HeapElem K)))
    (hpop : IsPop pop) (n k : Nat) (hk : topKBound n < k) (R : Runtime F Dnf) (U : WorldAggs F) (P : Program F) (ok : P.Ok R) (edb : Db F Dnf)
    (pl : P.PlainWith (fun L a p g => ∀ w, consistent w x.disj.disjunctions → AggOk (tagOver n) (dnfHolds w) R U L a p g) (redAny (topKProv x pop k) R) R edb)
    (hR : R.TagsIn (tagOver n)) (hlim : R.iterLimit = none) (hgoal : R.stopAtGoal = false)
    (hedb : ∀ r a, edb r = some a → ∃ l, a = .sorted l ∧ Sorted l ∧ AllTags (tagOver n) l) (incremental : Bool) (fuel : Nat)
    (hq : QuietRun (topKProv x pop k) R P incremental fuel edb) (idb : Db F Dnf)
    (h : executeFrom (topKProv x pop k) R P incremental fuel edb (fun _ => none) = .done idb) :
    ∀ r ∈ P.relations, (P.decl r).hidden = false →
      ∃ l, idb r = some (.sorted l) ∧ Sorted l ∧ AllTags (tagOver n) l ∧
        ∀ w, consistent w x.disj.disjunctions → ∀ t, t ∈ worldOf (dnfHolds w) l ↔ P.holdsWith R U edb (dnfHolds w) r t := by
  intro r hr hv
  have key : ∀ w, consistent w x.disj.disjunctions → ∃ l, idb r = some (.sorted l) ∧ Sorted l ∧ AllTags (tagOver n) l ∧
      ∀ t, t ∈ worldOf (dnfHolds w) l ↔ P.holdsWith R U edb (dnfHolds w) r t := fun w hw =>
    c82_aggregates_partial _ _ _ (topKProv_uniform x pop k) (topK_exactAt x hds pop n k hk w hw) R U _ (fun _ _ _ _ h => h w hw) P ok edb pl hR
      (.inl ⟨topK_negSoundAt x hds pop hpop k w, topK_negExactAt x hds pop hpop n k hk w hw⟩) (fun _ t ht => by
      have : t = [] := by simpa [topKProv] using ht
      subst this
      simp [dnfHolds]) hlim hgoal hedb incremental fuel (.inr hq) idb h r hr hv
  obtain ⟨l, h1, h2, h3, _⟩ := key (fun _ => false) (fun d _ a _ b _ ha _ => by cases ha)
  refine ⟨l, h1, h2, h3, fun w hw => ?_⟩
  obtain ⟨l', r1, _, _, r4⟩ := key w hw
  rw [h1] at r1
  cases r1
  exact r4

/-- C82 and C53, with aggregations: as `c82_probability_partial`. The probability reported for a result of an aggregation is the probability that the aggregate has
this result. -/
theorem c82_probability_aggregates_partial (x : DnfCtx K) (hds : x.disj.disjunctions = []) (pop : List (HeapElem K) → Option (HeapElem K × List (HeapElem K)))
    (hpop : IsPop pop) (n k : Nat) (hk : topKBound n < k) (R : Runtime F Dnf) (U : WorldAggs F) (P : Program F) (ok : P.Ok R) (edb : Db F Dnf)
    (pl : P.PlainWith (fun L a p g => ∀ w, AggOk (tagOver n) (dnfHolds w) R U L a p g) (redAny (topKProv x pop k) R) R edb)
    (hR : R.TagsIn (tagOver n)) (hlim : R.iterLimit = none) (hgoal : R.stopAtGoal = false)
    (hedb : ∀ r a, edb r = some a → ∃ l, a = .sorted l ∧ Sorted l ∧ AllTags (tagOver n) l) (incremental : Bool) (fuel : Nat)
    (hq : QuietRun (topKProv x pop k) R P incremental fuel edb) (idb : Db F Dnf)
    (h : executeFrom (topKProv x pop k) R P incremental fuel edb (fun _ => none) = .done idb) :
    ∀ r ∈ P.relations, (P.decl r).hidden = false →
      ∃ l, idb r = some (.sorted l) ∧
        (∀ e ∈ l, Dnf.wmc e.tag (Sdd.Diagram.realAlgebra K) x.prob =
          some (eventProb x.prob (Finset.range n) (fun w => P.holdsWith R U edb (dnfHolds w) r e.tuple))) ∧
        ∀ t, t ∉ tuples l → ∀ w, ¬ P.holdsWith R U edb (dnfHolds w) r t := by
  intro r hr hv
  have hcons : ∀ w, consistent w x.disj.disjunctions := by intro w; rw [hds]; intro d hd; simp at hd
  obtain ⟨l, h1, h2, h3, h4⟩ := c82_top_k_aggregates_partial x (by simp [hds]) pop hpop n k hk R U P ok edb (by
    simpa only [hcons, forall_true_left] using pl) hR hlim hgoal hedb incremental fuel hq idb h r hr hv
  refine ⟨l, h1, fun e he => ?_, fun t ht w hw => ht ?_⟩
  · rw [c53_dnf e.tag x.prob (Finset.range n) (fun c hc l hl => Finset.mem_range.2 (((h3 e he).2 c hc).2 l hl))]
    congr 2
    funext w
    apply propext
    rw [← h4 w (hcons w)]
    constructor
    · intro hw; exact ⟨e, he, rfl, hw⟩
    · rintro ⟨e', he', het, hw⟩
      rw [← nodup_elem_eq (sorted_nodup h2) he' he het]; exact hw
  · exact worldOf_tuples _ ((h4 w (hcons w) t).mpr hw)

end

/-! ### Examples -/

attribute [local instance] Val.order

private abbrev row (ns : List Int) : Tup (Val Empty) := flat (ns.map (fun n => .int .i32 n))

/-- `plainRuntime` with aggregators. -/
def aggRuntime (T : Type) (one : T) (aggs : String → Option (Agg.Aggregator (Val Empty) T)) : Runtime Empty T := { plainRuntime T one with aggs := aggs }

/-- `count` and `min`. -/
def twoOf {T : Type} (cnt mn : Agg.Aggregator (Val Empty) T) : String → Option (Agg.Aggregator (Val Empty) T) := fun a =>
  if a = "count" then some cnt else if a = "min" then some mn else none

/-- `count` and `min` for tags that can be negated. -/
def twoAggs {T W : Type} (c : Prov T W) : String → Option (Agg.Aggregator (Val Empty) T) := twoOf (countAgg c) (minMaxAgg c true)

/-- `count` and `min` for boolean tags. -/
def twoBool : String → Option (Agg.Aggregator (Val Empty) Bool) := twoOf countBoolAgg (minMaxBoolAgg true)

/-- `count` and `min` in a world. -/
noncomputable def twoWorld : WorldAggs Empty := fun a => if a = "count" then some worldCount else if a = "min" then some (worldMinMax true) else none

/-- The number of edges, the least successor of every node with successors, and the number of successors of every given node. -/
def degreeProgram : Program Empty where
  strata := [⟨["edge"], []⟩, ⟨["start"], []⟩,
    ⟨["number", "least", "degree"], [⟨"number", .leaf (.reduce "count" "edge" .none)⟩, ⟨"least", .leaf (.reduce "min" "edge" .implicit)⟩,
      ⟨"degree", .leaf (.reduce "count" "edge" (.join "start"))⟩]⟩]
  decl := fun r => ⟨false, r = "edge" || r = "start", false, none, false⟩

/-- The edges 1 → 2 and 1 → 3 with the tags `a` and `b`; the nodes 1 and 4 with tag `one`. -/
def forkEdb {T : Type} (one a b : T) : Db Empty T := fun r =>
  if r = "edge" then some (.sorted [⟨row [1, 2], a⟩, ⟨row [1, 3], b⟩])
  else if r = "start" then some (.sorted [⟨row [1, 1], one⟩, ⟨row [4, 4], one⟩])
  else none

private theorem degree_cases {k : Nat} {st} (h : degreeProgram.strata[k]? = some st) :
    (k = 0 ∧ st = ⟨["edge"], []⟩) ∨ (k = 1 ∧ st = ⟨["start"], []⟩) ∨ (k = 2 ∧ st = degreeProgram.strata[2]) := by
  match k with
  | 0 => left; simpa [degreeProgram, eq_comm] using h
  | 1 => right; left; simpa [degreeProgram, eq_comm] using h
  | 2 => right; right; simpa [degreeProgram, eq_comm] using h
  | k + 3 => simp [degreeProgram] at h

theorem degreeProgram_ok {T : Type} (one : T) (aggs) : degreeProgram.Ok (aggRuntime T one aggs) := by
  refine ⟨?_, ?_, ?_, ?_, fun r _ => rfl⟩
  · intro j k st st' r hj hk h1 h2
    rcases degree_cases hj with ⟨rfl, rfl⟩ | ⟨rfl, rfl⟩ | ⟨rfl, rfl⟩ <;> rcases degree_cases hk with ⟨rfl, rfl⟩ | ⟨rfl, rfl⟩ | ⟨rfl, rfl⟩ <;>
      first
      | rfl
      | (simp [degreeProgram] at h1 h2; rcases h1 with rfl | rfl | rfl <;> revert h2 <;> decide)
      | (simp [degreeProgram] at h1 h2; subst h1; revert h2; decide)
  · intro st hst u hu
    obtain ⟨k, hk⟩ := List.mem_iff_getElem?.mp hst
    rcases degree_cases hk with ⟨_, rfl⟩ | ⟨_, rfl⟩ | ⟨_, rfl⟩ <;> simp [degreeProgram] at hu
    rcases hu with rfl | rfl | rfl <;> decide
  · intro k st u hk hu r hr
    have : ∃ j : Fin 3, j.1 ≤ k ∧ r ∈ (degreeProgram.strata[j.1]'j.2).relations := by
      rcases degree_cases hk with ⟨rfl, rfl⟩ | ⟨rfl, rfl⟩ | ⟨rfl, rfl⟩ <;> simp [degreeProgram] at hu
      rcases hu with rfl | rfl | rfl <;> simp [flowDeps] at hr
      · subst hr; decide
      · subst hr; decide
      · rcases hr with rfl | rfl <;> decide
    obtain ⟨j, hj, hr⟩ := this
    exact ⟨j.1, _, hj, List.getElem?_eq_getElem j.2, hr⟩
  · intro st hst u hu
    obtain ⟨k, hk⟩ := List.mem_iff_getElem?.mp hst
    rcases degree_cases hk with ⟨_, rfl⟩ | ⟨_, rfl⟩ | ⟨_, rfl⟩ <;> simp [degreeProgram] at hu
    rcases hu with rfl | rfl | rfl <;> simp [degreeProgram, Stratified, WellSorted, ForeignOk]

theorem forkEdb_ok {T : Type} (Q : T → Prop) (one a b : T) (h1 : Q one) (h2 : Q a) (h3 : Q b) :
    ∀ r x, forkEdb one a b r = some x → ∃ l, x = .sorted l ∧ Sorted l ∧ AllTags Q l := by
  intro r x h
  unfold forkEdb at h
  split at h
  · cases h
    refine ⟨_, rfl, ?_, by simp [AllTags, h2, h3]⟩
    simp only [Sorted, List.pairwise_cons, List.mem_cons, List.not_mem_nil, or_false, forall_eq, List.Pairwise.nil]
    simp only [IsEmpty.forall_iff, implies_true, and_true]
    decide +kernel
  · split at h
    · cases h
      refine ⟨_, rfl, ?_, by simp [AllTags, h1]⟩
      simp only [Sorted, List.pairwise_cons, List.mem_cons, List.not_mem_nil, or_false, forall_eq, List.Pairwise.nil]
      simp only [IsEmpty.forall_iff, implies_true, and_true]
      decide +kernel
    · cases h

theorem degreeProgram_plain {T W : Type} (c : Prov T W) (one a b : T) (K : Interp (Tup (Val Empty)) → String → String → GroupBy → Prop)
    (hK : ∀ L, (∀ t, L "edge" t → ∃ k y, t = .tup [k, y]) → K L "count" "edge" .none ∧ K L "min" "edge" .implicit ∧ K L "count" "edge" (.join "start")) (aggs) :
    degreeProgram.PlainWith K (redAny c (aggRuntime T one aggs)) (aggRuntime T one aggs) (forkEdb one a b) := by
  refine ⟨⟨fun r t => r = "edge" → ∃ k y, t = .tup [k, y], ⟨?_, ?_⟩, ?_⟩, fun r _ => rfl⟩
  · rintro r t ⟨x, hx, e, he, rfl, -⟩ rfl
    simp only [forkEdb, if_true, Option.some.injEq] at hx
    subst hx
    simp only [Coll.elems, List.mem_cons, List.not_mem_nil, or_false] at he
    rcases he with rfl | rfl <;> exact ⟨_, _, rfl⟩
  · intro st hst u hu t _ h
    obtain ⟨k, hk⟩ := List.mem_iff_getElem?.mp hst
    rcases degree_cases hk with ⟨_, rfl⟩ | ⟨_, rfl⟩ | ⟨_, rfl⟩ <;> simp [degreeProgram] at hu
    rcases hu with rfl | rfl | rfl <;> simp at h
  · intro st hst u hu
    obtain ⟨k, hk⟩ := List.mem_iff_getElem?.mp hst
    obtain ⟨h1, h2, h3⟩ := hK (fun r t => r = "edge" → ∃ k y, t = .tup [k, y]) (fun t h => h rfl)
    rcases degree_cases hk with ⟨_, rfl⟩ | ⟨_, rfl⟩ | ⟨_, rfl⟩ <;> simp [degreeProgram] at hu
    rcases hu with rfl | rfl | rfl <;> simp [KeepsWith, Sharp, h1, h2, h3]

/-- The aggregations of the program can be read in every world in which the aggregators are exact. -/
theorem degree_aggOk {T : Type} {Q v : T → Prop} {cnt mn : Agg.Aggregator (Val Empty) T} (h1 : AggExactAt Q v cnt worldCount)
    (h3 : AggExactAt Q v mn (worldMinMax true)) (one : T) (L : Interp (Tup (Val Empty))) (hL : ∀ t, L "edge" t → ∃ k y, t = .tup [k, y]) :
    AggOk Q v (aggRuntime T one (twoOf cnt mn)) twoWorld L "count" "edge" .none ∧ AggOk Q v (aggRuntime T one (twoOf cnt mn)) twoWorld L "min" "edge" .implicit ∧
    AggOk Q v (aggRuntime T one (twoOf cnt mn)) twoWorld L "count" "edge" (.join "start") := by
  have e1 : ∀ agg, (aggRuntime T one (twoOf cnt mn)).aggs "count" = some agg → AggExactAt Q v agg worldCount := by
    intro agg h
    have h' : some cnt = some agg := h
    exact Option.some.inj h' ▸ h1
  have e2 : ∀ agg, (aggRuntime T one (twoOf cnt mn)).aggs "min" = some agg → AggExactAt Q v agg (worldMinMax true) := by
    intro agg h
    have h' : some mn = some agg := h
    exact Option.some.inj h' ▸ h3
  exact ⟨⟨worldCount, rfl, e1, fun h => absurd rfl h, fun h => by cases h⟩, ⟨worldMinMax true, rfl, e2, fun _ => hL, fun _ => by simp [worldMinMax]⟩,
    ⟨worldCount, rfl, e1, fun _ => hL, fun h => by cases h⟩⟩

private abbrev degreeRow (n k : Int) : Tup (Val Empty) := .tup [.val (.int .i32 n), .val (.int .i32 n), .val (.int .usize k)]

/-- The elements of a relation after an execution. -/
private def elemsOf {T : Type} (res : Run (Db Empty T)) (r : String) : Option (List (Tup (Val Empty) × T)) :=
  match res with
  | .done d => (d r).map (fun a => a.elems.map (fun e => (e.tuple, e.tag)))
  | _ => none

/-- `c82_top_k_aggregates_partial` and `c82_probability_aggregates_partial`: two facts with probability one half. -/
example : IsPop (DnfCtx.popMax (K := ℚ)) ∧ topKBound 2 < 43046722 ∧ exHalf.disj.disjunctions = [] ∧
    degreeProgram.Ok (aggRuntime Dnf [[]] (twoAggs (topKProv exHalf DnfCtx.popMax 43046722))) ∧
    degreeProgram.PlainWith (fun L a p g => ∀ w, AggOk (tagOver 2) (dnfHolds w) (aggRuntime Dnf [[]] (twoAggs (topKProv exHalf DnfCtx.popMax 43046722))) twoWorld L a p g)
      (redAny (topKProv exHalf DnfCtx.popMax 43046722) (aggRuntime Dnf [[]] (twoAggs (topKProv exHalf DnfCtx.popMax 43046722))))
      (aggRuntime Dnf [[]] (twoAggs (topKProv exHalf DnfCtx.popMax 43046722))) (forkEdb [[]] [[.pos 0]] [[.pos 1]]) ∧
    (∀ r a, forkEdb [[]] [[.pos 0]] [[.pos 1]] r = some a → ∃ l, a = .sorted l ∧ Sorted l ∧ AllTags (tagOver 2) l) := by
  have hb : topKBound 2 < 43046722 := by decide +kernel
  have hc : ∀ w, consistent w exHalf.disj.disjunctions := by intro w d hd; simp [exHalf] at hd
  refine ⟨popMax_isPop, hb, rfl, degreeProgram_ok _ _, degreeProgram_plain _ _ _ _ _ (fun L hL => ?_) _, forkEdb_ok _ _ _ _ ?_ ?_ ?_⟩
  · have := fun w =>
      have ex := c82_aggregators_exact (F := Empty) (topK_exactAt exHalf (by intro d hd; cases hd) _ 2 _ hb w (hc w))
        (c82_top_k_aggregators exHalf (by intro d hd; cases hd) _ popMax_isPop 2 _ hb w (hc w))
      degree_aggOk ex.1 (ex.2.2.1 true) [[]] L hL
    exact ⟨fun w => (this w).1, fun w => (this w).2.1, fun w => (this w).2.2⟩
  · simp [tagOver, Clause.Sorted]
  · simp [tagOver, Clause.Sorted, Literal.factId]
  · simp [tagOver, Clause.Sorted, Literal.factId]

set_option synthInstance.maxSize 1000 in
/-- What the execution reports: no edge, one edge or two edges, each with the proofs of this number; for node 4, which has no edges, the number 0. -/
example : (∀ b, QuietRun (topKProv exHalf DnfCtx.popMax 43046722) (aggRuntime Dnf [[]] (twoAggs (topKProv exHalf DnfCtx.popMax 43046722))) degreeProgram b 20
      (forkEdb [[]] [[.pos 0]] [[.pos 1]])) ∧
    ∀ b, (["number", "least", "degree"].map (elemsOf (executeFrom (topKProv exHalf DnfCtx.popMax 43046722)
      (aggRuntime Dnf [[]] (twoAggs (topKProv exHalf DnfCtx.popMax 43046722))) degreeProgram b 20 (forkEdb [[]] [[.pos 0]] [[.pos 1]]) (fun _ => none)))) =
    [some [(.val (.int .usize 0), [[.neg 0, .neg 1]]), (.val (.int .usize 1), [[.pos 0, .neg 1], [.neg 0, .pos 1]]), (.val (.int .usize 2), [[.pos 0, .pos 1]])],
      some [(row [1, 2], [[.pos 0]]), (row [1, 3], [[.neg 0, .pos 1]])],
      some [(degreeRow 1 0, [[.neg 0, .neg 1]]), (degreeRow 1 1, [[.pos 0, .neg 1], [.neg 0, .pos 1]]), (degreeRow 1 2, [[.pos 0, .pos 1]]), (degreeRow 4 0, [[]])]] := by
  refine ⟨fun b => ?_, by decide +kernel⟩
  apply quietRun_spec
  cases b <;> decide +kernel

set_option synthInstance.maxSize 1000 in
/-- `c82_boolean_aggregates_partial`: the second edge is false. -/
example : degreeProgram.Ok (aggRuntime Bool true twoBool) ∧
    degreeProgram.PlainWith (AggOk (fun _ => True) (· = true) (aggRuntime Bool true twoBool) twoWorld)
      (redAny boolProv (aggRuntime Bool true twoBool)) (aggRuntime Bool true twoBool) (forkEdb true true false) ∧
    ∀ b, (["number", "least"].map (elemsOf (executeFrom boolProv (aggRuntime Bool true twoBool) degreeProgram b 20 (forkEdb true true false)
      (fun _ => none)))) =
    [some [(.val (.int .usize 1), true)], some [(row [1, 2], true)]] := by
  refine ⟨degreeProgram_ok _ _, degreeProgram_plain _ _ _ _ _ (fun L hL => degree_aggOk c82_boolean_aggregators.1 (c82_boolean_aggregators.2.2 true) true L hL) _,
    by decide +kernel⟩

/-- The number of successors of every node with successors: the groups are those of the edges. -/
def implicitProgram : Program Empty where
  strata := [⟨["edge"], []⟩, ⟨["degree"], [⟨"degree", .leaf (.reduce "count" "edge" .implicit)⟩]⟩]
  decl := fun r => ⟨false, r = "edge", false, none, false⟩

/-- C82 fails for groups that are made of the aggregated tuples, if the aggregate has a result for no tuples: both edges from 1 are false, and the number of
successors of node 1 is reported to be 0, with a true tag. In the world there are no edges, so that there is no group, and nothing can be derived. -/
theorem c82_implicit_count_false : ∃ idb, executeFrom boolProv (aggRuntime Bool true twoBool) implicitProgram false 20 (forkEdb true false false) (fun _ => none) =
      .done idb ∧ (∃ a, idb "degree" = some a ∧ .tup [.val (.int .i32 1), .val (.int .usize 0)] ∈ worldOf (· = true) a.elems) ∧
    ∀ t, ¬ implicitProgram.holdsWith (aggRuntime Bool true twoBool) twoWorld (forkEdb true false false) (· = true) "degree" t := by
  have he : elemsOf (executeFrom boolProv (aggRuntime Bool true twoBool) implicitProgram false 20 (forkEdb true false false) (fun _ => none)) "degree" =
      some [(.tup [.val (.int .i32 1), .val (.int .usize 0)], true)] := by decide +kernel
  cases hx : executeFrom boolProv (aggRuntime Bool true twoBool) implicitProgram false 20 (forkEdb true false false) (fun _ => none) with
  | done d =>
    rw [hx] at he
    obtain ⟨a, ha, he⟩ := Option.map_eq_some_iff.mp he
    refine ⟨d, rfl, ⟨a, ha, ?_⟩, ?_⟩
    · have hm : ((.tup [.val (.int .i32 1), .val (.int .usize 0)] : Tup (Val Empty)), true) ∈ a.elems.map (fun e => (e.tuple, e.tag)) := by rw [he]; simp
      obtain ⟨e, hea, heq⟩ := List.mem_map.mp hm
      exact ⟨e, hea, (Prod.mk.inj heq).1, (Prod.mk.inj heq).2⟩
    · rintro t ⟨J, hJ, h⟩
      have hedge : ∀ t, ¬ J "edge" t := by
        intro t ht
        have := (hJ (ramLayer _ ⟨["edge"], []⟩) (List.mem_map.mpr ⟨_, by simp [implicitProgram], rfl⟩) "edge" (by simp [ramLayer]) t).mp ht (edbIn (· = true) (forkEdb true false false))
          ⟨fun _ _ _ h => h, fun d hd => by obtain ⟨u, hu, _⟩ := hd; cases hu⟩
        obtain ⟨a, ha, e, he, -, hv⟩ := this
        simp only [forkEdb, if_true, Option.some.injEq] at ha
        subst ha
        simp only [Coll.elems, List.mem_cons, List.not_mem_nil, or_false] at he
        rcases he with rfl | rfl <;> cases hv
      have := (hJ (ramLayer _ ⟨["degree"], [⟨"degree", .leaf (.reduce "count" "edge" .implicit)⟩]⟩) (List.mem_map.mpr ⟨_, by simp [implicitProgram], rfl⟩) "degree" (by simp [ramLayer]) t).mp h
        (fun _ _ => False) ⟨?_, ?_⟩
      · exact this
      · rintro p hp t ⟨a, ha, _⟩
        simp only [ramLayer, List.mem_singleton] at hp
        subst hp
        simp [forkEdb] at ha
      · rintro d ⟨u, hu, rfl⟩ t hd
        rw [List.mem_singleton] at hu
        subst hu
        obtain ⟨_, l, _, hl, k, ⟨x, hxl, _⟩, _⟩ := hd
        have := (hl.2 x).mp hxl
        rcases this with ⟨hm, _⟩ | ⟨_, hm⟩
        · simp [ramLayer] at hm
        · exact hedge x hm
  | _ => rw [hx] at he; cases he

end Scallop.Exec
