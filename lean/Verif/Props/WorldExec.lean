import Verif.Proof.WorldExec
import Verif.Props.EndToEnd
import Verif.Props.Exec

/-!
# Property theorem C82: executing a program in possible worlds
-/

namespace Scallop.Exec

open Scallop.Ram Scallop.Plan
open Scallop.Back (noExt)
open DnfCtx (HeapElem)

section
variable {F T W : Type} [LinearOrder (Val F)] [LinearOrder W]

/-- What can be derived in a world is the model of the strata over the true facts; there is one, and only one. -/
theorem c82_model (R : Runtime F T) (P : Program F) (ok : P.Ok R) (edb : Db F T) (v : T → Prop) :
    (∃ J, StratModel (edbIn v edb) (P.strata.map (ramLayer (R.settingIn v))) J) ∧
    ∀ J, StratModel (edbIn v edb) (P.strata.map (ramLayer (R.settingIn v))) J → ∀ r ∈ P.relations, ∀ t, J r t ↔ P.holdsIn R edb v r t := by
  have hl := layers_layered_gen (settingIn_local v R) ok
  have hJ := model_exists (facts := edbIn v edb) (J := fun _ _ => False) hl
  refine ⟨⟨_, hJ⟩, fun J hJ r hr t => ⟨fun h => ⟨J, hJ, h⟩, ?_⟩⟩
  rintro ⟨J', hJ', h⟩
  obtain ⟨st, hst, hr⟩ := List.mem_flatMap.mp hr
  exact (model_unique hl hJ' hJ (by simp) _ (List.mem_map.mpr ⟨st, hst, rfl⟩) r hr t).mp h

/-- **C82 (partial), soundness.** A program without negation is executed with a provenance whose operations are sound in the world: a disjunction that is
true has a true operand, and both operands of a conjunction that is true are. However the execution ends, a tuple of a visible relation whose tag is true
in the world can be derived in the world. -/
theorem c82_sound (c : Prov T W) (v : T → Prop) (hm : c.Uniform) (hc : c.SoundAt v) (R : Runtime F T) (P : Program F) (ok : P.Ok R) (edb : Db F T) (pl : P.Plain R edb)
    (hn : P.NoMinus) (hedb : ∀ r a, edb r = some a → ∃ l, a = .sorted l ∧ Sorted l) (incremental : Bool) (fuel : Nat) (idb : Db F T)
    (h : executeFrom c R P incremental fuel edb (fun _ => none) = .done idb) :
    ∀ r ∈ P.relations, (P.decl r).hidden = false →
      ∃ l, idb r = some (.sorted l) ∧ Sorted l ∧ ∀ t ∈ worldOf v l, P.holdsIn R edb v r t := by
  intro r hr hv
  obtain ⟨⟨J, hJ⟩, _⟩ := c82_model R P ok edb v
  obtain ⟨l, h1, h2, h3⟩ := executeFrom_world_sound hm hc ok pl hn hedb hJ h hr hv
  exact ⟨l, h1, h2, fun t ht => ⟨J, hJ, h3 t ht⟩⟩

/-- **C82 (partial).** A program that meets `Program.Ok` and `Program.Plain` is executed with a provenance whose operations are exact in the world, on the
tags in `Q`. If the execution ends, then in every visible relation the tuples whose tag is true in the world are exactly those that can be derived in the
world. Missing: aggregates, exclusions, and scans that gallop, for which C81 is false. -/
theorem c82_worlds_partial (c : Prov T W) (Q v : T → Prop) (hm : c.Uniform) (hc : c.ExactAt Q v) (R : Runtime F T) (P : Program F) (ok : P.Ok R) (edb : Db F T) (pl : P.Plain R edb)
    (hR : R.TagsIn Q) (hneg : (c.NegSoundAt v ∧ c.NegExactAt Q v) ∨ P.NoMinus) (hkeep : R.earlyDiscard = true → ∀ t, c.discard t = true → ¬ v t)
    (hlim : R.iterLimit = none) (hgoal : R.stopAtGoal = false)
    (hedb : ∀ r a, edb r = some a → ∃ l, a = .sorted l ∧ Sorted l ∧ AllTags Q l) (incremental : Bool) (fuel : Nat)
    (hq : (c.ExactAt (fun _ => True) v ∧ c.LinearAt v) ∨ QuietRun c R P incremental fuel edb) (idb : Db F T)
    (h : executeFrom c R P incremental fuel edb (fun _ => none) = .done idb) :
    ∀ r ∈ P.relations, (P.decl r).hidden = false →
      ∃ l, idb r = some (.sorted l) ∧ Sorted l ∧ AllTags Q l ∧ ∀ t, t ∈ worldOf v l ↔ P.holdsIn R edb v r t := by
  intro r hr hv
  obtain ⟨⟨J, hJ⟩, hu⟩ := c82_model R P ok edb v
  obtain ⟨l, h1, h2, h3, h4⟩ := executeFrom_world hm hc ok pl hR hneg hkeep hlim hgoal hedb hq hJ h hr hv
  exact ⟨l, h1, h2, h3, fun t => (h4 t).trans (hu J hJ r hr t)⟩

end

/-! ### Provenances -/

section
variable {F : Type} [LinearOrder (Val F)]

/-- The boolean tags. Negation is exact; scans may gallop. -/
theorem c82_boolean (R : Runtime F Bool) (P : Program F) (ok : P.Ok R) (edb : Db F Bool) (pl : P.Plain R edb) (hlim : R.iterLimit = none) (hgoal : R.stopAtGoal = false)
    (hedb : ∀ r a, edb r = some a → ∃ l, a = .sorted l ∧ Sorted l) (incremental : Bool) (fuel : Nat) (idb : Db F Bool)
    (h : executeFrom boolProv R P incremental fuel edb (fun _ => none) = .done idb) :
    ∀ r ∈ P.relations, (P.decl r).hidden = false →
      ∃ l, idb r = some (.sorted l) ∧ Sorted l ∧ ∀ t, t ∈ worldOf (· = true) l ↔ P.holdsIn R edb (· = true) r t := by
  intro r hr hv
  have hx : boolProv.ExactAt (fun _ => True) (· = true) := by
    refine ⟨⟨?_, ?_⟩, trivial, fun _ _ _ _ => trivial, fun _ _ _ _ => trivial, rfl, ?_, ?_, ?_⟩ <;>
      · unfold boolProv
        simp only [Prov.AddSoundAt]
        decide
  have hl : boolProv.LinearAt (· = true) := by unfold boolProv Prov.LinearAt; decide
  have hn : boolProv.NegSoundAt (· = true) := by unfold boolProv Prov.NegSoundAt; decide
  have hn' : boolProv.NegExactAt (fun _ => True) (· = true) := by
    refine ⟨fun _ _ _ _ _ _ => trivial, ?_⟩
    unfold boolProv
    decide
  obtain ⟨l, h1, h2, _, h3⟩ := c82_worlds_partial boolProv _ _ (fun _ _ _ => rfl) hx R P ok edb pl (fun _ _ _ _ _ _ => trivial) (.inl ⟨hn, hn'⟩)
    (fun _ t ht => by cases t <;> simp_all [boolProv]) hlim hgoal
    (fun r a h => by obtain ⟨l, h1, h2⟩ := hedb r a h; exact ⟨l, h1, h2, fun _ _ => trivial⟩) incremental fuel (.inl ⟨hx, hl⟩) idb h r hr hv
  exact ⟨l, h1, h2, h3⟩

/-- Min-max probabilities, for programs without negation: for every threshold below 1, the tuples with a probability above the threshold are exactly those
that can be derived from the facts with a probability above it. -/
theorem c82_min_max {K : Type} [Field K] [LinearOrder K] [IsStrictOrderedRing K] (R : Runtime F K) (P : Program F) (ok : P.Ok R) (edb : Db F K) (pl : P.Plain R edb)
    (hneg : P.NoMinus) (hlim : R.iterLimit = none) (hgoal : R.stopAtGoal = false) 
    (hedb : ∀ r a, edb r = some a → ∃ l, a = .sorted l ∧ Sorted l) (incremental : Bool) (fuel : Nat) (idb : Db F K)
    (h : executeFrom (minMaxProv K) R P incremental fuel edb (fun _ => none) = .done idb) :
    ∀ r ∈ P.relations, (P.decl r).hidden = false →
      ∃ l, idb r = some (.sorted l) ∧ Sorted l ∧ ∀ θ : K, 0 ≤ θ → θ < 1 → ∀ t, t ∈ worldOf (θ < ·) l ↔ P.holdsIn R edb (θ < ·) r t := by
  intro r hr hv
  have key : ∀ θ : K, 0 ≤ θ → θ < 1 → ∃ l, idb r = some (.sorted l) ∧ Sorted l ∧ ∀ t, t ∈ worldOf (θ < ·) l ↔ P.holdsIn R edb (θ < ·) r t := by
    intro θ h0 h1
    have hx : (minMaxProv K).ExactAt (fun _ => True) (θ < ·) := by
      refine ⟨⟨fun a b h => ?_, fun a b h => ?_⟩, trivial, fun _ _ _ _ => trivial, fun _ _ _ _ => trivial, h1, fun a b _ _ h => ?_, fun a b _ _ h h' => ?_,
        fun a b _ _ h h' => ?_⟩
      · exact lt_max_iff.mp h
      · exact lt_min_iff.mp h
      · exact lt_max_iff.mpr h
      · exact lt_min_iff.mpr ⟨h, h'⟩
      · have : a = max a b := by simpa [minMaxProv] using h
        rw [this]; exact lt_max_iff.mpr (.inr h')
    have hl : (minMaxProv K).LinearAt (θ < ·) := by
      intro a b h ha
      have hne : a ≠ max a b := by simpa [minMaxProv] using h
      have : a < b := by
        by_contra hc
        exact hne (max_eq_left (not_lt.mp hc)).symm
      exact lt_trans ha this
    obtain ⟨l, r1, r2, _, r3⟩ := c82_worlds_partial (minMaxProv K) _ _ (fun _ _ _ => rfl) hx R P ok edb pl (fun _ _ _ _ _ _ => trivial) (.inr hneg)
      (fun _ t ht => not_lt.mpr ((of_decide_eq_true ht).trans h0)) hlim hgoal
      (fun r a h => by obtain ⟨l, h1, h2⟩ := hedb r a h; exact ⟨l, h1, h2, fun _ _ => trivial⟩) incremental fuel (.inl ⟨hx, hl⟩) idb h r hr hv
    exact ⟨l, r1, r2, r3⟩
  obtain ⟨l, h1, h2, _⟩ := key 0 le_rfl zero_lt_one
  refine ⟨l, h1, h2, fun θ h0 h1' => ?_⟩
  obtain ⟨l', r1, _, r3⟩ := key θ h0 h1'
  rw [h1] at r1
  cases r1
  exact r3

variable {K : Type} [Field K] [LinearOrder K]

theorem topKProv_uniform (x : DnfCtx K) (pop : List (HeapElem K) → Option (HeapElem K × List (HeapElem K))) (k : Nat) : (topKProv x pop k).Uniform := by
  intro a a' b
  show (((topKProv x pop k).negate b).map _).isSome = (((topKProv x pop k).negate b).map _).isSome
  simp

/-- Top-k proofs, negation included, for `k` above a bound that depends on the number `n` of facts, in executions in which no scan gallops: in every world in
which no two facts of one exclusion are true, the tuples with a true tag are exactly those that can be derived in that world. -/
theorem c82_top_k_partial (x : DnfCtx K) (hds : ∀ d ∈ x.disj.disjunctions, Asc d) (pop : List (HeapElem K) → Option (HeapElem K × List (HeapElem K)))
    (hpop : IsPop pop) (n k : Nat) (hk : topKBound n < k) (R : Runtime F Dnf) (P : Program F) (ok : P.Ok R) (edb : Db F Dnf) (pl : P.Plain R edb)
    (hR : R.TagsIn (tagOver n)) (hlim : R.iterLimit = none) (hgoal : R.stopAtGoal = false)
    (hedb : ∀ r a, edb r = some a → ∃ l, a = .sorted l ∧ Sorted l ∧ AllTags (tagOver n) l) (incremental : Bool) (fuel : Nat)
    (hq : QuietRun (topKProv x pop k) R P incremental fuel edb) (idb : Db F Dnf)
    (h : executeFrom (topKProv x pop k) R P incremental fuel edb (fun _ => none) = .done idb) :
    ∀ r ∈ P.relations, (P.decl r).hidden = false →
      ∃ l, idb r = some (.sorted l) ∧ Sorted l ∧ AllTags (tagOver n) l ∧
        ∀ w, consistent w x.disj.disjunctions → ∀ t, t ∈ worldOf (dnfHolds w) l ↔ P.holdsIn R edb (dnfHolds w) r t := by
  intro r hr hv
  have key : ∀ w, consistent w x.disj.disjunctions → ∃ l, idb r = some (.sorted l) ∧ Sorted l ∧ AllTags (tagOver n) l ∧
      ∀ t, t ∈ worldOf (dnfHolds w) l ↔ P.holdsIn R edb (dnfHolds w) r t := fun w hw =>
    c82_worlds_partial _ _ _ (topKProv_uniform x pop k) (topK_exactAt x hds pop n k hk w hw) R P ok edb pl hR
      (.inl ⟨topK_negSoundAt x hds pop hpop k w, topK_negExactAt x hds pop hpop n k hk w hw⟩) (fun _ t ht => by
      have : t = [] := by simpa [topKProv] using ht
      subst this
      simp [dnfHolds]) hlim hgoal hedb incremental fuel (.inr hq) idb h r hr hv
  obtain ⟨l, h1, h2, h3, _⟩ := key (fun _ => false) (fun d _ a _ b _ ha _ => by cases ha)
  refine ⟨l, h1, h2, h3, fun w hw => ?_⟩
  obtain ⟨l', r1, _, _, r4⟩ := key w hw
  rw [h1] at r1
  cases r1
  exact r4

/-- C82 and C53: for `k` above the bound, in executions in which no scan gallops and without exclusions, the probability reported for a tuple of a visible
relation is the probability that the program derives it, the `n` facts being independent; a tuple that is not reported cannot be derived in any world. -/
theorem c82_probability_partial (x : DnfCtx K) (hds : x.disj.disjunctions = []) (pop : List (HeapElem K) → Option (HeapElem K × List (HeapElem K)))
    (hpop : IsPop pop) (n k : Nat) (hk : topKBound n < k) (R : Runtime F Dnf) (P : Program F) (ok : P.Ok R) (edb : Db F Dnf) (pl : P.Plain R edb)
    (hR : R.TagsIn (tagOver n)) (hlim : R.iterLimit = none) (hgoal : R.stopAtGoal = false)
    (hedb : ∀ r a, edb r = some a → ∃ l, a = .sorted l ∧ Sorted l ∧ AllTags (tagOver n) l) (incremental : Bool) (fuel : Nat)
    (hq : QuietRun (topKProv x pop k) R P incremental fuel edb) (idb : Db F Dnf)
    (h : executeFrom (topKProv x pop k) R P incremental fuel edb (fun _ => none) = .done idb) :
    ∀ r ∈ P.relations, (P.decl r).hidden = false →
      ∃ l, idb r = some (.sorted l) ∧
        (∀ e ∈ l, Dnf.wmc e.tag (Sdd.Diagram.realAlgebra K) x.prob =
          some (eventProb x.prob (Finset.range n) (fun w => P.holdsIn R edb (dnfHolds w) r e.tuple))) ∧
        ∀ t, t ∉ tuples l → ∀ w, ¬ P.holdsIn R edb (dnfHolds w) r t := by
  intro r hr hv
  obtain ⟨l, h1, h2, h3, h4⟩ := c82_top_k_partial x (by simp [hds]) pop hpop n k hk R P ok edb pl hR hlim hgoal hedb incremental fuel hq idb h r hr hv
  have hcons : ∀ w, consistent w x.disj.disjunctions := by intro w; rw [hds]; intro d hd; simp at hd
  refine ⟨l, h1, fun e he => ?_, fun t ht w hw => ht ?_⟩
  · rw [c53_dnf e.tag x.prob (Finset.range n) (fun c hc l hl => Finset.mem_range.2 (((h3 e he).2 c hc).2 l hl))]
    congr 2
    funext w
    apply propext
    rw [← h4 w (hcons w)]
    constructor
    · intro hw; exact ⟨e, he, rfl, hw⟩
    · rintro ⟨e', he', het, hw⟩
      rw [← nodup_elem_eq (sorted_nodup h2) he' he het]; exact hw
  · exact worldOf_tuples _ ((h4 w (hcons w) t).mpr hw)

/-- C82 and C53: for programs without negation and any `k`, the probability reported for a tuple is at most the probability that it can be derived. `S` is
any finite set of facts that contains those of the tag. -/
theorem c82_probability_bound [IsStrictOrderedRing K] (x : DnfCtx K) (hpr : ∀ f, 0 ≤ x.prob f ∧ x.prob f ≤ 1)
    (pop : List (HeapElem K) → Option (HeapElem K × List (HeapElem K))) (k : Nat) (R : Runtime F Dnf) (P : Program F) (ok : P.Ok R) (edb : Db F Dnf) (pl : P.Plain R edb)
    (hn : P.NoMinus) (hedb : ∀ r a, edb r = some a → ∃ l, a = .sorted l ∧ Sorted l) (incremental : Bool) (fuel : Nat) (idb : Db F Dnf)
    (h : executeFrom (topKProv x pop k) R P incremental fuel edb (fun _ => none) = .done idb) :
    ∀ r ∈ P.relations, (P.decl r).hidden = false →
      ∃ l, idb r = some (.sorted l) ∧ ∀ e ∈ l, ∀ S : Finset Nat, (∀ c ∈ e.tag, ∀ q ∈ c, q.factId ∈ S) →
        ∃ q, Dnf.wmc e.tag (Sdd.Diagram.realAlgebra K) x.prob = some q ∧
          q ≤ eventProb x.prob S (fun w => P.holdsIn R edb (dnfHolds w) r e.tuple) := by
  intro r hr hv
  have key : ∀ w, ∃ l, idb r = some (.sorted l) ∧ Sorted l ∧ ∀ t ∈ worldOf (dnfHolds w) l, P.holdsIn R edb (dnfHolds w) r t := fun w =>
    c82_sound _ _ (topKProv_uniform x pop k) (topK_soundAt x pop k w) R P ok edb pl hn hedb incremental fuel idb h r hr hv
  obtain ⟨l, h1, _⟩ := key (fun _ => false)
  refine ⟨l, h1, fun e he S hS => ⟨_, c53_dnf e.tag x.prob S hS, Sdd.eventProb_mono (fun f _ => hpr f) (fun w hw => ?_)⟩⟩
  obtain ⟨l', r1, _, r3⟩ := key w
  rw [h1] at r1
  cases r1
  exact r3 _ ⟨e, he, rfl, hw⟩

end

/-! ### An example -/

attribute [local instance] Val.order

private abbrev row (ns : List Int) : Tup (Val Empty) := flat (ns.map (fun n => .int .i32 n))

/-- The edges 1 → 2 and 2 → 3 with the tags `a` and `b`; the nodes 1, 2 and 3 with tag `one`. -/
def lineEdb {T : Type} (one a b : T) : Db Empty T := fun r =>
  if r = "edge" then some (.sorted [⟨row [1, 2], a⟩, ⟨row [2, 3], b⟩])
  else if r = "node" then some (.sorted [⟨row [1], one⟩, ⟨row [2], one⟩, ⟨row [3], one⟩])
  else none

theorem lineEdb_ok {T : Type} (Q : T → Prop) (one a b : T) (h1 : Q one) (h2 : Q a) (h3 : Q b) :
    ∀ r x, lineEdb one a b r = some x → ∃ l, x = .sorted l ∧ Sorted l ∧ AllTags Q l := by
  intro r x h
  unfold lineEdb at h
  split at h
  · cases h
    refine ⟨_, rfl, ?_, by simp [AllTags, h2, h3]⟩
    simp only [Sorted, List.pairwise_cons, List.mem_cons, List.not_mem_nil, or_false, forall_eq, List.Pairwise.nil]
    simp only [IsEmpty.forall_iff, implies_true, and_true]
    decide +kernel
  · split at h
    · cases h
      refine ⟨_, rfl, ?_, by simp [AllTags, h1]⟩
      simp only [Sorted, List.pairwise_cons, List.mem_cons, List.not_mem_nil, or_false, forall_eq_or_imp, forall_eq, List.Pairwise.nil]
      simp only [IsEmpty.forall_iff, implies_true, and_true]
      refine ⟨⟨?_, ?_⟩, ?_⟩ <;> decide +kernel
    · cases h

theorem reachProgram_plain {T : Type} (one : T) (edb : Db Empty T) : reachProgram.Plain (plainRuntime T one) edb := by
  refine ⟨?_, ⟨fun _ _ => True, ⟨fun _ _ _ => trivial, fun _ _ _ _ _ _ => trivial⟩, ?_⟩, fun r _ => rfl⟩ <;>
  · intro st hst u hu
    simp only [reachProgram, List.mem_cons, List.not_mem_nil, or_false] at hst
    rcases hst with rfl | rfl | rfl | rfl <;> simp at hu
    · rcases hu with rfl | rfl | rfl <;> simp [KeepsTags, Sharp]
    · rcases hu with rfl | rfl <;> simp [KeepsTags, Sharp, Injects]

/-- The elements of a relation after an execution. -/
private def elemsOf {T : Type} (res : Run (Db Empty T)) (r : String) : Option (List (Tup (Val Empty) × T)) :=
  match res with
  | .done d => (d r).map (fun a => a.elems.map (fun e => (e.tuple, e.tag)))
  | _ => none

/-- `c82_top_k_partial` and `c82_probability_partial`, with negation: two facts with probability one half. What is far from 1 is 3, if one of the two edges is
missing: with probability 3/4. -/
example : IsPop (DnfCtx.popMax (K := ℚ)) ∧ topKBound 2 < 43046722 ∧ reachProgram.Ok (plainRuntime Dnf [[]]) ∧ reachProgram.Plain (plainRuntime Dnf [[]]) (lineEdb [[]] [[.pos 0]] [[.pos 1]]) ∧
    (plainRuntime Dnf [[]]).TagsIn (tagOver 2) ∧
    (∀ r a, lineEdb [[]] [[.pos 0]] [[.pos 1]] r = some a → ∃ l, a = .sorted l ∧ Sorted l ∧ AllTags (tagOver 2) l) ∧
    (∀ b, QuietRun (topKProv exHalf DnfCtx.popMax 43046722) (plainRuntime Dnf [[]]) reachProgram b 20 (lineEdb [[]] [[.pos 0]] [[.pos 1]])) := by
  refine ⟨popMax_isPop, by decide +kernel, reachProgram_ok _, reachProgram_plain _ _, ?_, lineEdb_ok _ _ _ _ ?_ ?_ ?_, ?_⟩
  · intro n f h
    simp [plainRuntime] at h
  · simp [tagOver, Clause.Sorted]
  · simp [tagOver, Clause.Sorted, Literal.factId]
  · simp [tagOver, Clause.Sorted, Literal.factId]
  · intro b
    apply quietRun_spec
    cases b <;> decide +kernel
set_option synthInstance.maxSize 1000 in
example : ∀ b, (["path", "far"].map (elemsOf (executeFrom (topKProv exHalf DnfCtx.popMax 43046722) (plainRuntime Dnf [[]]) reachProgram b 20
      (lineEdb [[]] [[.pos 0]] [[.pos 1]]) (fun _ => none)))) =
    [some [(row [1, 2], [[.pos 0]]), (row [1, 3], [[.pos 0, .pos 1]]), (row [2, 3], [[.pos 1]])],
      some [(row [1, 1], [[]]), (row [1, 2], [[.neg 0]]), (row [1, 3], [[.neg 0], [.neg 1]]), (row [2, 1], [[]]), (row [2, 2], [[]]),
        (row [2, 3], [[.neg 1]]), (row [3, 1], [[]]), (row [3, 2], [[]]), (row [3, 3], [[]])]] ∧
    Dnf.wmc [[.neg 0], [.neg 1]] (Sdd.Diagram.realAlgebra ℚ) exHalf.prob = some (3/4) := by decide +kernel

set_option synthInstance.maxSize 1000 in
/-- `c82_boolean`: the second edge is false. -/
example : reachProgram.Ok (plainRuntime Bool true) ∧ reachProgram.Plain (plainRuntime Bool true) (lineEdb true true false) ∧
    (∀ r a, lineEdb true true false r = some a → ∃ l, a = .sorted l ∧ Sorted l) ∧
    ∀ b, (["path", "far"].map (elemsOf (executeFrom boolProv (plainRuntime Bool true) reachProgram b 20 (lineEdb true true false) (fun _ => none)))) =
    [some [(row [1, 2], true), (row [1, 3], false), (row [2, 3], false)],
      some [(row [1, 1], true), (row [1, 2], false), (row [1, 3], true), (row [2, 1], true), (row [2, 2], true), (row [2, 3], true), (row [3, 1], true),
        (row [3, 2], true), (row [3, 3], true)]] := by
  refine ⟨reachProgram_ok _, reachProgram_plain _ _, fun r a h => ?_, by decide +kernel⟩
  obtain ⟨l, h1, h2, _⟩ := lineEdb_ok (fun _ => True) _ _ _ trivial trivial trivial r a h
  exact ⟨l, h1, h2⟩

/-- The paths alone: a program without negation. -/
def pathsProgram : Program Empty := { reachProgram with strata := reachProgram.strata.take 3 }

theorem pathsProgram_ok {T : Type} (one : T) (edb : Db Empty T) :
    pathsProgram.Ok (plainRuntime T one) ∧ pathsProgram.Plain (plainRuntime T one) edb ∧ pathsProgram.NoMinus := by
  have h := reachProgram_ok one
  have h' := reachProgram_plain one edb
  have hs : ∀ st ∈ pathsProgram.strata, st ∈ reachProgram.strata := fun st h => List.mem_of_mem_take h
  have hi : ∀ (k : Nat) st, pathsProgram.strata[k]? = some st → k < 3 ∧ reachProgram.strata[k]? = some st := by
    intro k st hk
    simp only [pathsProgram, List.getElem?_take] at hk
    split at hk
    · exact ⟨by assumption, hk⟩
    · cases hk
  have hr : ∀ r ∈ pathsProgram.relations, r ∈ reachProgram.relations := by
    intro r hr
    obtain ⟨st, hst, hr⟩ := List.mem_flatMap.mp hr
    exact List.mem_flatMap.mpr ⟨st, hs st hst, hr⟩
  refine ⟨⟨fun j k st st' r hj hk => h.once j k st st' r (hi _ _ hj).2 (hi _ _ hk).2, fun st hst => h.target st (hs st hst), ?_, fun st hst => h.flow st (hs st hst),
    fun r hr' => h.storage r (hr r hr')⟩, ⟨fun st hst => h'.tags st (hs st hst), ⟨fun _ _ => True, ⟨fun _ _ _ => trivial, fun _ _ _ _ _ _ => trivial⟩, ?_⟩, fun r hr' => h'.lfp r (hr r hr')⟩, ?_⟩
  · intro k st u hk hu r hr
    obtain ⟨j, st', hj, hst', hr'⟩ := h.reads k st u (hi _ _ hk).2 hu r hr
    refine ⟨j, st', hj, ?_, hr'⟩
    simp only [pathsProgram, List.getElem?_take]
    rw [if_pos (Nat.lt_of_le_of_lt hj (hi _ _ hk).1)]
    exact hst'
  all_goals
    intro st hst u hu
    simp only [pathsProgram, reachProgram, List.take_succ_cons, List.take_zero, List.mem_cons, List.not_mem_nil, or_false] at hst
    rcases hst with rfl | rfl | rfl <;> simp at hu
    rcases hu with rfl | rfl | rfl <;> simp [Exec.NoMinus, Sharp]

set_option synthInstance.maxSize 1000 in
/-- `c82_min_max`: the probability of a path is that of its weakest edge. -/
example : (∀ b, (["path"].map (elemsOf (executeFrom (minMaxProv ℚ) (plainRuntime ℚ 1) pathsProgram b 20 (lineEdb 1 (9/10) (1/2)) (fun _ => none)))) =
    [some [(row [1, 2], 9/10), (row [1, 3], 1/2), (row [2, 3], 1/2)]]) := by decide +kernel

set_option synthInstance.maxSize 1000 in
/-- `c82_probability_bound`: the path has one proof, and with `k = 1` its probability is exact. -/
example : (∀ b, (["path"].map (elemsOf (executeFrom (topKProv exHalf DnfCtx.popMax 1) (plainRuntime Dnf [[]]) pathsProgram b 20
      (lineEdb [[]] [[.pos 0]] [[.pos 1]]) (fun _ => none)))) =
    [some [(row [1, 2], [[.pos 0]]), (row [1, 3], [[.pos 0, .pos 1]]), (row [2, 3], [[.pos 1]])]]) := by decide +kernel

/-! ### Negated atoms with wildcards -/

/-- `q(x) :- r(x), not p(x, _)`; the wildcard is a variable that occurs nowhere else. -/
def wildRules : List (SRule Empty) := [⟨.atom ⟨"q", [.var "x"]⟩, [.atom ⟨"r", [.var "x"]⟩, .neg ⟨"p", [.var "x", .var "_"]⟩], false⟩]

/-- What these rules are compiled to. The first column of `p` is subtracted, without removing duplicates. -/
def wildProgram : Program Empty where
  strata :=
    [⟨["r"], []⟩, ⟨["p"], []⟩,
      ⟨["q"], [⟨"q", .project (.project (.bin .antijoin (.project (.leaf (.rel "r")) (.tuple [.access [0], .tuple []]))
        (.project (.leaf (.rel "p")) (.access [0]))) (.access [0])) (.tuple [.access []])⟩]⟩]
  decl := fun r => ⟨false, r = "r" || r = "p", false, none, false⟩

/-- `r(1)` with the tag `one`, `p(1, 2)` and `p(1, 3)` with the tags `a` and `b`. -/
def wildEdb {T : Type} (one a b : T) : Db Empty T := fun r =>
  if r = "r" then some (.sorted [⟨row [1], one⟩])
  else if r = "p" then some (.sorted [⟨row [1, 2], a⟩, ⟨row [1, 3], b⟩])
  else none

/-- If `p(1, 3)` is true, `q(1)` cannot be derived. -/
theorem wildProgram_model {T : Type} (R : Runtime Empty T) (v : T → Prop) (one a b : T) (hb : v b) :
    ¬ wildProgram.holdsIn R (wildEdb one a b) v "q" (row [1]) := by
  rintro ⟨J, hJ, h⟩
  have hp : J "p" (row [1, 3]) := by
    refine (hJ _ (List.mem_map.mpr ⟨wildProgram.strata[1], by simp [wildProgram], rfl⟩) "p" (by simp [wildProgram, ramLayer]) _).mpr fun X hX => ?_
    refine hX.1 "p" (by simp [wildProgram, ramLayer]) _ ⟨_, rfl, ⟨row [1, 3], b⟩, by simp [Coll.elems], rfl, hb⟩
  have hq := (hJ _ (List.mem_map.mpr ⟨wildProgram.strata[2], by simp [wildProgram], rfl⟩) "q" (by simp [wildProgram, ramLayer]) _).mp h
    (fun _ t => t ≠ row [1]) ⟨?_, ?_⟩
  · exact hq rfl
  · intro p hp t ht
    simp only [wildProgram, ramLayer, List.getElem_cons_succ, List.getElem_cons_zero, List.mem_singleton] at hp
    subst hp
    obtain ⟨x, hx, _⟩ := ht
    cases hx
  · rintro d ⟨u, hu, rfl⟩ t ht
    simp only [wildProgram, List.getElem_cons_succ, List.getElem_cons_zero, List.mem_singleton] at hu
    subst hu
    rintro rfl
    obtain ⟨u1, ⟨u2, ⟨⟨u3, _, e3⟩, hn⟩, e2⟩, e1⟩ := ht
    have h1 : u1 = .val (.int .i32 1) := by simpa [Expr.eval, Expr.evalList, Tup.atPath, Outcome.bind, flat] using e1
    have h2 : u2.at? 0 = some (.val (.int .i32 1)) := by
      subst h1
      simp only [Expr.eval, Tup.atPath] at e2
      split at e2
      · rename_i x hx
        cases h0 : u2.at? 0 with
        | none => simp [h0] at hx
        | some y =>
          simp only [h0, Option.bind_some, Option.some.injEq] at hx
          simp only [Outcome.ok.injEq] at e2
          rw [hx, e2]
      · cases e2
    refine hn _ h2 ⟨row [1, 3], Or.inr ⟨by simp [wildProgram, ramLayer], hp⟩, rfl⟩

set_option synthInstance.maxSize 1000 in
/-- **C82 is false for negated atoms with wildcards**: of what is subtracted only the first of the tuples with the same key counts. With `r(1)` and `p(1, 3)`
true and `p(1, 2)` false, the rule `q(x) :- r(x), not p(x, _)` derives `q(1)` as true. With two facts of probability one half, `q(1)` has probability one half
instead of one quarter. All conditions of `c82_boolean` and `c82_top_k_partial` are met, but that what is subtracted has each tuple once. -/
theorem c82_false :
    compileStrata testEnv testSearch wildRules [["r"], ["p"], ["q"]] = some wildProgram.strata ∧
    (∀ T one, wildProgram.Ok (plainRuntime T one)) ∧ (∀ st ∈ wildProgram.strata, ∀ u ∈ st.updates, KeepsTags u.flow) ∧
    (∀ b, elemsOf (executeFrom boolProv (plainRuntime Bool true) wildProgram b 20 (wildEdb true false true) (fun _ => none)) "q" =
      some [(row [1], true)]) ∧
    ¬ wildProgram.holdsIn (plainRuntime Bool true) (wildEdb true false true) (· = true) "q" (row [1]) ∧
    (∀ b, QuietRun (topKProv exHalf DnfCtx.popMax 43046722) (plainRuntime Dnf [[]]) wildProgram b 20 (wildEdb [[]] [[.pos 0]] [[.pos 1]])) ∧
    (∀ b, elemsOf (executeFrom (topKProv exHalf DnfCtx.popMax 43046722) (plainRuntime Dnf [[]]) wildProgram b 20 (wildEdb [[]] [[.pos 0]] [[.pos 1]])
      (fun _ => none)) "q" = some [(row [1], [[.neg 0]])]) ∧
    ∀ w : Nat → Bool, w 1 = true → ¬ wildProgram.holdsIn (plainRuntime Dnf [[]]) (wildEdb [[]] [[.pos 0]] [[.pos 1]]) (dnfHolds w) "q" (row [1]) := by
  refine ⟨by decide +kernel, ?_, ?_, by decide +kernel, wildProgram_model _ _ _ _ _ rfl, ?_, by decide +kernel, fun w hw => wildProgram_model _ _ _ _ _ ?_⟩
  · intro T one
    have hle : ∀ (π : Perm) (e : Expr Empty), permExpr π = some e → orderPreserving π = true → ∀ x y x' y' : Tup (Val Empty), x ≤ y →
        e.eval noExt x = .ok x' → e.eval noExt y = .ok y' → x' ≤ y' := by
      intro π e he ho x y x' y' hxy hx hy
      rw [tup_le_iff] at hxy ⊢
      exact orderPreserving_le compare ho he hx hy hxy
    refine ⟨?_, ?_, ?_, ?_, fun _ _ => rfl⟩
    · intro j k st st' r hj hk h1 h2
      match j, k with
      | 0, 0 | 1, 1 | 2, 2 => rfl
      | 0, 1 | 0, 2 | 1, 0 | 1, 2 | 2, 0 | 2, 1 =>
        simp [wildProgram] at hj hk
        subst hj hk
        simp at h1 h2
        subst h1
        exact absurd h2 (by decide)
      | j + 3, _ => simp [wildProgram] at hj
      | _, k + 3 => simp [wildProgram] at hk
    · intro st hst u hu
      simp only [wildProgram, List.mem_cons, List.not_mem_nil, or_false] at hst
      rcases hst with rfl | rfl | rfl <;> simp at hu
      subst hu
      exact ⟨by simp, by decide⟩
    · intro k st u hk hu r hr
      match k with
      | 0 | 1 => simp [wildProgram] at hk; subst hk; simp at hu
      | 2 =>
        simp [wildProgram] at hk
        subst hk
        simp at hu
        subst hu
        simp [flowDeps] at hr
        rcases hr with rfl | rfl
        · exact ⟨0, _, by omega, rfl, by simp⟩
        · exact ⟨1, _, by omega, rfl, by simp⟩
      | k + 3 => simp [wildProgram] at hk
    · intro st hst u hu
      simp only [wildProgram, List.mem_cons, List.not_mem_nil, or_false] at hst
      rcases hst with rfl | rfl | rfl <;> simp at hu
      subst hu
      refine ⟨by simp [Stratified, Static], ⟨trivial, trivial, ⟨trivial, hle (.tup [.val 0, .tup []]) _ ?_ ?_⟩, trivial, hle (.val 0) _ ?_ ?_⟩, trivial, trivial⟩ <;>
        decide +kernel
  · intro st hst u hu
    simp only [wildProgram, List.mem_cons, List.not_mem_nil, or_false] at hst
    rcases hst with rfl | rfl | rfl <;> simp at hu
    subst hu
    simp [KeepsTags]
  · intro b
    apply quietRun_spec
    cases b <;> decide +kernel
  · exact ⟨_, List.mem_singleton_self _, by simp [Clause.holds, Literal.holds, hw]⟩

end Scallop.Exec
