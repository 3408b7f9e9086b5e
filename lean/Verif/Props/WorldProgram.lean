import Verif.Proof.WorldCompile
import Verif.Props.WorldExec

/-!
# Property theorem C83: programs of rules in possible worlds

C83: a program of rules is compiled and executed with tagged facts; the tag of a result says in which worlds the rules derive it from the facts that are true
there.
-/

namespace Scallop.Exec

open Scallop.Ram Scallop.Plan
open Scallop.Back (noExt)
open DnfCtx (HeapElem)

section
variable {F T W : Type} [LinearOrder (Val F)] [LinearOrder W] {R : Runtime F T} {E : Plan.Env F} {S : Search} {arity : String → Nat} {rules : List (SRule F)}
  {strata : List (List String)} {decl : String → Decl} {edb : Db F T} {ram : List (Ram.Stratum F)}

/-- What the rules derive in a world is determined: there is a model of the rules over the facts that are true, and only one. -/
theorem c83_model_partial (cp : TagCompiled R E S arity rules strata decl edb ram) (v : T → Prop) :
    (∃ J, StratModel (edbIn v edb) (strata.map (srcLayer (R.settingIn v) E rules)) J) ∧
    ∀ J, StratModel (edbIn v edb) (strata.map (srcLayer (R.settingIn v) E rules)) J → ∀ p ∈ strata.flatten, ∀ t, J p t ↔ rulesHoldIn R E rules strata edb v p t := by
  have hl := (programOk_in cp.ok v).layered (settingIn_local v R)
  have hJ := model_exists (facts := edbIn v edb) (J := fun _ _ => False) hl
  refine ⟨⟨_, hJ⟩, fun J hJ p hp t => ⟨fun h => ⟨J, hJ, h⟩, ?_⟩⟩
  rintro ⟨J', hJ', h⟩
  obtain ⟨D, hD, hp⟩ := List.mem_flatten.mp hp
  exact (model_unique hl hJ' hJ (by simp) _ (List.mem_map.mpr ⟨D, hD, rfl⟩) p hp t).mp h

/-- Compilation keeps, in every world, what the predicates hold. -/
theorem c83_compiled_partial (cp : TagCompiled R E S arity rules strata decl edb ram) (v : T → Prop) (p : String) (hp : p ∈ strata.flatten) (t : Tup (Val F)) :
    (⟨ram, decl⟩ : Program F).holdsIn R edb v p t ↔ rulesHoldIn R E rules strata edb v p t := by
  have ok := programOk_in cp.ok v
  have hX : (R.settingIn v).X.ExactFloats := cp.floats
  obtain ⟨⟨J, hJ⟩, h⟩ := c75_partial _ (settingIn_local v R) hX E cp.orders S cp.lawful arity rules strata _ ok ram cp.compile
  have key := c75_unique_partial _ (settingIn_local v R) hX E cp.orders S cp.lawful arity rules strata _ ok ram cp.compile
  constructor
  · rintro ⟨J', hJ', hp'⟩
    exact ⟨J', h J' hJ', hp'⟩
  · rintro ⟨J', hJ', hp'⟩
    exact ⟨J, hJ, (key J J' hJ hJ' p hp t).mpr hp'⟩

omit [LinearOrder (Val F)] in
theorem TagCompiled.relation (cp : TagCompiled R E S arity rules strata decl edb ram) {p : String} (hp : p ∈ strata.flatten) :
    p ∈ (⟨ram, decl⟩ : Program F).relations := by
  obtain ⟨ss, sN, k⟩ := cp.ok.comp cp.lawful cp.compile
  obtain ⟨j, D, hD, hq⟩ := mem_flatten_get.mp hp
  have hj : j < ram.length := by rw [k.len]; exact (List.getElem?_eq_some_iff.mp hD).1
  exact List.mem_flatMap.mpr ⟨ram[j], List.getElem_mem hj, (k.rel j _ (List.getElem?_eq_getElem hj) p).mpr (Or.inl (k.user_at hD hq))⟩

theorem TagCompiled.plain (cp : TagCompiled R E S arity rules strata decl edb ram) : Program.Plain R ⟨ram, decl⟩ edb :=
  compiled_plain cp.floats cp.orders cp.lawful cp.ok cp.run cp.compile

omit [LinearOrder W] in
theorem TagCompiled.programOk (cp : TagCompiled R E S arity rules strata decl edb ram) (c : Prov T W) : Program.Ok R ⟨ram, decl⟩ :=
  compiled_ok_tags c cp.orders cp.lawful cp.ok cp.run cp.compile

omit [LinearOrder W] in
theorem TagCompiled.noMinus (cp : TagCompiled R E S arity rules strata decl edb ram) (c : Prov T W) (hn : ∀ q ∈ rules, negOf q.body = []) :
    Program.NoMinus ⟨ram, decl⟩ :=
  compiled_noMinus c c.one cp.orders cp.lawful cp.ok cp.run cp.compile hn cp.plain.tags

/-- **C83 (partial), soundness.** Rules without negation are compiled and executed with a provenance whose operations are sound in the world. However the
execution ends, a tuple of a visible predicate whose tag is true in the world follows by the rules from the facts that are true in the world. -/
theorem c83_sound_partial (c : Prov T W) (v : T → Prop) (hm : c.Uniform) (hc : c.SoundAt v) (cp : TagCompiled R E S arity rules strata decl edb ram)
    (hn : ∀ q ∈ rules, negOf q.body = []) (hedb : ∀ r a, edb r = some a → ∃ l, a = .sorted l ∧ Sorted l) (incremental : Bool) (fuel : Nat) (idb : Db F T)
    (h : executeFrom c R ⟨ram, decl⟩ incremental fuel edb (fun _ => none) = .done idb) :
    ∀ p ∈ strata.flatten, (decl p).hidden = false →
      ∃ l, idb p = some (.sorted l) ∧ Sorted l ∧ ∀ t ∈ worldOf v l, rulesHoldIn R E rules strata edb v p t := by
  intro p hp hv
  obtain ⟨l, h1, h2, h3⟩ := c82_sound c v hm hc R ⟨ram, decl⟩ (cp.programOk c) edb cp.plain (cp.noMinus c hn) hedb incremental fuel idb h p (cp.relation hp) hv
  exact ⟨l, h1, h2, fun t ht => (c83_compiled_partial cp v p hp t).mp (h3 t ht)⟩

/-- **C83 (partial).** A stratified program of rules with tagged facts is compiled and executed with a provenance whose operations are exact in the world, on
the tags in `Q`. If the execution ends, then for every visible predicate the tuples whose tag is true in the world are exactly those that the rules define
over the facts that are true in the world. Missing: aggregates, disjunctive heads, foreign predicates, and what is missing in `c82_worlds_partial`. -/
theorem c83_worlds_partial (c : Prov T W) (Q v : T → Prop) (hm : c.Uniform) (hc : c.ExactAt Q v) (cp : TagCompiled R E S arity rules strata decl edb ram)
    (hR : R.TagsIn Q) (hneg : (c.NegSoundAt v ∧ c.NegExactAt Q v) ∨ ∀ q ∈ rules, negOf q.body = [])
    (hkeep : R.earlyDiscard = true → ∀ t, c.discard t = true → ¬ v t) (hlim : R.iterLimit = none) (hgoal : R.stopAtGoal = false)
    (hedb : ∀ r a, edb r = some a → ∃ l, a = .sorted l ∧ Sorted l ∧ AllTags Q l) (incremental : Bool) (fuel : Nat)
    (hq : (c.ExactAt (fun _ => True) v ∧ c.LinearAt v) ∨ QuietRun c R ⟨ram, decl⟩ incremental fuel edb) (idb : Db F T)
    (h : executeFrom c R ⟨ram, decl⟩ incremental fuel edb (fun _ => none) = .done idb) :
    ∀ p ∈ strata.flatten, (decl p).hidden = false →
      ∃ l, idb p = some (.sorted l) ∧ Sorted l ∧ AllTags Q l ∧ ∀ t, t ∈ worldOf v l ↔ rulesHoldIn R E rules strata edb v p t := by
  intro p hp hv
  obtain ⟨l, h1, h2, h3, h4⟩ := c82_worlds_partial c Q v hm hc R ⟨ram, decl⟩ (cp.programOk c) edb cp.plain hR (hneg.imp id (cp.noMinus c)) hkeep hlim hgoal hedb
    incremental fuel hq idb h p (cp.relation hp) hv
  exact ⟨l, h1, h2, h3, fun t => (h4 t).trans (c83_compiled_partial cp v p hp t)⟩

end

/-! ### Provenances -/

section
variable {F : Type} [LinearOrder (Val F)] {E : Plan.Env F} {S : Search} {arity : String → Nat} {rules : List (SRule F)}
  {strata : List (List String)} {decl : String → Decl} {ram : List (Ram.Stratum F)}

/-- The boolean tags: what has the tag true is what the rules, negation included, define over the facts with the tag true. -/
theorem c83_boolean_partial (R : Runtime F Bool) (edb : Db F Bool) (cp : TagCompiled R E S arity rules strata decl edb ram) (hlim : R.iterLimit = none)
    (hgoal : R.stopAtGoal = false) (hedb : ∀ r a, edb r = some a → ∃ l, a = .sorted l ∧ Sorted l) (incremental : Bool) (fuel : Nat) (idb : Db F Bool)
    (h : executeFrom boolProv R ⟨ram, decl⟩ incremental fuel edb (fun _ => none) = .done idb) :
    ∀ p ∈ strata.flatten, (decl p).hidden = false →
      ∃ l, idb p = some (.sorted l) ∧ Sorted l ∧ ∀ t, t ∈ worldOf (· = true) l ↔ rulesHoldIn R E rules strata edb (· = true) p t := by
  intro p hp hv
  obtain ⟨l, h1, h2, h3⟩ := c82_boolean R ⟨ram, decl⟩ (cp.programOk boolProv) edb cp.plain hlim hgoal hedb incremental fuel idb h p (cp.relation hp) hv
  exact ⟨l, h1, h2, fun t => (h3 t).trans (c83_compiled_partial cp _ p hp t)⟩

/-- Min-max probabilities, for rules without negation: for every threshold below 1, the tuples with a probability above the threshold are exactly those that
the rules derive from the facts with a probability above it. -/
theorem c83_min_max_partial {K : Type} [Field K] [LinearOrder K] [IsStrictOrderedRing K] (R : Runtime F K) (edb : Db F K)
    (cp : TagCompiled R E S arity rules strata decl edb ram) (hn : ∀ q ∈ rules, negOf q.body = []) (hlim : R.iterLimit = none) (hgoal : R.stopAtGoal = false)
    (hedb : ∀ r a, edb r = some a → ∃ l, a = .sorted l ∧ Sorted l) (incremental : Bool) (fuel : Nat) (idb : Db F K)
    (h : executeFrom (minMaxProv K) R ⟨ram, decl⟩ incremental fuel edb (fun _ => none) = .done idb) :
    ∀ p ∈ strata.flatten, (decl p).hidden = false →
      ∃ l, idb p = some (.sorted l) ∧ Sorted l ∧ ∀ θ : K, 0 ≤ θ → θ < 1 → ∀ t, t ∈ worldOf (θ < ·) l ↔ rulesHoldIn R E rules strata edb (θ < ·) p t := by
  intro p hp hv
  obtain ⟨l, h1, h2, h3⟩ := c82_min_max R ⟨ram, decl⟩ (cp.programOk (minMaxProv K)) edb cp.plain (cp.noMinus (minMaxProv K) hn) hlim hgoal hedb incremental fuel idb h
    p (cp.relation hp) hv
  exact ⟨l, h1, h2, fun θ h0 h1 t => (h3 θ h0 h1 t).trans (c83_compiled_partial cp _ p hp t)⟩

variable {K : Type} [Field K] [LinearOrder K]

/-- Top-k proofs, negation included, for `k` above a bound that depends on the number `n` of facts, in executions in which no scan gallops: in every world in
which no two facts of one exclusion are true, the tuples with a true tag are exactly those that the rules define over the facts that are true. -/
theorem c83_top_k_partial (x : DnfCtx K) (hds : ∀ d ∈ x.disj.disjunctions, Asc d) (pop : List (HeapElem K) → Option (HeapElem K × List (HeapElem K)))
    (hpop : IsPop pop) (n k : Nat) (hk : topKBound n < k) (R : Runtime F Dnf) (edb : Db F Dnf) (cp : TagCompiled R E S arity rules strata decl edb ram)
    (hR : R.TagsIn (tagOver n)) (hlim : R.iterLimit = none) (hgoal : R.stopAtGoal = false)
    (hedb : ∀ r a, edb r = some a → ∃ l, a = .sorted l ∧ Sorted l ∧ AllTags (tagOver n) l) (incremental : Bool) (fuel : Nat)
    (hq : QuietRun (topKProv x pop k) R ⟨ram, decl⟩ incremental fuel edb) (idb : Db F Dnf)
    (h : executeFrom (topKProv x pop k) R ⟨ram, decl⟩ incremental fuel edb (fun _ => none) = .done idb) :
    ∀ p ∈ strata.flatten, (decl p).hidden = false →
      ∃ l, idb p = some (.sorted l) ∧ Sorted l ∧ AllTags (tagOver n) l ∧
        ∀ w, consistent w x.disj.disjunctions → ∀ t, t ∈ worldOf (dnfHolds w) l ↔ rulesHoldIn R E rules strata edb (dnfHolds w) p t := by
  intro p hp hv
  obtain ⟨l, h1, h2, h3, h4⟩ := c82_top_k_partial x hds pop hpop n k hk R ⟨ram, decl⟩ (cp.programOk (topKProv x pop k)) edb cp.plain hR hlim hgoal hedb incremental fuel
    hq idb h p (cp.relation hp) hv
  exact ⟨l, h1, h2, h3, fun w hw t => (h4 w hw t).trans (c83_compiled_partial cp _ p hp t)⟩

/-- For `k` above the bound, in executions in which no scan gallops and without exclusions, the probability reported for a tuple is the probability that the
rules derive it, the `n` facts being independent; a tuple that is not reported is derived in no world. -/
theorem c83_probability_partial (x : DnfCtx K) (hds : x.disj.disjunctions = []) (pop : List (HeapElem K) → Option (HeapElem K × List (HeapElem K)))
    (hpop : IsPop pop) (n k : Nat) (hk : topKBound n < k) (R : Runtime F Dnf) (edb : Db F Dnf) (cp : TagCompiled R E S arity rules strata decl edb ram)
    (hR : R.TagsIn (tagOver n)) (hlim : R.iterLimit = none) (hgoal : R.stopAtGoal = false)
    (hedb : ∀ r a, edb r = some a → ∃ l, a = .sorted l ∧ Sorted l ∧ AllTags (tagOver n) l) (incremental : Bool) (fuel : Nat)
    (hq : QuietRun (topKProv x pop k) R ⟨ram, decl⟩ incremental fuel edb) (idb : Db F Dnf)
    (h : executeFrom (topKProv x pop k) R ⟨ram, decl⟩ incremental fuel edb (fun _ => none) = .done idb) :
    ∀ p ∈ strata.flatten, (decl p).hidden = false →
      ∃ l, idb p = some (.sorted l) ∧
        (∀ e ∈ l, Dnf.wmc e.tag (Sdd.Diagram.realAlgebra K) x.prob =
          some (eventProb x.prob (Finset.range n) (fun w => rulesHoldIn R E rules strata edb (dnfHolds w) p e.tuple))) ∧
        ∀ t, t ∉ tuples l → ∀ w, ¬ rulesHoldIn R E rules strata edb (dnfHolds w) p t := by
  intro p hp hv
  obtain ⟨l, h1, h2, h3⟩ := c82_probability_partial x hds pop hpop n k hk R ⟨ram, decl⟩ (cp.programOk (topKProv x pop k)) edb cp.plain hR hlim hgoal hedb incremental
    fuel hq idb h p (cp.relation hp) hv
  refine ⟨l, h1, fun e he => ?_, fun t ht w hw => h3 t ht w ((c83_compiled_partial cp _ p hp t).mpr hw)⟩
  rw [h2 e he]
  congr 2
  funext w
  exact propext (c83_compiled_partial cp _ p hp _)

/-- For rules without negation and any `k`, the probability reported for a tuple is at most the probability that the rules derive it. `Fs` is any finite set
of facts that contains those of the tag. -/
theorem c83_probability_bound_partial [IsStrictOrderedRing K] (x : DnfCtx K) (hpr : ∀ f, 0 ≤ x.prob f ∧ x.prob f ≤ 1)
    (pop : List (HeapElem K) → Option (HeapElem K × List (HeapElem K))) (k : Nat) (R : Runtime F Dnf) (edb : Db F Dnf)
    (cp : TagCompiled R E S arity rules strata decl edb ram) (hn : ∀ q ∈ rules, negOf q.body = [])
    (hedb : ∀ r a, edb r = some a → ∃ l, a = .sorted l ∧ Sorted l) (incremental : Bool) (fuel : Nat) (idb : Db F Dnf)
    (h : executeFrom (topKProv x pop k) R ⟨ram, decl⟩ incremental fuel edb (fun _ => none) = .done idb) :
    ∀ p ∈ strata.flatten, (decl p).hidden = false →
      ∃ l, idb p = some (.sorted l) ∧ ∀ e ∈ l, ∀ Fs : Finset Nat, (∀ c ∈ e.tag, ∀ q ∈ c, q.factId ∈ Fs) →
        ∃ q, Dnf.wmc e.tag (Sdd.Diagram.realAlgebra K) x.prob = some q ∧
          q ≤ eventProb x.prob Fs (fun w => rulesHoldIn R E rules strata edb (dnfHolds w) p e.tuple) := by
  intro p hp hv
  obtain ⟨l, h1, h2⟩ := c82_probability_bound x hpr pop k R ⟨ram, decl⟩ (cp.programOk (topKProv x pop k)) edb cp.plain (cp.noMinus (topKProv x pop k) hn) hedb
    incremental fuel idb h p (cp.relation hp) hv
  refine ⟨l, h1, fun e he Fs hFs => ?_⟩
  obtain ⟨q, r1, r2⟩ := h2 e he Fs hFs
  refine ⟨q, r1, r2.trans (le_of_eq ?_)⟩
  congr 1
  funext w
  exact propext (c83_compiled_partial cp _ p hp _)

end

/-! ### An example -/

attribute [local instance] Val.order

private abbrev row (ns : List Int) : Tup (Val Empty) := flat (ns.map (fun n => .int .i32 n))

private theorem lineEdb_facts {T : Type} (one a b : T) (v : T → Prop) (p : String) (t : Tup (Val Empty)) (h : edbIn v (lineEdb one a b) p t) : pathFacts p t := by
  obtain ⟨x, hx, e, he, rfl, _⟩ := h
  unfold lineEdb at hx
  split at hx
  · rename_i hp
    cases hx
    subst hp
    simp [Coll.elems] at he
    rcases he with rfl | rfl <;> simp [pathFacts, flat]
  · split at hx
    · rename_i hp
      cases hx
      subst hp
      simp [Coll.elems] at he
      rcases he with rfl | rfl | rfl <;> simp [pathFacts, flat]
    · cases hx

theorem pathRules_tagRunnable {T : Type} (one : T) : TagRunnable (plainRuntime T one) testEnv pathRules pathStrata pathDecl where
  plain := fun _ => ⟨rfl, rfl⟩
  writable := pathRules_runnable.writable
  temps := pathRules_runnable.temps
  vars := pathRules_runnable.vars
  aggs := by simp [pathRules, reducesOf]
  heads := by
    simp only [pathRules, List.mem_cons, List.not_mem_nil, or_false, forall_eq_or_imp, forall_eq]
    exact ⟨⟨_, rfl, rfl⟩, ⟨_, rfl, rfl⟩, _, rfl, rfl⟩
  lfp := fun _ => rfl

/-- The program of `Props/Strata.lean`, with recursion and negation, is compiled, whatever the tags of the edges are. -/
theorem pathRules_compiled {T : Type} (one a b : T) :
    ∃ ram, TagCompiled (plainRuntime T one) testEnv testSearch pathArity pathRules pathStrata pathDecl (lineEdb one a b) ram := by
  have hex : (compileStrata testEnv testSearch pathRules pathStrata).isSome := by decide +kernel
  obtain ⟨ram, hram⟩ := Option.isSome_iff_exists.mp hex
  exact ⟨ram, Back.noExt_exact, testEnv_orders, testSearch_lawful, pathProgram_good (lineEdb_facts one a b _), pathRules_tagRunnable one, hram⟩

/-- The elements of some relations after compiling and executing. -/
private def outcome {T W : Type} [LinearOrder W] (c : Prov T W) (R : Runtime Empty T) (rules : List (SRule Empty)) (strata : List (List String)) (edb : Db Empty T)
    (b : Bool) (rs : List String) : Option (List (Option (List (Tup (Val Empty) × T)))) :=
  (compileStrata testEnv testSearch rules strata).bind (fun ram => match executeFrom c R ⟨ram, pathDecl⟩ b 20 edb (fun _ => none) with
    | .done d => some (rs.map (fun r => (d r).map (fun a => a.elems.map (fun e => (e.tuple, e.tag)))))
    | _ => none)

set_option synthInstance.maxSize 1000 in
/-- `c83_boolean_partial`, with negation: the second edge is false. -/
example : (∃ ram, TagCompiled (plainRuntime Bool true) testEnv testSearch pathArity pathRules pathStrata pathDecl (lineEdb true true false) ram) ∧
    (∀ r a, lineEdb true true false r = some a → ∃ l, a = .sorted l ∧ Sorted l) ∧
    ∀ b, outcome boolProv (plainRuntime Bool true) pathRules pathStrata (lineEdb true true false) b ["path", "far"] =
      some [some [(row [1, 2], true), (row [1, 3], false), (row [2, 3], false)],
        some [(row [1, 1], true), (row [1, 2], true), (row [1, 3], true), (row [2, 1], false), (row [2, 2], true), (row [2, 3], true), (row [3, 1], true),
          (row [3, 2], true), (row [3, 3], true)]] := by
  refine ⟨pathRules_compiled _ _ _, fun r a h => ?_, by decide +kernel⟩
  obtain ⟨l, h1, h2, _⟩ := lineEdb_ok (fun _ => True) _ _ _ trivial trivial trivial r a h
  exact ⟨l, h1, h2⟩

/-- The hypotheses of `c83_top_k_partial` and `c83_probability_partial` are met, with recursion and negation, by two facts with probability one half. -/
example : ∃ ram, TagCompiled (plainRuntime Dnf [[]]) testEnv testSearch pathArity pathRules pathStrata pathDecl (lineEdb [[]] [[.pos 0]] [[.pos 1]]) ram ∧
    IsPop (DnfCtx.popMax (K := ℚ)) ∧ topKBound 2 < 43046722 ∧ (plainRuntime Dnf [[]]).TagsIn (tagOver 2) ∧
    (∀ r a, lineEdb [[]] [[.pos 0]] [[.pos 1]] r = some a → ∃ l, a = .sorted l ∧ Sorted l ∧ AllTags (tagOver 2) l) ∧
    ∀ b, QuietRun (topKProv exHalf DnfCtx.popMax 43046722) (plainRuntime Dnf [[]]) ⟨ram, pathDecl⟩ b 20 (lineEdb [[]] [[.pos 0]] [[.pos 1]]) := by
  obtain ⟨ram, h⟩ := pathRules_compiled (T := Dnf) [[]] [[.pos 0]] [[.pos 1]]
  refine ⟨ram, h, popMax_isPop, by decide +kernel, ?_, lineEdb_ok _ _ _ _ ?_ ?_ ?_, ?_⟩
  · intro n f h
    simp [plainRuntime] at h
  · simp [tagOver, Clause.Sorted]
  · simp [tagOver, Clause.Sorted, Literal.factId]
  · simp [tagOver, Clause.Sorted, Literal.factId]
  · have hq : ∀ b, (compileStrata testEnv testSearch pathRules pathStrata).all (fun ram =>
        quietRun (topKProv exHalf DnfCtx.popMax 43046722) (plainRuntime Dnf [[]]) ⟨ram, pathDecl⟩ b 20 (lineEdb [[]] [[.pos 0]] [[.pos 1]])) = true := by decide +kernel
    intro b
    have := hq b
    rw [h.compile] at this
    exact quietRun_spec this

set_option synthInstance.maxSize 1000 in
/-- Three is far from one if one of the edges is missing: with probability 3/4. -/
example : ∀ b, outcome (topKProv exHalf DnfCtx.popMax 43046722) (plainRuntime Dnf [[]]) pathRules pathStrata (lineEdb [[]] [[.pos 0]] [[.pos 1]]) b ["path", "far"] =
    some [some [(row [1, 2], [[.pos 0]]), (row [1, 3], [[.pos 0, .pos 1]]), (row [2, 3], [[.pos 1]])],
      some [(row [1, 1], [[]]), (row [1, 2], [[]]), (row [1, 3], [[]]), (row [2, 1], [[.neg 0]]), (row [2, 2], [[]]), (row [2, 3], [[]]),
        (row [3, 1], [[.neg 0], [.neg 1]]), (row [3, 2], [[.neg 1]]), (row [3, 3], [[]])]] ∧
    Dnf.wmc [[.neg 0], [.neg 1]] (Sdd.Diagram.realAlgebra ℚ) exHalf.prob = some (3/4) := by decide +kernel

/-- The rules without negation. -/
theorem pathRules_positive {T : Type} (one a b : T) :
    (∃ ram, TagCompiled (plainRuntime T one) testEnv testSearch pathArity (pathRules.take 2) pathStrata pathDecl (lineEdb one a b) ram) ∧
    ∀ q ∈ pathRules.take 2, Plan.negOf q.body = [] := by
  have hex : (compileStrata testEnv testSearch (pathRules.take 2) pathStrata).isSome := by decide +kernel
  obtain ⟨ram, hram⟩ := Option.isSome_iff_exists.mp hex
  obtain ⟨_, h⟩ := pathRules_compiled one a b
  have hm : ∀ q ∈ pathRules.take 2, q ∈ pathRules := fun q => List.mem_of_mem_take
  have ok := h.ok
  have run := h.run
  refine ⟨⟨ram, h.floats, h.orders, h.lawful, ?_, ?_, hram⟩, by decide +kernel⟩
  · exact ⟨ok.nodup, ok.names, ok.facts, fun k D hD r hr => ok.rule k D hD r (hm r hr), fun k D hD r hr => ok.pos k D hD r (hm r hr),
      fun k D hD r hr => ok.neg k D hD r (hm r hr), fun k D hD r hr => ok.red k D hD r (hm r hr)⟩
  · exact ⟨run.plain, fun r hr => ⟨(run.writable r hr).1, fun q hq => (run.writable r hr).2 q (hm q hq)⟩, fun q hq => run.temps q (hm q hq),
      fun q hq => run.vars q (hm q hq), fun q hq => run.aggs q (hm q hq), fun q hq => run.heads q (hm q hq), run.lfp⟩

set_option synthInstance.maxSize 1000 in
/-- `c83_min_max_partial` and `c83_probability_bound_partial`: the probability of a path is that of its weakest edge; with `k = 1` the path has its proof. -/
example : (∀ b, outcome (minMaxProv ℚ) (plainRuntime ℚ 1) (pathRules.take 2) pathStrata (lineEdb 1 (9/10) (1/2)) b ["path"] =
      some [some [(row [1, 2], 9/10), (row [1, 3], 1/2), (row [2, 3], 1/2)]]) ∧
    ∀ b, outcome (topKProv exHalf DnfCtx.popMax 1) (plainRuntime Dnf [[]]) (pathRules.take 2) pathStrata (lineEdb [[]] [[.pos 0]] [[.pos 1]]) b ["path"] =
      some [some [(row [1, 2], [[.pos 0]]), (row [1, 3], [[.pos 0, .pos 1]]), (row [2, 3], [[.pos 1]])]] := by decide +kernel

end Scallop.Exec
