import Verif.Proof.Termination
import Verif.Model.Provenance
import Verif.Props.Dataflow

/-!
# Property theorems C16-C18: evaluation of a stratum

`Stratum.lfp` is the intersection of all families of sets that contain the facts and are closed under the rules
(`Verif/Spec/Fixpoint.lean`).
-/

namespace Scallop

variable {V T W ι κ : Type*} [LinearOrder V] [LinearOrder W] [Fintype ι] [DecidableEq ι]

/-- **C16.** When a stratum runs to completion (no iteration limit, no stopping at goals), each of its relations can be completed, and
the result is sorted and holds exactly the tuples of the least family of sets that contains the facts and is closed under the rules.
Any of the schedulers may be used for any relation, except a beam of size 0; no tag may be dropped by early discarding. -/
theorem c16_least_fixpoint (c : Prov T W) (p : Stratum V T ι κ) (hok : p.Ok c) (hkeep : p.earlyDiscard = true → ∀ t, c.discard t = false)
    (hsch : ∀ i, p.sched i ≠ .beam 0) (hlim : p.iterLimit = none) (hgoal : p.stopAtGoal = false) (fuel : Nat) (s : IterState V T ι)
    (h : p.run c fuel = .done s) (i : ι) :
    ∃ res, (s.rel i).complete c = some res ∧ Sorted res ∧ tuples res = p.lfp c i := by
  obtain ⟨hi, hc⟩ := init_inv c p
  obtain ⟨hfin, hst, _⟩ := runLoop_spec c p hok fuel _ s hi h
  obtain ⟨g, _, g2, hstop, _, _, _⟩ := hst hkeep (hc hkeep)
  have hprog : ∀ i, (p.sched i).progress := by
    intro i
    cases hs : p.sched i with
    | beam n =>
      rcases Nat.eq_zero_or_pos n with rfl | hn
      · exact absurd hs (hsch i)
      · exact hn
    | _ => trivial
  cases hstop with
  | limit n hn _ => rw [hlim] at hn; cases hn
  | goal hg _ => rw [hgoal] at hg; cases hg
  | fixpoint hm hmc hr hn =>
    have hv := mid_closed c p hm (hmc g2) hprog hr hn i
    have hs : ∀ b ∈ (s.rel i).stable.reverse, Sorted b := fun b hb => (hfin.wf i).stable b (List.mem_reverse.mp hb)
    have h3 := foldl_merge_spec c (s.rel i).stable.reverse [] List.Pairwise.nil hs
    refine ⟨(s.rel i).stable.reverse.foldl (merge c) [], by simp [Relation.complete, hr i, hfin.toAdd i], h3.1, ?_⟩
    rw [h3.2, tuplesB_reverse, ← hv]; unfold Relation.visible; rw [hr i]; simp

/-- C16, soundness for every setting (iteration limit, stopping at goals, early discarding, any scheduler): whatever a completed
relation holds is in the least fixed point. -/
theorem c16_sound (c : Prov T W) (p : Stratum V T ι κ) (hok : p.Ok c) (fuel : Nat) (s : IterState V T ι)
    (h : p.run c fuel = .done s) (i : ι) (res : List (Elem (Tup V) T)) (hres : (s.rel i).complete c = some res) :
    Sorted res ∧ tuples res ⊆ p.lfp c i := by
  obtain ⟨hi, _⟩ := init_inv c p
  obtain ⟨hfin, _, _⟩ := runLoop_spec c p hok fuel _ s hi h
  unfold Relation.complete at hres
  split at hres
  · cases hres
    have hs : ∀ b ∈ (s.rel i).stable.reverse, Sorted b := fun b hb => (hfin.wf i).stable b (List.mem_reverse.mp hb)
    have h3 := foldl_merge_spec c (s.rel i).stable.reverse [] List.Pairwise.nil hs
    refine ⟨h3.1, ?_⟩
    rw [h3.2, tuplesB_reverse]
    rintro x (⟨e, he, _⟩ | hx)
    · simp at he
    · exact hfin.sound i (Or.inl (Or.inl (Or.inl hx)))
  · cases hres

/-- No run panics, if no operator meets a malformed tuple (`DF.safe`, guaranteed by typing). -/
theorem c16_no_panic (c : Prov T W) (p : Stratum V T ι κ) (hok : p.Ok c) (hsafe : ∀ u ∈ p.updates, u.2.safe c p.input (p.lfp c))
    (fuel : Nat) : p.run c fuel ≠ .panic :=
  runLoop_noPanic c p hok hsafe fuel _ (init_inv c p).1

/-- **C17**, for runs in which no relation's pending batch is more than four times as long as one of its stable batches of at least
two elements: with tags that always saturate (unit provenance) and finitely many derivable tuples the default scheduler reaches a
fixpoint, after at most as many rounds as there are derivable tuples, plus two. Missing for the full C17: runs in which the scan
gallops; it is refuted for them below. -/
theorem c17_terminates_partial (c : Prov T W) (p : Stratum V T ι κ) (hok : p.Ok c) (hsafe : ∀ u ∈ p.updates, u.2.safe c p.input (p.lfp c))
    (hsat : ∀ a b, c.saturated a b = true) (hsch : ∀ i, p.sched i = .lfp) (hlim : p.iterLimit = none)
    (hfin : ∀ i, (p.lfp c i).Finite) (hq : ∀ s, p.Reached c s → ∀ i, (s.rel i).noGallop c) :
    ∃ s, p.run c ((∑ i, (p.lfp c i).ncard) + 2) = .done s := by
  have h0 : ∀ i, ((p.init c).rel i).recent = [] ∧ ((p.init c).rel i).stable = [] := fun i =>
    ⟨((init_inv c p).1.first rfl i).2, ((init_inv c p).1.first rfl i).1⟩
  have h1 := runLoop_terminates c p hok hsat hsch hlim hfin hq ((∑ i, (p.lfp c i).ncard) + 2) (p.init c) .init (by
    intro i; rw [(h0 i).1, (h0 i).2]; simp [DisjointB]) (by simp [Stratum.init])
  have h2 := c16_no_panic c p hok hsafe ((∑ i, (p.lfp c i).ncard) + 2)
  unfold Stratum.run at h2 ⊢
  cases h : runLoop c p ((∑ i, (p.lfp c i).ncard) + 2) (p.init c) with
  | outOfFuel => exact absurd h h1
  | panic => exact absurd h h2
  | done s => exact ⟨s, rfl⟩

/-- C17 for small relations: at most eight derivable tuples each. No assumption on the run. -/
theorem c17_terminates_small_partial (c : Prov T W) (p : Stratum V T ι κ) (hok : p.Ok c)
    (hsafe : ∀ u ∈ p.updates, u.2.safe c p.input (p.lfp c)) (hsat : ∀ a b, c.saturated a b = true) (hsch : ∀ i, p.sched i = .lfp)
    (hlim : p.iterLimit = none) (hfin : ∀ i, (p.lfp c i).Finite) (h8 : ∀ i, (p.lfp c i).ncard ≤ 8) :
    ∃ s, p.run c ((∑ i, (p.lfp c i).ncard) + 2) = .done s :=
  c17_terminates_partial c p hok hsafe hsat hsch hlim hfin (fun _ hr i => reached_noGallop_small c p hok hfin h8 hr i)

/-- **C18.** With an iteration limit `n` the loop always stops, the body runs at most `n + 1` times, no relation keeps pending
tuples, everything a relation holds is derivable, and under the default scheduler every relation can be completed. -/
theorem c18_iteration_limit (c : Prov T W) (p : Stratum V T ι κ) (hok : p.Ok c) (hsafe : ∀ u ∈ p.updates, u.2.safe c p.input (p.lfp c))
    (n : Nat) (hlim : p.iterLimit = some n) :
    ∃ s, p.run c (n + 2) = .done s ∧ s.num ≤ n + 1 ∧ ∀ i, (s.rel i).toAdd = [] ∧ (s.rel i).visible ⊆ p.lfp c i ∧
      (p.sched i = .lfp → ∃ res, (s.rel i).complete c = some res ∧ Sorted res ∧ tuples res = (s.rel i).visible) := by
  have hi := (init_inv c p).1
  have h1 := runLoop_limit c p hok n hlim (n + 2) _ hi (by omega) (by simp [Stratum.init])
  have h2 := runLoop_noPanic c p hok hsafe (n + 2) _ hi
  unfold Stratum.run
  cases h : runLoop c p (n + 2) (p.init c) with
  | outOfFuel => exact absurd h h1
  | panic => exact absurd h h2
  | done s =>
    obtain ⟨hfin, _, hnum⟩ := runLoop_spec c p hok (n + 2) _ s hi h
    refine ⟨s, rfl, hnum n hlim (by simp [Stratum.init]), fun i => ⟨hfin.toAdd i, fun x hx => hfin.sound i (Or.inl (Or.inl hx)), ?_⟩⟩
    intro hl
    have hr := (hfin.lfp i hl).1
    have hs : ∀ b ∈ (s.rel i).stable.reverse, Sorted b := fun b hb => (hfin.wf i).stable b (List.mem_reverse.mp hb)
    have h3 := foldl_merge_spec c (s.rel i).stable.reverse [] List.Pairwise.nil hs
    refine ⟨(s.rel i).stable.reverse.foldl (merge c) [], by simp [Relation.complete, hr, hfin.toAdd i], h3.1, ?_⟩
    rw [h3.2, tuplesB_reverse]; unfold Relation.visible; rw [hr]; simp

/-! ### Concrete programs -/

/-- The rule `path(x, z) :- path(x, y), edge(y, z)`: join on the second component of `path`. -/
def exPathRule : DF Nat Unit Unit :=
  .project (.join (.sorted (.project (.rel ()) (fun t => match t with | .tup [x, y] => some (.tup [y, x]) | _ => none))) (.input ()))
    (fun t => match t with | .tup [_, x, z] => some (.tup [x, z]) | _ => none)

/-- Transitive closure, unit provenance: `path(x, y) :- edge(x, y)` and the rule above. -/
def exPath (edges : List (Nat × Nat)) (sch : Scheduler) : Stratum Nat Unit Unit Unit where
  input := fun _ => edges.map (fun e => ⟨kv e.1 e.2, ()⟩)
  edb := fun _ => none
  updates := [((), .input ()), ((), exPathRule)]
  sched := fun _ => sch
  goals := []
  iterLimit := none
  stopAtGoal := false
  earlyDiscard := true

/-- A graph with a cycle. -/
def exCycle : List (Nat × Nat) := [(1, 2), (2, 3), (3, 1)]

theorem exPath_ok (edges : List (Nat × Nat)) (he : Sorted (edges.map (fun e => (⟨kv e.1 e.2, ()⟩ : Elem (Tup Nat) Unit)))) (sch : Scheduler) :
    (exPath edges sch).Ok unitProv := by
  refine ⟨?_, ?_, fun _ => he, fun _ _ _ => rfl⟩
  · intro u hu
    simp only [exPath, List.mem_cons, List.not_mem_nil, or_false] at hu
    rcases hu with rfl | rfl
    · simp [DF.wellSorted]
    · simp [exPathRule, DF.wellSorted, DF.outSortedLe]
  · intro u hu
    simp only [exPath, List.mem_cons, List.not_mem_nil, or_false] at hu
    rcases hu with rfl | rfl
    · simp [DF.stratified]
    · simp [exPathRule, DF.stratified, DF.positive]

/-- The result of a run. -/
def RunResult.result {T W : Type*} (c : Prov T W) : RunResult Nat T Unit → Option (List (Elem (Tup Nat) T))
  | .done s => (s.rel ()).complete c
  | _ => none

/-- C16 applies to the transitive closure under every scheduler, and the runs finish with all nine paths. -/
example : (∀ sch, (exPath exCycle sch).Ok unitProv) ∧
    ((exPath exCycle .lfp).run unitProv 6).result unitProv = some ([kv 1 1, kv 1 2, kv 1 3, kv 2 1, kv 2 2, kv 2 3, kv 3 1, kv 3 2, kv 3 3].map (⟨·, ()⟩)) ∧
    ((exPath exCycle .dfs).run unitProv 20).result unitProv = ((exPath exCycle .lfp).run unitProv 6).result unitProv ∧
    ((exPath exCycle .aStar).run unitProv 20).result unitProv = ((exPath exCycle .lfp).run unitProv 6).result unitProv ∧
    ((exPath exCycle (.beam 2)).run unitProv 20).result unitProv = ((exPath exCycle .lfp).run unitProv 6).result unitProv := by
  refine ⟨exPath_ok _ (by unfold Sorted; decide +kernel), ?_⟩
  decide +kernel

/-- All tuples of the transitive closure are pairs, so no operator meets a malformed tuple. -/
theorem exPath_safe (edges : List (Nat × Nat)) (sch : Scheduler) :
    ∀ u ∈ (exPath edges sch).updates, u.2.safe unitProv (exPath edges sch).input ((exPath edges sch).lfp unitProv) := by
  intro u hu
  simp only [exPath, List.mem_cons, List.not_mem_nil, or_false] at hu
  rcases hu with rfl | rfl
  · trivial
  · simp only [exPathRule, DF.safe, DF.sem, true_and]
    refine ⟨?_, ?_⟩
    · rintro t ⟨u, _, hu⟩
      split at hu
      · obtain rfl := Option.some.inj hu; simp [Tup.at?]
      · cases hu
    · rintro t ⟨e, he, rfl⟩
      obtain ⟨x, _, rfl⟩ := List.mem_map.mp he
      simp [kv, Tup.at?]

/-- A family of sets closed under the rules bounds the result. -/
theorem exPath_bound (edges : List (Nat × Nat)) (sch : Scheduler) (X : Finset (Nat × Nat)) (h1 : ∀ e ∈ edges, e ∈ X)
    (h2 : ∀ a b, (a, b) ∈ X → ∀ d, (b, d) ∈ edges → (a, d) ∈ X) :
    ∀ i, ((exPath edges sch).lfp unitProv i).Finite ∧ ((exPath edges sch).lfp unitProv i).ncard ≤ X.card := by
  intro i
  have hsub : (exPath edges sch).lfp unitProv i ⊆ ((X.image (fun e => kv e.1 e.2) : Finset (Tup Nat)) : Set (Tup Nat)) := by
    intro t ht
    refine ht (fun _ => ((X.image (fun e => kv e.1 e.2) : Finset (Tup Nat)) : Set (Tup Nat))) ⟨(fun _ _ h => by simp [exPath] at h), ?_⟩
    intro u hu
    simp only [exPath, List.mem_cons, List.not_mem_nil, or_false] at hu
    rcases hu with rfl | rfl
    · rintro t ⟨e, he, rfl⟩
      obtain ⟨x, hx, rfl⟩ := List.mem_map.mp he
      simp only [Finset.coe_image, Set.mem_image]
      exact ⟨x, h1 x hx, rfl⟩
    · rintro t ⟨u, ⟨k, a, b, rfl, ⟨x, ⟨w, hw, hxw⟩, hk, ha⟩, ⟨y, ⟨e, he, rfl⟩, hk', hb⟩⟩, hu⟩
      obtain ⟨e, hedge, rfl⟩ := List.mem_map.mp he
      simp only [Finset.coe_image, Set.mem_image, DF.sem] at hw ⊢
      obtain ⟨⟨p, q⟩, hp, rfl⟩ := hw
      simp only [kv] at hxw
      obtain rfl := Option.some.inj hxw
      simp only [Tup.at?, kv, List.getElem?_cons_zero, List.getElem?_cons_succ, Option.some.injEq] at hk ha hk' hb
      subst hk ha hb
      simp only at hu
      obtain rfl := Option.some.inj hu
      refine ⟨(p, e.2), h2 p q hp e.2 ?_, rfl⟩
      have : e.1 = q := by simpa using hk'
      rw [← this]; exact hedge
  refine ⟨(Finset.finite_toSet _).subset hsub, ?_⟩
  refine (Set.ncard_le_ncard hsub (Finset.finite_toSet _)).trans ?_
  rw [Set.ncard_coe_finset]
  exact Finset.card_image_le

/-- C17 applies to the transitive closure of the graph 1 → 2 → 1 (four paths). -/
example : ∃ s, (exPath [(1, 2), (2, 1)] .lfp).run unitProv
    ((∑ i, ((exPath [(1, 2), (2, 1)] .lfp).lfp unitProv i).ncard) + 2) = .done s := by
  have hb := exPath_bound [(1, 2), (2, 1)] .lfp {(1, 1), (1, 2), (2, 1), (2, 2)} (by decide) (by
    intro a b h d hd
    simp only [List.mem_cons, Prod.mk.injEq, List.not_mem_nil, or_false] at hd
    simp only [Finset.mem_insert, Finset.mem_singleton, Prod.mk.injEq] at h ⊢
    omega)
  exact c17_terminates_small_partial unitProv _ (exPath_ok _ (by unfold Sorted; decide +kernel) _) (exPath_safe _ _) (fun _ _ => rfl)
    (fun _ => rfl) rfl (fun i => (hb i).1) (fun i => (hb i).2.trans (by decide))

/-- C18 with limit 1 on the cycle: the body runs twice, and only some of the nine paths are found. -/
example : ({exPath exCycle .lfp with iterLimit := some 1}.run unitProv 3).result unitProv =
    some ([kv 1 2, kv 1 3, kv 2 1, kv 2 3, kv 3 1, kv 3 2].map (⟨·, ()⟩)) := by
  decide +kernel

/-- With the depth-first scheduler and an iteration limit the run ends with tuples still unprocessed, and completing the relation
panics (`relation.rs` `complete` asserts that `recent` is empty). -/
theorem c18_dfs_limit_panics : ∃ s, {exPath exCycle .dfs with iterLimit := some 1}.run unitProv 3 = .done s ∧ (s.rel ()).complete unitProv = none := by
  have h : (match {exPath exCycle .dfs with iterLimit := some 1}.run unitProv 3 with
    | .done s => ((s.rel ()).complete unitProv).isNone | _ => false) = true := by decide +kernel
  split at h
  · rename_i s hs; exact ⟨s, hs, by simpa using h⟩
  · cases h

/-! ### C17 fails when the scan gallops -/

/-- A state that the loop body and the following step of the relations reproduce is never left. -/
theorem runLoop_stuck (c : Prov T W) (p : Stratum V T ι κ) (hlim : p.iterLimit = none) (hgoal : p.stopAtGoal = false)
    (rel rel' : ι → Relation (Tup V) T) (h1 : changedAll c p.sched rel = some (rel', true))
    (h2 : p.updates.foldlM (applyUpdate c p false) rel' = some rel) :
    ∀ fuel m, runLoop c p fuel ⟨m + 1, rel⟩ = .outOfFuel := by
  intro fuel
  induction fuel with
  | zero => intro m; rfl
  | succ fuel ih =>
    intro m
    have hn : needToIterate c p ⟨m + 1, rel⟩ = some (⟨m + 1, rel'⟩, true) := by
      unfold needToIterate; rw [h1]; simp [hlim, hgoal]
    unfold runLoop
    simp only [hn, iterBody]
    have : ((m + 1 == 0) : Bool) = false := by simp
    rw [this, h2]
    exact ih (m + 1)

/-- Reachability: `reach(y) :- reach(x), edge(x, y)`, with `reach` given for 1 to 20, and the edges 1 → 50, 1 → 60, 60 → 60 and
60 → 1, ..., 60 → 10. Unary tuples carry a 0 so that they can be joined. -/
def exStuck : Stratum Nat Unit Unit Unit where
  input := fun _ => [⟨kv 1 50, ()⟩, ⟨kv 1 60, ()⟩, ⟨kv 60 1, ()⟩, ⟨kv 60 2, ()⟩, ⟨kv 60 3, ()⟩, ⟨kv 60 4, ()⟩, ⟨kv 60 5, ()⟩,
    ⟨kv 60 6, ()⟩, ⟨kv 60 7, ()⟩, ⟨kv 60 8, ()⟩, ⟨kv 60 9, ()⟩, ⟨kv 60 10, ()⟩, ⟨kv 60 60, ()⟩]
  edb := fun _ => some ((List.range 20).map (fun i => ⟨kv (i + 1) 0, ()⟩))
  updates := [((), .project (.join (.rel ()) (.input ())) (fun t => match t with | .tup [_, _, y] => some (.tup [y, .val 0]) | _ => none))]
  sched := fun _ => .lfp
  goals := []
  iterLimit := none
  stopAtGoal := false
  earlyDiscard := true

/-- The relation in `exStuck` after two turns, and before every later turn. -/
def exStuckRel : Unit → Relation (Tup Nat) Unit := fun _ =>
  { stable := [(List.range 20).map (fun i => ⟨kv (i + 1) 0, ()⟩), [⟨kv 50 0, ()⟩, ⟨kv 60 0, ()⟩]]
    recent := [⟨kv 60 0, ()⟩]
    toAdd := [[⟨kv 1 0, ()⟩, ⟨kv 2 0, ()⟩, ⟨kv 3 0, ()⟩, ⟨kv 4 0, ()⟩, ⟨kv 5 0, ()⟩, ⟨kv 6 0, ()⟩, ⟨kv 7 0, ()⟩, ⟨kv 8 0, ()⟩,
      ⟨kv 9 0, ()⟩, ⟨kv 10 0, ()⟩, ⟨kv 60 0, ()⟩]]
    waitlist := [] }

instance : DecidableEq (Relation (Tup Nat) Unit) := fun a b =>
  decidable_of_iff (a.stable = b.stable ∧ a.recent = b.recent ∧ a.toAdd = b.toAdd ∧ a.waitlist = b.waitlist)
    ⟨fun ⟨h1, h2, h3, h4⟩ => by cases a; cases b; simp_all, fun h => by subst h; simp⟩

/-- `k` turns of the loop. -/
def loopTurns (c : Prov T W) (p : Stratum V T ι κ) : Nat → IterState V T ι → Option (IterState V T ι)
  | 0, s => some s
  | k + 1, s =>
    match needToIterate c p s with
    | some (s', true) => (iterBody c p s').bind (loopTurns c p k)
    | _ => none

theorem runLoop_loopTurns (c : Prov T W) (p : Stratum V T ι κ) (fuel : Nat) : ∀ k s s', loopTurns c p k s = some s' →
    runLoop c p (k + fuel) s = runLoop c p fuel s' := by
  intro k
  induction k with
  | zero => intro s s' h; simp only [loopTurns] at h; cases h; simp
  | succ k ih =>
    intro s s' h
    simp only [loopTurns] at h
    split at h
    · rename_i s1 h1
      rw [show k + 1 + fuel = (k + fuel) + 1 by omega]
      conv_lhs => unfold runLoop
      simp only [h1]
      cases h2 : iterBody c p s1 with
      | none => rw [h2] at h; cases h
      | some s2 => rw [h2] at h; exact ih s2 s' h
    · cases h

/-- C17 is false in general: this program has 22 derivable tuples and unit tags, but its evaluation never ends. From the second turn
on the pending batch is more than four times as long as the stable batch `{50, 60}`, the galloping scan skips 60, and 60 is
rediscovered in every turn. -/
theorem c17_terminates_false : ∃ p : Stratum Nat Unit Unit Unit, p.Ok unitProv ∧
    (∀ u ∈ p.updates, u.2.safe unitProv p.input (p.lfp unitProv)) ∧ (∀ i, p.sched i = .lfp) ∧ p.iterLimit = none ∧
    (∀ i, (p.lfp unitProv i).Finite ∧ (p.lfp unitProv i).ncard ≤ 22) ∧ ∀ fuel, p.run unitProv fuel = .outOfFuel := by
  have hbound : ∀ i, exStuck.lfp unitProv i ⊆ (((List.range 20).map (fun i => kv (i + 1) 0) ++ [kv 50 0, kv 60 0]).toFinset : Set (Tup Nat)) := by
    intro i t ht
    refine ht (fun _ => _) ⟨?_, ?_⟩
    · intro i facts hf
      obtain rfl := Option.some.inj hf
      rintro t ⟨e, he, rfl⟩
      obtain ⟨j, hj, rfl⟩ := List.mem_map.mp he
      simp only [List.coe_toFinset, List.mem_append, Set.mem_ofPred_eq]
      exact Or.inl (List.mem_map.mpr ⟨j, hj, rfl⟩)
    · intro u hu
      simp only [exStuck, List.mem_cons, List.not_mem_nil, or_false] at hu
      subst hu
      rintro t ⟨u, ⟨k, a, b, rfl, _, ⟨y, ⟨e, he, rfl⟩, _, hb⟩⟩, hu⟩
      simp only at hu
      obtain rfl := Option.some.inj hu
      simp only [exStuck, List.mem_cons, List.not_mem_nil, or_false] at he
      have hb' : some b ∈ ([1, 2, 3, 4, 5, 6, 7, 8, 9, 10, 50, 60].map (fun n => some (Tup.val n))) := by
        rw [← hb]
        rcases he with rfl | rfl | rfl | rfl | rfl | rfl | rfl | rfl | rfl | rfl | rfl | rfl | rfl <;> decide +kernel
      obtain ⟨n, hn, hb'⟩ := List.mem_map.mp hb'
      obtain rfl := Option.some.inj hb'
      have : ∀ n ∈ ([1, 2, 3, 4, 5, 6, 7, 8, 9, 10, 50, 60] : List Nat),
          kv n 0 ∈ ((List.range 20).map (fun i => kv (i + 1) 0) ++ [kv 50 0, kv 60 0]) := by decide +kernel
      simp only [List.coe_toFinset, Set.mem_ofPred_eq]
      exact this n hn
  refine ⟨exStuck, ⟨?_, ?_, ?_, fun _ _ _ => rfl⟩, ?_, fun _ => rfl, rfl, ?_, ?_⟩
  · intro u hu
    simp only [exStuck, List.mem_cons, List.not_mem_nil, or_false] at hu
    subst hu; simp [DF.wellSorted, DF.outSortedLe]
  · intro u hu
    simp only [exStuck, List.mem_cons, List.not_mem_nil, or_false] at hu
    subst hu; simp [DF.stratified, DF.positive]
  · rintro ⟨⟩; unfold Sorted; decide +kernel
  · intro u hu
    simp only [exStuck, List.mem_cons, List.not_mem_nil, or_false] at hu
    subst hu
    refine ⟨trivial, trivial, fun t ht => ?_, ?_⟩
    · have := hbound () ht
      simp only [List.coe_toFinset, Set.mem_ofPred_eq] at this
      have h : ∀ t ∈ ((List.range 20).map (fun i => kv (i + 1) 0) ++ [kv 50 0, kv 60 0]), (t.at? 0).isSome ∧ (t.at? 1).isSome := by decide +kernel
      exact h t this
    · rintro t ⟨e, he, rfl⟩
      have h : ∀ e ∈ exStuck.input (), (e.tuple.at? 0).isSome ∧ (e.tuple.at? 1).isSome := by decide +kernel
      exact h e he
  · intro i
    refine ⟨(Finset.finite_toSet _).subset (hbound i), (Set.ncard_le_ncard (hbound i) (Finset.finite_toSet _)).trans ?_⟩
    rw [Set.ncard_coe_finset]
    exact (List.toFinset_card_le _).trans (by simp)
  · intro fuel
    have h3 : (loopTurns unitProv exStuck 3 (exStuck.init unitProv)).map (fun s => (s.num, s.rel ())) = some (3, exStuckRel ()) := by
      decide +kernel
    obtain ⟨s, hs, hs'⟩ := Option.map_eq_some_iff.mp h3
    obtain ⟨e1, e2⟩ := Prod.mk.inj hs'
    obtain ⟨num, rel⟩ := s
    obtain rfl : num = 3 := e1
    obtain rfl : rel = exStuckRel := funext fun _ => e2
    have h1 : (changedAll unitProv exStuck.sched exStuckRel).map (fun r => (r.1 (), r.2)) =
        some ({ exStuckRel () with toAdd := [] }, true) := by decide +kernel
    obtain ⟨r, hr, hr'⟩ := Option.map_eq_some_iff.mp h1
    obtain ⟨e1, e2⟩ := Prod.mk.inj hr'
    have hr2 : changedAll unitProv exStuck.sched exStuckRel = some (fun _ => { exStuckRel () with toAdd := [] }, true) := by
      rw [hr]; obtain ⟨r1, r2⟩ := r
      simp only at e1 e2
      rw [e2]; congr 2; exact funext fun _ => e1
    have h4 : (exStuck.updates.foldlM (applyUpdate unitProv exStuck false) (fun _ => { exStuckRel () with toAdd := [] })).map (fun f => f ()) =
        some (exStuckRel ()) := by decide +kernel
    obtain ⟨f, hf, hf'⟩ := Option.map_eq_some_iff.mp h4
    obtain rfl : f = exStuckRel := funext fun _ => hf'
    have hstuck := runLoop_stuck unitProv exStuck rfl rfl _ _ hr2 hf
    unfold Stratum.run
    rcases Nat.lt_or_ge fuel 3 with hlt | hge
    · have : ∀ n < 3, (match runLoop unitProv exStuck n (exStuck.init unitProv) with | .outOfFuel => true | _ => false) = true := by decide +kernel
      have := this fuel hlt
      split at this
      · assumption
      · cases this
    · obtain ⟨m, rfl⟩ := Nat.exists_eq_add_of_le hge
      rw [runLoop_loopTurns _ _ _ _ _ _ hs]
      exact hstuck m 2

end Scallop
