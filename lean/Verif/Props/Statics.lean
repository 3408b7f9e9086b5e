import Verif.Proof.Statics4
import Verif.Proof.SortedIdem
import Verif.Props.Iteration
import Verif.Props.Worlds

/-!
# Property theorem C100: compiled programs

`Stratum.interp` is the interpreter's stratum with the same inputs, facts and rules, and `Stratum.lfp` of it the least family of sets that contains the facts and is closed under
the rules (`Verif/Spec/Fixpoint.lean`). `worldOf v res` are the tuples of `res` whose tags are true in a world (`Verif/Spec/Worlds.lean`).
-/

namespace Scallop.Statics

open Scallop

variable {V T W ι κ : Type*} [LinearOrder V] [LinearOrder W] [Fintype ι] [DecidableEq ι]

/-- C100, soundness: whatever a compiled program has derived when it stops follows from its facts and rules, whatever the tags. -/
theorem c100_sound (c : Prov T W) (p : Stratum V T ι κ) (hok : p.interp.Ok c) (fuel : Nat) (s : IterState V T ι) (h : p.run c fuel = .done s)
    (i : ι) : ∃ res, complete c (s.rel i) = some res ∧ Sorted res ∧ tuples res ⊆ p.interp.lfp c i := by
  obtain ⟨hi, _⟩ := init_inv c p
  obtain ⟨hm, hr, _, _⟩ := runLoop_spec c p hok fuel _ s hi h
  have hs : ∀ b ∈ (s.rel i).stable.reverse, Sorted b := fun b hb => (hm.wf i).stable b (List.mem_reverse.mp hb)
  have h3 := foldl_merge_spec c (s.rel i).stable.reverse [] List.Pairwise.nil hs
  refine ⟨_, by simp only [complete, hr i, hm.toAdd i]; rfl, h3.1, ?_⟩
  rw [h3.2, tuplesB_reverse]
  rintro x (⟨e, he, _⟩ | hx)
  · simp at he
  · exact hm.sound i (Or.inl (Or.inl (Or.inl hx)))

/-- **C100.** When a compiled program stops, each relation can be completed and holds exactly the tuples its facts and rules define, provided no tag is dropped by early discarding. The
tags are not those of the interpreter (`c100_tags_false`). -/
theorem c100_least_fixpoint_partial (c : Prov T W) (p : Stratum V T ι κ) (hok : p.interp.Ok c) (hkeep : ∀ t, c.discard t = false) (fuel : Nat)
    (s : IterState V T ι) (h : p.run c fuel = .done s) (i : ι) :
    ∃ res, complete c (s.rel i) = some res ∧ Sorted res ∧ tuples res = p.interp.lfp c i := by
  obtain ⟨hi, hc⟩ := init_inv c p
  obtain ⟨hm, hr, hn, hmc⟩ := runLoop_spec c p hok fuel _ s hi h
  have hv := mid_closed c p.interp hm (hmc hkeep hc) (fun _ => trivial) hr hn i
  have hs : ∀ b ∈ (s.rel i).stable.reverse, Sorted b := fun b hb => (hm.wf i).stable b (List.mem_reverse.mp hb)
  have h3 := foldl_merge_spec c (s.rel i).stable.reverse [] List.Pairwise.nil hs
  refine ⟨_, by simp only [complete, hr i, hm.toAdd i]; rfl, h3.1, ?_⟩
  rw [h3.2, tuplesB_reverse, ← hv]
  unfold Relation.visible
  rw [hr i]
  ext x; simp [tuples]

/-- A compiled program and the interpreter, both having stopped, give the same tuples in the same order: the interpreter may use any scheduler, except a beam of size 0, for any relation. -/
theorem c100_same_tuples (c : Prov T W) (p : Stratum V T ι κ) (hok : p.interp.Ok c) (hkeep : ∀ t, c.discard t = false) (sched : ι → Scheduler)
    (hsch : ∀ i, sched i ≠ .beam 0) (fuel fuel' : Nat) (s s' : IterState V T ι) (h : p.run c fuel = .done s)
    (h' : ({p.interp with sched := sched} : Scallop.Stratum V T ι κ).run c fuel' = .done s') (i : ι) :
    ∃ res res', complete c (s.rel i) = some res ∧ (s'.rel i).complete c = some res' ∧ res.map Elem.tuple = res'.map Elem.tuple := by
  obtain ⟨res, e1, s1, t1⟩ := c100_least_fixpoint_partial c p hok hkeep fuel s h i
  have hok' : ({p.interp with sched := sched} : Scallop.Stratum V T ι κ).Ok c := ⟨hok.sorted, hok.stratified, hok.input, hok.minus⟩
  obtain ⟨res', e2, s2, t2⟩ := c16_least_fixpoint c _ hok' (fun _ => hkeep) hsch rfl rfl fuel' s' h' i
  refine ⟨res, res', e1, e2, ?_⟩
  have ht : tuples res = tuples res' := t1.trans t2.symm
  have g1 : (res.map Elem.tuple).Pairwise (· < ·) := by rw [List.pairwise_map]; exact s1
  have g2 : (res'.map Elem.tuple).Pairwise (· < ·) := by rw [List.pairwise_map]; exact s2
  refine List.Perm.eq_of_pairwise (le := (· < ·)) (fun a b _ _ h1 h2 => absurd h1 (lt_asymm h2)) g1 g2 ?_
  rw [List.perm_ext_iff_of_nodup (g1.imp (fun h => ne_of_lt h)) (g2.imp (fun h => ne_of_lt h))]
  intro x
  have := Set.ext_iff.mp ht x
  simpa [tuples] using this

/-- Without tags the results are the same. -/
theorem c100_same_result_unit (p : Stratum V Unit ι κ) (hok : p.interp.Ok unitProv) (sched : ι → Scheduler)
    (hsch : ∀ i, sched i ≠ .beam 0) (fuel fuel' : Nat) (s s' : IterState V Unit ι) (h : p.run unitProv fuel = .done s)
    (h' : ({p.interp with sched := sched} : Scallop.Stratum V Unit ι κ).run unitProv fuel' = .done s') (i : ι) :
    ∃ res, complete unitProv (s.rel i) = some res ∧ (s'.rel i).complete unitProv = some res := by
  obtain ⟨res, res', e1, e2, e3⟩ := c100_same_tuples unitProv p hok (fun _ => rfl) sched hsch fuel fuel' s s' h h' i
  refine ⟨res, e1, ?_⟩
  rw [e2]
  have hinj : Function.Injective (Elem.tuple : Elem (Tup V) Unit → Tup V) := by
    rintro ⟨a, _⟩ ⟨b, _⟩ h; cases h; rfl
  rw [List.map_injective_iff.mpr hinj e3]

/-- Soundness of the tags: what a compiled program says to be true in a world can be derived there. -/
theorem c100_worlds_sound (c : Prov T W) {v : T → Prop} (hc : c.SoundAt v) (p : Stratum V T ι κ) (hok : p.interp.Ok c) (hp : p.interp.Plain)
    (hneg : ∀ u ∈ p.updates, c.NegSoundAt v ∨ u.2.noMinus) (fuel : Nat) (s : IterState V T ι) (h : p.run c fuel = .done s) (i : ι) :
    ∃ res, complete c (s.rel i) = some res ∧ worldOf v res ⊆ (p.interp.inWorld v).lfp unitProv i := by
  obtain ⟨hi, _⟩ := init_inv c p
  obtain ⟨hm, hr, _, _⟩ := runLoop_spec c p hok fuel _ s hi h
  have hw := runLoop_world c hc p hok hp hneg fuel _ s hi (init_world hc.add p) h
  have hs : ∀ b ∈ (s.rel i).stable.reverse, Sorted b := fun b hb => (hm.wf i).stable b (List.mem_reverse.mp hb)
  refine ⟨_, by simp only [complete, hr i, hm.toAdd i]; rfl, ?_⟩
  refine (foldl_merge_world hc.add _ [] List.Pairwise.nil hs).trans ?_
  rintro x (⟨e, he, _⟩ | hx)
  · simp at he
  · rw [worldOfB_reverse] at hx
    exact hw i (.inl (.inl hx))

omit [LinearOrder W] [Fintype ι] [DecidableEq ι] in
/-- In each turn, from the same relations, each rule of a compiled program produces the batches the interpreter's produces, with the same tuples and tags in the same order; only the order of
the batches may differ. A compiled rule that panics says nothing. -/
theorem c100_rules (c : Prov T W) (env : Env V T ι κ) (hw : env.Wf) (d : DF V ι κ) (hs : d.wellSorted) (hst : d.stratified) (B' : List (Batch V T))
    (h : recent c env d = some B') : ∃ B, d.recent c env = some B ∧ (B'.map Batch.elems).Perm (B.map Batch.elems) :=
  (corr c hw d hs).2.2 hst B' h

omit [LinearOrder V] [LinearOrder W] [Fintype ι] [DecidableEq ι] in
/-- The one difference of merging two batches: a tuple that comes first in both keeps the tag it has in the first. -/
theorem c100_merge {α : Type*} [LinearOrder α] (c : Prov T W) (l1 l2 : List (Elem α T)) (h1 : Sorted l1) (h2 : Sorted l2) (x : α) :
    tagsOf (merge c l1 l2) x =
      if l1.head?.map Elem.tuple = some x ∧ l2.head?.map Elem.tuple = some x then tagsOf l1 x else tagsOf (Scallop.merge c l1 l2) x :=
  (merge_spec c l1 l2 h1 h2).2 x

/-! ### Examples -/

/-- Transitive closure as a compiled program; one edge is also given as a fact. -/
def exPath : Stratum Nat Unit Unit Unit where
  input := fun _ => exCycle.map (fun e => ⟨kv e.1 e.2, ()⟩)
  facts := fun _ => [[⟨kv 5 1, ()⟩], [⟨kv 1 2, ()⟩]]
  updates := [((), .input ()), ((), exPathRule)]

/-- The result of a run. -/
def result {T W : Type*} (c : Prov T W) : RunResult Nat T Unit → Option (List (Elem (Tup Nat) T))
  | .done s => complete c (s.rel ())
  | _ => none

theorem exPath_ok : exPath.interp.Ok unitProv := by
  refine ⟨?_, ?_, fun j => by cases j; unfold Sorted; decide +kernel, fun _ _ _ => rfl⟩
  · intro u hu
    simp only [exPath, Stratum.interp, List.mem_cons, List.not_mem_nil, or_false] at hu
    rcases hu with rfl | rfl
    · simp [DF.wellSorted]
    · simp [exPathRule, DF.wellSorted, DF.outSortedLe]
  · intro u hu
    simp only [exPath, Stratum.interp, List.mem_cons, List.not_mem_nil, or_false] at hu
    rcases hu with rfl | rfl
    · simp [DF.stratified]
    · simp [exPathRule, DF.stratified, DF.positive]

/-- The hypotheses of the theorems above hold for it, and both runs finish with the same twelve paths. -/
example : exPath.interp.Ok unitProv ∧ result unitProv (exPath.run unitProv 8) =
      some ([kv 1 1, kv 1 2, kv 1 3, kv 2 1, kv 2 2, kv 2 3, kv 3 1, kv 3 2, kv 3 3, kv 5 1, kv 5 2, kv 5 3].map (⟨·, ()⟩)) ∧
    (exPath.interp.run unitProv 8).result unitProv = result unitProv (exPath.run unitProv 8) :=
  ⟨exPath_ok, by decide +kernel, by decide +kernel⟩

/-- Two rules for one tuple, `q() :- a(); q() :- b()`, where `a` has probability 1/4 and `b` 1/2. -/
def exTwo : Stratum Nat ℚ Unit Bool where
  input := fun j => [⟨kv 0 0, if j then 1/2 else 1/4⟩]
  facts := fun _ => []
  updates := [((), .input true), ((), .input false)]

theorem exTwo_ok : exTwo.interp.Ok (minMaxProv ℚ) := by
  refine ⟨?_, ?_, fun _ => by unfold Sorted; simp [exTwo, Stratum.interp], ?_⟩
  · intro u hu
    simp only [exTwo, Stratum.interp, List.mem_cons, List.not_mem_nil, or_false] at hu
    rcases hu with rfl | rfl <;> simp [DF.wellSorted]
  · intro u hu
    simp only [exTwo, Stratum.interp, List.mem_cons, List.not_mem_nil, or_false] at hu
    rcases hu with rfl | rfl <;> simp [DF.stratified]
  · intro a b _; rfl

/-- The hypotheses of `c100_worlds_sound` hold for it: a world is a threshold. -/
example : (minMaxProv ℚ).SoundAt (fun t => 1/3 ≤ t) ∧ exTwo.interp.Plain ∧ ∀ u ∈ exTwo.updates, u.2.noMinus := by
  refine ⟨⟨fun a b h => ?_, fun a b h => ?_⟩, ⟨?_, ?_, fun _ => rfl⟩, ?_⟩
  · exact le_max_iff.mp h
  · exact le_min_iff.mp h
  all_goals
    intro u hu
    simp only [exTwo, Stratum.interp, List.mem_cons, List.not_mem_nil, or_false] at hu
    rcases hu with rfl | rfl <;> simp [DF.keepsTags, DF.sharp, DF.noMinus]

/-- Tags of compiled programs are not those of the interpreter: of two rules for a tuple only the tag of one is kept. The rules are those of a disjunction, of probability 1/2 in the
interpreter and 1/4 in the compiled program. -/
theorem c100_tags_false : ∃ p : Stratum Nat ℚ Unit Bool, p.interp.Ok (minMaxProv ℚ) ∧
    (p.interp.run (minMaxProv ℚ) 3).result (minMaxProv ℚ) = some [⟨kv 0 0, 1/2⟩] ∧
    result (minMaxProv ℚ) (p.run (minMaxProv ℚ) 3) = some [⟨kv 0 0, 1/4⟩] :=
  ⟨exTwo, exTwo_ok, by decide +kernel, by decide +kernel⟩

/-- In the order of the rules: swapping them gives another tag. -/
theorem c100_rule_order_false : ∃ p q : Stratum Nat ℚ Unit Bool, p.interp.Ok (minMaxProv ℚ) ∧ q.input = p.input ∧ q.facts = p.facts ∧ q.updates = p.updates.reverse ∧
    result (minMaxProv ℚ) (p.run (minMaxProv ℚ) 3) ≠ result (minMaxProv ℚ) (q.run (minMaxProv ℚ) 3) :=
  ⟨exTwo, {exTwo with updates := exTwo.updates.reverse}, exTwo_ok, rfl, rfl, rfl, by decide +kernel⟩

/-- The merge that loses the tag meets any two batches of the database that begin with the same tuple, so the tags of two facts need not be added either. -/
theorem c100_facts_false : ∃ p : Stratum Nat ℚ Unit Bool, p.updates = [] ∧ (∀ i, ∀ b ∈ p.facts i, Sorted b) ∧
    (p.interp.run (addMultProv ℚ) 3).result (addMultProv ℚ) = some [⟨kv 0 0, 3/4⟩, ⟨kv 1 0, 3/4⟩] ∧
    result (addMultProv ℚ) (p.run (addMultProv ℚ) 3) = some [⟨kv 0 0, 1/4⟩, ⟨kv 1 0, 3/4⟩] :=
  ⟨⟨fun _ => [], fun _ => [[⟨kv 0 0, 1/2⟩, ⟨kv 1 0, 1/2⟩], [⟨kv 0 0, 1/4⟩, ⟨kv 1 0, 1/4⟩]], []⟩, rfl, by
    intro i b hb
    simp only [List.mem_cons, List.not_mem_nil, or_false] at hb
    rcases hb with rfl | rfl <;> (unfold Sorted; decide +kernel), by decide +kernel, by decide +kernel⟩

/-- A fact of probability 0 is dropped by the interpreter and kept by a compiled program. -/
theorem c100_discard_false : ∃ p : Stratum Nat ℚ Unit Bool, p.interp.Ok (minMaxProv ℚ) ∧
    (p.interp.run (minMaxProv ℚ) 3).result (minMaxProv ℚ) = some [] ∧ result (minMaxProv ℚ) (p.run (minMaxProv ℚ) 3) = some [⟨kv 0 0, 0⟩] :=
  ⟨⟨fun _ => [], fun _ => [[⟨kv 0 0, 0⟩]], []⟩, ⟨by simp [Stratum.interp], by simp [Stratum.interp], fun _ => List.Pairwise.nil, fun _ _ _ => rfl⟩, by decide +kernel, by decide +kernel⟩

/-- An expression that fails, such as `6 / x` for 0, skips its tuple in the interpreter and stops a compiled program. -/
theorem c100_failing_expression_false : ∃ p : Stratum Nat Unit Unit Unit, p.interp.Ok unitProv ∧
    (p.interp.run unitProv 3).result unitProv = some [⟨.tup [.val 3], ()⟩] ∧ p.run unitProv 3 = .panic := by
  let q : Stratum Nat Unit Unit Unit := ⟨fun _ => [⟨kv 0 0, ()⟩, ⟨kv 2 0, ()⟩], fun _ => [],
    [((), .project (.input ()) (fun t => match t with | .tup [.val x, _] => if x = 0 then none else some (.tup [.val (6 / x)]) | _ => none))]⟩
  refine ⟨q, ⟨?_, ?_, fun j => by cases j; unfold Sorted; decide +kernel, fun _ _ _ => rfl⟩, by decide +kernel, ?_⟩
  · simp [q, Stratum.interp, DF.wellSorted]
  · simp [q, Stratum.interp, DF.stratified]
  · have : (match q.run unitProv 3 with | .panic => true | _ => false) = true := by decide +kernel
    split at this
    · assumption
    · cases this

/-! ### Compiled programs may not stop -/

/-- The program of `c17_terminates_false`, compiled. -/
def exStuckC : Stratum Nat Unit Unit Unit where
  input := exStuck.input
  facts := fun _ => [(List.range 20).map (fun i => ⟨kv (i + 1) 0, ()⟩)]
  updates := exStuck.updates

/-- `k` turns of the loop. -/
def turns (c : Prov T W) (p : Stratum V T ι κ) : Nat → IterState V T ι → Option (IterState V T ι)
  | 0, s => some s
  | k + 1, s =>
    if (changedAll c s.rel).2 || s.num == 0 then (p.updates.foldlM (applyUpdate c p (s.num == 0)) (changedAll c s.rel).1).bind (fun r => turns c p k ⟨s.num + 1, r⟩) else none

omit [LinearOrder W] in
theorem runLoop_turns (c : Prov T W) (p : Stratum V T ι κ) (fuel : Nat) : ∀ k s s', turns c p k s = some s' → runLoop c p (k + fuel) s = runLoop c p fuel s' := by
  intro k
  induction k with
  | zero => intro s s' h; simp only [turns] at h; cases h; simp
  | succ k ih =>
    intro s s' h
    simp only [turns] at h
    split at h
    · rename_i hb
      rw [Option.bind_eq_some_iff] at h
      obtain ⟨r, h1, h2⟩ := h
      rw [show k + 1 + fuel = (k + fuel) + 1 by omega]
      conv_lhs => unfold runLoop
      simp only [hb, if_true, h1]
      exact ih _ s' h2
    · cases h

omit [LinearOrder W] in
theorem runLoop_stuck (c : Prov T W) (p : Stratum V T ι κ) (rel rel' : ι → Relation (Tup V) T) (h1 : changedAll c rel = (rel', true))
    (h2 : p.updates.foldlM (applyUpdate c p false) rel' = some rel) : ∀ fuel m, runLoop c p fuel ⟨m + 1, rel⟩ = .outOfFuel := by
  intro fuel
  induction fuel with
  | zero => intro m; rfl
  | succ fuel ih =>
    intro m
    unfold runLoop
    have : ((m + 1 == 0) : Bool) = false := by simp
    simp only [h1, this, Bool.true_or, if_true, h2]
    exact ih (m + 1)

/-- A compiled program over finitely many tuples, with unit tags, that never stops: the program of `c17_terminates_false`, which has 22 derivable tuples. -/
theorem c100_terminates_false : ∃ p : Stratum Nat Unit Unit Unit, p.interp.Ok unitProv ∧ p.interp.updates = exStuck.updates ∧ p.interp.input = exStuck.input ∧
    p.interp.edb = exStuck.edb ∧ ∀ fuel, p.run unitProv fuel = .outOfFuel := by
  refine ⟨exStuckC, ⟨?_, ?_, ?_, fun _ _ _ => rfl⟩, rfl, rfl, by funext i; simp [Stratum.interp, exStuckC, exStuck], ?_⟩
  · intro u hu
    simp only [exStuckC, Stratum.interp, exStuck, List.mem_cons, List.not_mem_nil, or_false] at hu
    subst hu; simp [DF.wellSorted, DF.outSortedLe]
  · intro u hu
    simp only [exStuckC, Stratum.interp, exStuck, List.mem_cons, List.not_mem_nil, or_false] at hu
    subst hu; simp [DF.stratified, DF.positive]
  · rintro ⟨⟩; unfold Sorted; decide +kernel
  · intro fuel
    have h3 : (turns unitProv exStuckC 3 (exStuckC.init unitProv)).map (fun s => (s.num, s.rel ())) = some (3, exStuckRel ()) := by
      decide +kernel
    obtain ⟨s, hs, hs'⟩ := Option.map_eq_some_iff.mp h3
    obtain ⟨e1, e2⟩ := Prod.mk.inj hs'
    obtain ⟨num, rel⟩ := s
    obtain rfl : num = 3 := e1
    obtain rfl : rel = exStuckRel := funext fun _ => e2
    have h1 : ((changedAll unitProv exStuckRel).1 (), (changedAll unitProv exStuckRel).2) = ({ exStuckRel () with toAdd := [] }, true) := by decide +kernel
    obtain ⟨e1, e2⟩ := Prod.mk.inj h1
    have hr2 : changedAll unitProv exStuckRel = (fun _ => { exStuckRel () with toAdd := [] }, true) := by
      rw [← e2]; exact Prod.ext (funext fun _ => e1) rfl
    have h4 : (exStuckC.updates.foldlM (applyUpdate unitProv exStuckC false) (fun _ => { exStuckRel () with toAdd := [] })).map (fun f => f ()) =
        some (exStuckRel ()) := by decide +kernel
    obtain ⟨f, hf, hf'⟩ := Option.map_eq_some_iff.mp h4
    obtain rfl : f = exStuckRel := funext fun _ => hf'
    have hstuck := runLoop_stuck unitProv exStuckC _ _ hr2 hf
    unfold Stratum.run
    rcases Nat.lt_or_ge fuel 3 with hlt | hge
    · have : ∀ n < 3, (match runLoop unitProv exStuckC n (exStuckC.init unitProv) with | .outOfFuel => true | _ => false) = true := by decide +kernel
      have := this fuel hlt
      split at this
      · assumption
      · cases this
    · obtain ⟨m, rfl⟩ := Nat.exists_eq_add_of_le hge
      rw [runLoop_turns _ _ _ _ _ _ hs]
      exact hstuck m 2

end Scallop.Statics
