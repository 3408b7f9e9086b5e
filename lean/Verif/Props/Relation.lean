import Verif.Proof.Relation2

/-!
# Property theorems C06-C09, C45, C51: relations and schedulers
-/

namespace Scallop
variable {α T W : Type*} [LinearOrder α] [LinearOrder W]

/-- Every reachable relation state has sorted batches, so it meets the hypothesis `Wf` of the theorems below. -/
theorem reachable_wf {c : Prov T W} {s : Scheduler} {r : Relation α T} (h : Relation.Reach c s r) : r.Wf := reach_wf h

/-- **C06.** One iteration step under the default scheduler does not panic; afterwards exactly the tuples that were visible or
pending are visible, nothing is pending, the step reports a change exactly when there are recent tuples, all tuples that were
pending but not visible are recent (so the next iteration uses them), and only pending tuples are recent. -/
theorem c06_changed_lfp (c : Prov T W) (r : Relation α T) (h : r.Wf) :
    ∃ r' b, r.changed c .lfp = some (r', b) ∧ r'.Wf ∧ r'.visible = r.visible ∪ r.pending ∧ r'.pending = ∅ ∧
      (b = true ↔ (tuples r'.recent).Nonempty) ∧ r.pending \ r.visible ⊆ tuples r'.recent ∧ tuples r'.recent ⊆ r.pending := by
  obtain ⟨r', e, h1, h2, _, h4, h5, h6⟩ := changed_lfp_spec c r h
  refine ⟨r', _, e, h1, h4, ?_, ?_, ?_, h5⟩
  · unfold Relation.pending; rw [h2]; simp
  · cases hr : r'.recent with
    | nil => simp
    | cons a l => simp only [List.isEmpty_cons, Bool.not_false, true_iff]; exact ⟨a.tuple, a, by simp, rfl⟩
  · rintro x ⟨hx1, hx2⟩
    have : x ∈ r'.visible := by rw [h4]; exact Or.inr hx1
    rcases this with h | h
    · exact absurd (h6 h) hx2
    · exact h

example : (⟨[[⟨1, 1⟩, ⟨4, 1⟩]], [⟨2, 1⟩], [[⟨4, 1⟩, ⟨5, 1⟩], [⟨7, 1⟩]], []⟩ : Relation Nat Nat).Wf :=
  ⟨by simp [Sorted], by simp [Sorted], by simp [Sorted]⟩

/-- C06 for every scheduler: no tuple is lost or invented, counting the wait list. -/
theorem c06_changed_any (c : Prov T W) (s : Scheduler) (r : Relation α T) (h : r.Wf) :
    ∃ r' b, r.changed c s = some (r', b) ∧ r'.Wf ∧ r'.pending = ∅ ∧
      r'.visible ∪ tuples r'.waitlist = r.visible ∪ r.pending ∪ tuples r.waitlist ∧
      (b = true ↔ (tuples r'.recent).Nonempty) := by
  obtain ⟨r', e, h1, h2, h3, _⟩ := changed_spec c s r h
  refine ⟨r', _, e, h1, ?_, h3, ?_⟩
  · unfold Relation.pending; rw [h2]; simp
  · cases hr : r'.recent with
    | nil => simp
    | cons a l => simp only [List.isEmpty_cons, Bool.not_false, true_iff]; exact ⟨a.tuple, a, by simp, rfl⟩

/-- **C07.** Completing a relation with no recent and no pending batch gives a sorted collection in which each tuple carries the
sum (newest batch first) of its tags in the stable batches; otherwise the assertion fails. -/
theorem c07_complete (c : Prov T W) (hcomm : ∀ a b, c.add a b = c.add b a) (r : Relation α T) (h : r.Wf) :
    (r.recent = [] → r.toAdd = [] → ∃ res, r.complete c = some res ∧ Sorted res ∧ tuples res = r.visible ∧
      ∀ x, tagsOf res x = (sumTags c (tagsOfB r.stable.reverse x)).toList) ∧
    (r.recent ≠ [] ∨ r.toAdd ≠ [] → r.complete c = none) := by
  constructor
  · intro h1 h2
    have hs : ∀ b ∈ r.stable.reverse, Sorted b := fun b hb => h.stable b (List.mem_reverse.mp hb)
    have h3 := foldl_merge_spec c r.stable.reverse [] List.Pairwise.nil hs
    refine ⟨r.stable.reverse.foldl (merge c) [], by simp [Relation.complete, h1, h2], h3.1, ?_, ?_⟩
    · rw [h3.2, tuplesB_reverse]; unfold Relation.visible; rw [h1]; simp
    · intro x
      rw [foldl_merge_tags c hcomm x _ _ List.Pairwise.nil hs]; rfl
  · intro h
    unfold Relation.complete
    rw [if_neg]
    rcases h with h | h <;> simp [h]

example : (⟨[[⟨1, 1⟩, ⟨4, 1⟩], [⟨4, 5⟩]], [], [], []⟩ : Relation Nat Nat).complete natProv = some [⟨1, 1⟩, ⟨4, 6⟩] := by decide

/-- **C08.** One step of the depth-first scheduler: no panic, every tuple known before is known after, at most one tuple is
scheduled, and none is scheduled only when the wait list is exhausted. -/
theorem c08_dfs (c : Prov T W) (r : Relation α T) (h : r.Wf) :
    ∃ r' b, r.changed c .dfs = some (r', b) ∧ r'.Wf ∧ r'.recent.length ≤ 1 ∧ (r'.recent = [] → r'.waitlist = []) ∧
      r'.visible ∪ tuples r'.waitlist = r.visible ∪ r.pending ∪ tuples r.waitlist := by
  obtain ⟨r', e, h1, h2, h3, h4⟩ := changed_spec c .dfs r h
  obtain ⟨q, e', g1, _, _, _, g5⟩ := scheduleDfs_spec c (condense c r.toAdd.reverse) r.waitlist (stableAfter c r)
    (stableAfter_spec c r h).1 (condense_spec c _ (fun b hb => h.toAdd b (List.mem_reverse.mp hb))).1
  simp only [Scheduler.schedule] at h4
  rw [e'] at h4
  cases h4
  exact ⟨r', _, e, h1, g1, g5, h3⟩

/-- **C09**, A* scheduler. -/
theorem c09_astar (c : Prov T W) (r : Relation α T) (h : r.Wf) :
    ∃ r' b, r.changed c .aStar = some (r', b) ∧ r'.Wf ∧ r'.recent.length ≤ 1 ∧ (r'.recent = [] → r'.waitlist = []) ∧
      r'.visible ∪ tuples r'.waitlist = r.visible ∪ r.pending ∪ tuples r.waitlist := by
  obtain ⟨r', e, h1, h2, h3, h4⟩ := changed_spec c .aStar r h
  obtain ⟨q, e', g1, _, _, _, g5⟩ := scheduleAStar_spec c (condense c r.toAdd.reverse) r.waitlist (stableAfter c r)
    (stableAfter_spec c r h).1 (condense_spec c _ (fun b hb => h.toAdd b (List.mem_reverse.mp hb))).1
  simp only [Scheduler.schedule] at h4
  rw [e'] at h4
  cases h4
  exact ⟨r', _, e, h1, g1, g5, h3⟩

/-- **C09**, beam scheduler: at most `beam` tuples are scheduled. -/
theorem c09_beam (c : Prov T W) (beam : Nat) (r : Relation α T) (h : r.Wf) :
    ∃ r' b, r.changed c (.beam beam) = some (r', b) ∧ r'.Wf ∧ r'.recent.length ≤ beam ∧
      r'.visible ∪ tuples r'.waitlist = r.visible ∪ r.pending ∪ tuples r.waitlist := by
  obtain ⟨r', e, h1, h2, h3, h4⟩ := changed_spec c (.beam beam) r h
  obtain ⟨q, e', g1, _⟩ := scheduleBeam_spec c beam (condense c r.toAdd.reverse) r.waitlist (stableAfter c r)
    (stableAfter_spec c r h).1 (condense_spec c _ (fun b hb => h.toAdd b (List.mem_reverse.mp hb))).1
  simp only [Scheduler.schedule] at h4
  rw [e'] at h4
  cases h4
  exact ⟨r', _, e, h1, g1, h3⟩

/-- With beam size 0 the beam scheduler makes no progress: the pending tuple stays on the wait list although the step reports
no change, so the run stops without ever using it. -/
theorem c09_beam_zero_stuck : ∃ r : Relation Nat Nat, Relation.Reach natProv (.beam 0) r ∧
    ∃ r', r.changed natProv (.beam 0) = some (r', false) ∧ r'.waitlist ≠ [] ∧ r'.visible = ∅ := by
  refine ⟨Relation.new.insertTagged natProv [⟨3, 1⟩], .insertTagged _ .new, ⟨[], [], [], [⟨3, 1⟩]⟩, ?_, by simp, ?_⟩
  · decide +kernel
  · simp [Relation.visible]

/-- **C45** for provenances whose tags always saturate (for example the unit provenance): the sizes of the stable batches stay
geometric under the default scheduler. Missing for the full C45: other provenances, for which it is refuted below. -/
theorem c45_geometric_partial (c : Prov T W) (hsat : ∀ a b, c.saturated a b = true) (r : Relation α T)
    (hr : Relation.Reach c .lfp r) : Geometric r.stable := by
  induction hr with
  | new => simp [Geometric, Relation.new]
  | insertTagged _ _ ih => exact ih
  | insertBatches _ _ _ ih => exact ih
  | @changed r r' b hr he ih =>
    have hw := reach_wf hr
    obtain ⟨r'', e, _, _, _, h4⟩ := changed_spec c .lfp r hw
    rw [he] at e; cases e
    simp only [Scheduler.schedule, Option.some.injEq, Sched.mk.injEq] at h4
    rw [← h4.2.2]
    refine geometric_of_map (scheduleLfp_saturated c hsat _ _).symm ?_
    unfold stableAfter
    split
    · exact ih
    · rename_i hne
      rw [geometric_iff, List.reverse_reverse]
      refine mergeIntoStable_geometric c _ _ hw.recent (fun b hb => hw.stable b (List.mem_reverse.mp hb)) ?_ ((geometric_iff _).mp ih)
      exact List.length_pos_iff.mpr (fun h => hne (by rw [h]; rfl))

omit [LinearOrder α] [LinearOrder W] in
/-- Geometric batches are logarithmically many: `2 ^ batches ≤ elements + 1`. -/
theorem c45_log_batches (bs : List (List (Elem α T))) (h : Geometric bs) :
    2 ^ bs.length ≤ (bs.map List.length).sum + 1 := by
  have h' := (geometric_iff bs).mp h
  have := geometricRev_size bs.reverse 1 h' (by
    intro b hb
    have := ((geometricRev_iff _).mp h').1 b (List.mem_of_mem_head? hb)
    exact List.length_pos_iff.mpr this)
  simpa using this

/-- **C45 fails for other provenances**: with the min-max provenance a known fact derived again with a higher tag leaves its
stable batch, so an old batch can become smaller than a newer one. -/
theorem c45_geometric_false : ∃ r : Relation Nat Nat, Relation.Reach maxMinProv .lfp r ∧ ¬ Geometric r.stable := by
  have e1 : (Relation.new.insertTagged maxMinProv [⟨1, 1⟩, ⟨2, 1⟩, ⟨3, 1⟩, ⟨4, 1⟩, ⟨5, 1⟩] : Relation Nat Nat).changed maxMinProv .lfp
      = some (⟨[], [⟨1, 1⟩, ⟨2, 1⟩, ⟨3, 1⟩, ⟨4, 1⟩, ⟨5, 1⟩], [], []⟩, true) := by decide +kernel
  have e2 : ((⟨[], [⟨1, 1⟩, ⟨2, 1⟩, ⟨3, 1⟩, ⟨4, 1⟩, ⟨5, 1⟩], [], []⟩ : Relation Nat Nat).insertTagged maxMinProv
      [⟨10, 1⟩, ⟨11, 1⟩]).changed maxMinProv .lfp =
      some (⟨[[⟨1, 1⟩, ⟨2, 1⟩, ⟨3, 1⟩, ⟨4, 1⟩, ⟨5, 1⟩]], [⟨10, 1⟩, ⟨11, 1⟩], [], []⟩, true) := by decide +kernel
  have e3 : ((⟨[[⟨1, 1⟩, ⟨2, 1⟩, ⟨3, 1⟩, ⟨4, 1⟩, ⟨5, 1⟩]], [⟨10, 1⟩, ⟨11, 1⟩], [], []⟩ : Relation Nat Nat).insertTagged
      maxMinProv [⟨1, 2⟩, ⟨2, 2⟩, ⟨3, 2⟩]).changed maxMinProv .lfp =
      some (⟨[[⟨4, 1⟩, ⟨5, 1⟩], [⟨10, 1⟩, ⟨11, 1⟩]], [⟨1, 2⟩, ⟨2, 2⟩, ⟨3, 2⟩], [], []⟩, true) := by decide +kernel
  refine ⟨_, .changed (.insertTagged _ (.changed (.insertTagged _ (.changed (.insertTagged _ .new) e1)) e2)) e3, ?_⟩
  intro h
  have := h.2
  simp at this

/-- **C51** for the size relations in which the scan does not gallop from a position other than 0. After a step under the default
scheduler, each tuple is stored exactly once, in stable or recent, and its tag is the sum of its previous tag and its pending
tag. Missing for the full C51: the galloping case, refuted below. -/
theorem c51_unique_tags_partial (c : Prov T W) (toAdd : List (Elem α T)) (stable : List (List (Elem α T)))
    (h1 : Sorted toAdd) (h2 : ∀ b ∈ stable, Sorted b) (hdis : DisjointB stable)
    (hsafe : ∀ b ∈ stable, toAdd.length ≤ 4 * b.length ∨ b.length ≤ 1) :
    ∃ r, Scheduler.lfp.schedule c toAdd [] stable = some r ∧
      ∀ x, tagsOfB r.stable x ++ tagsOf r.toAdd x = (sumTags c (tagsOfB stable x ++ tagsOf toAdd x)).toList :=
  ⟨_, rfl, scheduleLfp_tags c toAdd stable h1 h2 hsafe hdis⟩

example : Sorted [(⟨1, 5⟩ : Elem Nat Nat), ⟨4, 6⟩] ∧ DisjointB [[(⟨1, 2⟩ : Elem Nat Nat), ⟨2, 2⟩], [⟨4, 3⟩]] ∧
    Scheduler.lfp.schedule natProv [⟨1, 5⟩, ⟨4, 6⟩] [] [[⟨1, 2⟩, ⟨2, 2⟩], [⟨4, 3⟩]] =
      some ⟨[⟨1, 7⟩, ⟨4, 9⟩], [], [[⟨2, 2⟩], []]⟩ := by
  refine ⟨by simp [Sorted], ?_, by decide +kernel⟩
  simp [DisjointB, tuples]

/-- **C51 fails in general**: when the pending batch is more than four times longer than a stable batch, the galloping search
skips a known fact, which is then both stable and recent. -/
theorem c51_unique_tags_false : ∃ (toAdd : List (Elem Nat Nat)) (stable : List (List (Elem Nat Nat))),
    Sorted toAdd ∧ (∀ b ∈ stable, Sorted b) ∧ DisjointB stable ∧
    ∃ r, Scheduler.lfp.schedule natProv toAdd [] stable = some r ∧ 10 ∈ tuples r.toAdd ∧ 10 ∈ tuplesB r.stable := by
  refine ⟨[⟨1, 1⟩, ⟨10, 1⟩, ⟨11, 1⟩, ⟨12, 1⟩, ⟨13, 1⟩, ⟨14, 1⟩, ⟨15, 1⟩, ⟨16, 1⟩, ⟨17, 1⟩], [[⟨5, 1⟩, ⟨10, 1⟩]],
    by simp [Sorted], by simp [Sorted], by simp [DisjointB],
    ⟨[⟨1, 1⟩, ⟨10, 1⟩, ⟨11, 1⟩, ⟨12, 1⟩, ⟨13, 1⟩, ⟨14, 1⟩, ⟨15, 1⟩, ⟨16, 1⟩, ⟨17, 1⟩], [], [[⟨5, 1⟩, ⟨10, 1⟩]]⟩, by decide +kernel, ?_, ?_⟩
  · simp [tuples]
  · simp [tuples, tuplesB]

end Scallop
