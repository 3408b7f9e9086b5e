import Verif.Proof.Relation

namespace Scallop

variable {α T W : Type*} [LinearOrder α]

/-! More facts about the schedulers: stable batches only lose tuples, and when nothing is scheduled nothing is waiting. -/

theorem scheduleLfp_stable_sub (c : Prov T W) (toAdd : List (Elem α T)) (stable : List (List (Elem α T))) :
    tuplesB (scheduleLfp c toAdd stable).2 ⊆ tuplesB stable := by
  unfold scheduleLfp
  split
  · exact (scanStable_spec c stable ⟨toAdd, []⟩).2.2.1
  · exact fun _ h => h

theorem scheduleLfp_nil (c : Prov T W) (toAdd : List (Elem α T)) : (scheduleLfp c toAdd []).2 = [] := by
  unfold scheduleLfp
  split <;> simp [scanStable]

theorem lookupStable_sub (c : Prov T W) (w : Elem α T) : ∀ (bs : List (List (Elem α T))),
    match lookupStable c w bs with
    | .notFound => True
    | .saturated bs' => tuplesB bs' ⊆ tuplesB bs
    | .unsaturated _ bs' => tuplesB bs' ⊆ tuplesB bs := by
  intro bs
  induction bs with
  | nil => simp [lookupStable]
  | cons b bs ih =>
    have hnext : match (match lookupStable c w bs with
        | .notFound => (.notFound : Lookup α T)
        | .saturated bs' => .saturated (b :: bs')
        | .unsaturated w' bs' => .unsaturated w' (b :: bs')) with
      | .notFound => True
      | .saturated bs' => tuplesB bs' ⊆ tuplesB (b :: bs)
      | .unsaturated _ bs' => tuplesB bs' ⊆ tuplesB (b :: bs) := by
      revert ih
      cases lookupStable c w bs with
      | notFound => simp
      | saturated bs' => simp only; intro h; rw [tuplesB_cons, tuplesB_cons]; exact Set.union_subset_union_right _ h
      | unsaturated w' bs' => simp only; intro h; rw [tuplesB_cons, tuplesB_cons]; exact Set.union_subset_union_right _ h
    unfold lookupStable
    simp only
    generalize gallopIndex b 0 (fun y => decide (y.tuple < w.tuple)) = i
    cases hi : b[i]? with
    | none => exact hnext
    | some s =>
      simp only
      by_cases hne : s.tuple ≠ w.tuple
      · rw [if_pos hne]; exact hnext
      · rw [if_neg hne]
        have hsu := satUpdate_tuple c w s
        rcases hr : satUpdate c w s with ⟨bo, w', s'⟩
        rw [hr] at hsu
        simp only at hsu
        cases bo with
        | true =>
          simp only
          rw [tuplesB_cons, tuplesB_cons, tuples_eq_of_map (map_set_tuple hi hsu.2)]
        | false =>
          simp only
          rw [tuplesB_cons, tuplesB_cons]
          refine Set.union_subset_union_left _ ?_
          rintro x ⟨e, he, rfl⟩
          exact ⟨e, (retainIdx_sublist _ _).subset he, rfl⟩

theorem popWaitlist_sub (c : Prov T W) : ∀ (ws : List (Elem α T)) (stable : List (List (Elem α T))) a ws' stable',
    popWaitlist c ws stable = some (a, ws', stable') → tuplesB stable' ⊆ tuplesB stable ∧ (stable = [] → stable' = []) := by
  intro ws
  induction ws with
  | nil => intro stable a ws' st' h; simp [popWaitlist] at h; rw [← h.2.2]; exact ⟨fun _ h => h, fun h => h⟩
  | cons w ws ih =>
    intro stable a ws' st' h
    have hl := lookupStable_sub c w stable
    unfold popWaitlist at h
    cases hk : lookupStable c w stable with
    | notFound =>
      rw [hk] at h
      simp [insertUnchecked?_nil] at h
      rw [← h.2.2]; exact ⟨fun _ h => h, fun h => h⟩
    | saturated s' =>
      rw [hk] at h hl
      obtain ⟨h1, h2⟩ := ih s' a ws' st' h
      refine ⟨fun x hx => hl (h1 hx), ?_⟩
      rintro rfl
      simp [lookupStable] at hk
    | unsaturated w' s' =>
      rw [hk] at h hl
      simp [insertUnchecked?_nil] at h
      rw [← h.2.2]
      refine ⟨hl, ?_⟩
      rintro rfl
      simp [lookupStable] at hk

theorem schedule_stable_sub [LinearOrder W] (s : Scheduler) (c : Prov T W) (toAdd waitlist : List (Elem α T))
    (stable : List (List (Elem α T))) (r : Sched α T) (h : s.schedule c toAdd waitlist stable = some r) :
    tuplesB r.stable ⊆ tuplesB stable ∧ (stable = [] → r.stable = []) := by
  have hb := scheduleLfp_stable_sub c toAdd stable
  have hn : stable = [] → (scheduleLfp c toAdd stable).2 = [] := by rintro rfl; exact scheduleLfp_nil c toAdd
  cases s with
  | lfp => cases h; exact ⟨hb, hn⟩
  | dfs =>
    simp only [Scheduler.schedule, scheduleDfs] at h
    split at h
    · simp only [insertUnchecked?_nil, Option.map_some, Option.some.injEq] at h
      rw [← h]; exact ⟨hb, hn⟩
    · simp only [Option.map_eq_some_iff] at h
      obtain ⟨⟨a, w, st⟩, hp, rfl⟩ := h
      obtain ⟨h1, h2⟩ := popWaitlist_sub c _ _ _ _ _ hp
      exact ⟨fun x hx => hb (h1 hx), fun h => h2 (hn h)⟩
  | aStar =>
    simp only [Scheduler.schedule, scheduleAStar, Option.bind_eq_some_iff, Option.map_eq_some_iff] at h
    obtain ⟨wl, _, ⟨a, w, st⟩, hp, rfl⟩ := h
    obtain ⟨h1, h2⟩ := popWaitlist_sub c _ _ _ _ _ hp
    exact ⟨fun x hx => hb (h1 hx), fun h => h2 (hn h)⟩
  | beam n =>
    simp only [Scheduler.schedule, scheduleBeam, Option.bind_eq_some_iff] at h
    obtain ⟨sd, _, h⟩ := h
    split at h
    · simp only [Option.map_eq_some_iff] at h
      obtain ⟨p, _, rfl⟩ := h
      exact ⟨hb, hn⟩
    · simp only [Option.bind_eq_some_iff, Option.map_eq_some_iff] at h
      obtain ⟨acc, _, p, _, rfl⟩ := h
      exact ⟨hb, hn⟩

theorem fillBeam_nil (c : Prov T W) (beam : Nat) (hb : 0 < beam) : ∀ (ws acc acc' rest : List (Elem α T)), Sorted acc →
    fillBeam c beam ws acc = some (acc', rest) → acc' = [] → rest = [] := by
  intro ws
  induction ws with
  | nil => intro acc acc' rest _ h _; simp [fillBeam] at h; exact h.2
  | cons w ws ih =>
    intro acc acc' rest hs h he
    unfold fillBeam at h
    split at h
    · rw [Option.bind_eq_some_iff] at h
      obtain ⟨r, hr, h⟩ := h
      obtain ⟨r', e', h1, h2, _⟩ := insert?_tuples c w hs
      rw [e'] at hr; cases hr
      exact ih _ _ _ h1 h he
    · cases h
      simp_all

/-- A scheduler that can always make progress. -/
def Scheduler.progress : Scheduler → Prop
  | .beam n => 0 < n
  | _ => True

/-- The default scheduler leaves the wait list alone; the others empty it before they schedule nothing. -/
theorem schedule_waitlist [LinearOrder W] (s : Scheduler) (hp : s.progress) (c : Prov T W) (toAdd waitlist : List (Elem α T))
    (stable : List (List (Elem α T))) (hs : ∀ b ∈ stable, Sorted b) (hsa : Sorted toAdd) (r : Sched α T)
    (h : s.schedule c toAdd waitlist stable = some r) :
    (s = .lfp → r.waitlist = waitlist) ∧ (s ≠ .lfp → r.toAdd = [] → r.waitlist = []) := by
  cases s with
  | lfp => cases h; exact ⟨fun _ => rfl, fun h => absurd rfl h⟩
  | dfs =>
    obtain ⟨r', e, _, _, _, _, h5⟩ := scheduleDfs_spec c toAdd waitlist stable hs hsa
    simp only [Scheduler.schedule] at h
    rw [e] at h; cases h
    exact ⟨fun h => (by simp at h), fun _ => h5⟩
  | aStar =>
    obtain ⟨r', e, _, _, _, _, h5⟩ := scheduleAStar_spec c toAdd waitlist stable hs hsa
    simp only [Scheduler.schedule] at h
    rw [e] at h; cases h
    exact ⟨fun h => (by simp at h), fun _ => h5⟩
  | beam n =>
    refine ⟨fun h => (by simp at h), fun _ hnil => ?_⟩
    have hpos : 0 < n := hp
    have h2 := scheduleLfp_sorted c hsa hs
    simp only [Scheduler.schedule, scheduleBeam, Option.bind_eq_some_iff] at h
    obtain ⟨sd, hsd, h⟩ := h
    obtain ⟨sd', e, hperm⟩ := drainByWeight_spec c (scheduleLfp c toAdd stable).1 []
    rw [e] at hsd
    obtain rfl : sd' = sd := Option.some.inj hsd
    rw [List.append_nil] at hperm
    have hnd : (sd'.map Elem.tuple).Nodup := by
      rw [(hperm.map Elem.tuple).nodup_iff]; exact sorted_nodup h2.1
    split at h
    · rename_i hge
      obtain ⟨acc, rest, e', _, _, g3⟩ := takeBeam_spec n sd'.reverse [] (by simpa using hge) List.Pairwise.nil
        (by rw [List.append_nil, List.map_reverse, List.nodup_reverse]; exact hnd)
      rw [e'] at h
      cases h
      simp only at hnil
      rw [hnil] at g3
      simp at g3; omega
    · simp only [Option.bind_eq_some_iff, Option.map_eq_some_iff] at h
      obtain ⟨acc, hacc, ⟨a, w⟩, hf, rfl⟩ := h
      obtain ⟨acc', e', g1, g2⟩ := insertAll_spec sd' [] List.Pairwise.nil (by rw [List.append_nil]; exact hnd)
      rw [e'] at hacc; cases hacc
      simp only at hnil ⊢
      rw [fillBeam_nil c n hpos _ _ _ _ g1 hf hnil]; rfl

/-- One step of a relation, for every scheduler. -/
theorem changed_full [LinearOrder W] (c : Prov T W) (s : Scheduler) (r : Relation α T) (h : r.Wf) :
    ∃ r', r.changed c s = some (r', !r'.recent.isEmpty) ∧ r'.Wf ∧ r'.toAdd = [] ∧
      r'.visible ∪ tuples r'.waitlist = r.visible ∪ r.pending ∪ tuples r.waitlist ∧
      tuplesB r'.stable ⊆ r.visible ∧ (r.stable = [] → r.recent = [] → r'.stable = []) ∧
      (s.progress → (s = .lfp → r'.waitlist = r.waitlist) ∧ (s ≠ .lfp → r'.recent = [] → r'.waitlist = [])) ∧
      (s = .lfp → r.toAdd = [] → r'.recent = []) := by
  obtain ⟨r', e, h1, h2, h3, h4⟩ := changed_spec c s r h
  obtain ⟨g1, g2⟩ := schedule_stable_sub s c _ _ _ _ h4
  have hst := stableAfter_spec c r h
  have hcd := condense_spec c r.toAdd.reverse (fun b hb => h.toAdd b (List.mem_reverse.mp hb))
  refine ⟨r', e, h1, h2, h3, ?_, ?_, ?_, ?_⟩
  · rw [← hst.2]; exact g1
  · intro hs hr
    refine g2 ?_
    unfold stableAfter
    simp [hs, hr]
  · intro hp
    exact schedule_waitlist s hp c _ _ _ hst.1 hcd.1 _ h4
  · rintro rfl hta
    rw [hta] at h4
    simp only [Scheduler.schedule, List.reverse_nil, condense, Option.some.injEq, Sched.mk.injEq] at h4
    rw [← h4.1]
    have := List.eq_nil_of_sublist_nil (scheduleLfp_sublist c [] (stableAfter c r))
    exact List.map_eq_nil_iff.mp this

end Scallop
