import Verif.Proof.NoPanic
import Mathlib.Data.Set.Card
import Mathlib.Algebra.Order.BigOperators.Group.Finset

namespace Scallop

section relation
variable {α T W : Type*} [LinearOrder α]

theorem disjointB_cons {b : List (Elem α T)} {bs : List (List (Elem α T))} :
    DisjointB (b :: bs) ↔ (∀ x, x ∈ tuples b → x ∉ tuplesB bs) ∧ DisjointB bs := by
  unfold DisjointB
  rw [List.pairwise_cons]
  constructor
  · rintro ⟨h1, h2⟩
    refine ⟨?_, h2⟩
    rintro x hx ⟨d, hd, hxd⟩
    exact h1 d hd x hx hxd
  · rintro ⟨h1, h2⟩
    exact ⟨fun d hd x hx hxd => h1 x hx ⟨d, hd, hxd⟩, h2⟩

theorem disjointB_reverse {bs : List (List (Elem α T))} : DisjointB bs.reverse ↔ DisjointB bs := by
  unfold DisjointB
  rw [List.pairwise_reverse]
  exact ⟨fun h => h.imp (fun h x h1 h2 => h x h2 h1), fun h => h.imp (fun h x h1 h2 => h x h2 h1)⟩

theorem mergeIntoStable_disjoint (c : Prov T W) : ∀ (bs : List (List (Elem α T))) (rec : List (Elem α T)),
    Sorted rec → (∀ b ∈ bs, Sorted b) → DisjointB (rec :: bs) → DisjointB (mergeIntoStable c rec bs) := by
  intro bs
  induction bs with
  | nil => intro rec _ _ h; exact h
  | cons b bs ih =>
    intro rec hr hb h
    simp only [mergeIntoStable]
    split
    · rw [disjointB_cons, disjointB_cons] at h
      have hm := foldl_merge_spec c [b] rec hr (by simpa using hb b (by simp))
      simp only [List.foldl_cons, List.foldl_nil] at hm
      refine ih _ hm.1 (fun d hd => hb d (by simp [hd])) ?_
      rw [disjointB_cons]
      refine ⟨?_, h.2.2⟩
      intro x hx hxb
      rw [hm.2] at hx
      rcases hx with hx | hx
      · exact h.1 x hx (by rw [tuplesB_cons]; exact Or.inr hxb)
      · rw [tuplesB_cons] at hx
        rcases hx with hx | hx
        · exact h.2.1 x hx hxb
        · obtain ⟨d, hd, _⟩ := hx; simp at hd
    · exact h

theorem stableAfter_disjoint (c : Prov T W) {r : Relation α T} (hw : r.Wf) (h : DisjointB (r.recent :: r.stable)) :
    DisjointB (stableAfter c r) := by
  unfold stableAfter
  split
  · exact (disjointB_cons.mp h).2
  · rw [disjointB_reverse]
    refine mergeIntoStable_disjoint c _ _ hw.recent (fun b hb => hw.stable b (List.mem_reverse.mp hb)) ?_
    rw [disjointB_cons, disjointB_reverse, tuplesB_reverse]
    exact disjointB_cons.mp h

theorem disjointB_of_tags : ∀ (bs : List (List (Elem α T))), (∀ x, (tagsOfB bs x).length ≤ 1) → DisjointB bs := by
  intro bs
  induction bs with
  | nil => intro _; exact List.Pairwise.nil
  | cons b bs ih =>
    intro h
    have e1 : ∀ x, tagsOfB (b :: bs) x = tagsOf b x ++ tagsOfB bs x := by intro x; simp [tagsOfB]
    rw [disjointB_cons]
    constructor
    · rintro x hx ⟨d, hd, hxd⟩
      have h1 := List.length_pos_iff.mpr (mem_tuples_iff.mp hx)
      have h2 : 0 < (tagsOfB bs x).length := by
        rw [List.length_pos_iff]
        unfold tagsOfB
        intro he
        rw [List.flatMap_eq_nil_iff] at he
        exact mem_tuples_iff.mp hxd (he d hd)
      have := h x
      rw [e1, List.length_append] at this
      omega
    · refine ih (fun x => ?_)
      have := h x
      rw [e1, List.length_append] at this
      omega

/-- Uniqueness is preserved by a step of the default scheduler that does not gallop, and with always-saturated tags only new
tuples are recent. -/
theorem changed_unique [LinearOrder W] (c : Prov T W) {r r' : Relation α T} {b : Bool} (hw : r.Wf) (h : DisjointB (r.recent :: r.stable))
    (hsafe : ∀ b ∈ stableAfter c r, ScanSafe (condense c r.toAdd.reverse) b) (he : r.changed c .lfp = some (r', b)) :
    DisjointB (r'.recent :: r'.stable) ∧
    ((∀ a b, c.saturated a b = true) → ∀ x ∈ tuples r'.recent, x ∉ r.visible) := by
  obtain ⟨r'', e, _, _, _, h4⟩ := changed_spec c .lfp r hw
  rw [he] at e
  obtain ⟨rfl, -⟩ := Prod.mk.inj (Option.some.inj e)
  have hst := stableAfter_spec c r hw
  have hcd := condense_spec c r.toAdd.reverse (fun b hb => hw.toAdd b (List.mem_reverse.mp hb))
  simp only [Scheduler.schedule, Option.some.injEq, Sched.mk.injEq] at h4
  have ht := scheduleLfp_tags c _ _ hcd.1 hst.1 hsafe (stableAfter_disjoint c hw h)
  rw [h4.1, h4.2.2] at ht
  have hd : DisjointB (r'.recent :: r'.stable) := by
    refine disjointB_of_tags _ (fun x => ?_)
    have e1 : tagsOfB (r'.recent :: r'.stable) x = tagsOf r'.recent x ++ tagsOfB r'.stable x := by simp [tagsOfB]
    have := congrArg List.length (ht x)
    rw [List.length_append] at this
    rw [e1, List.length_append, Nat.add_comm, this]
    cases sumTags c _ <;> simp
  refine ⟨hd, fun hsat x hx hv => ?_⟩
  refine (disjointB_cons.mp hd).1 x hx ?_
  rw [← hst.2] at hv
  have hs := scheduleLfp_saturated c hsat (condense c r.toAdd.reverse) (stableAfter c r)
  rw [h4.2.2] at hs
  obtain ⟨b, hb, e, he, rfl⟩ := hv
  have : b.map Elem.tuple ∈ r'.stable.map (·.map Elem.tuple) := by rw [hs]; exact List.mem_map.mpr ⟨b, hb, rfl⟩
  obtain ⟨b', hb', heq⟩ := List.mem_map.mp this
  have : e.tuple ∈ b'.map Elem.tuple := by rw [heq]; exact List.mem_map.mpr ⟨e, he, rfl⟩
  obtain ⟨e', he', heq'⟩ := List.mem_map.mp this
  exact ⟨b', hb', e', he', heq'⟩

end relation

variable {V T W ι κ : Type*} [LinearOrder V] [LinearOrder W] [Fintype ι] [DecidableEq ι]

theorem reached_inv (c : Prov T W) (p : Stratum V T ι κ) (hok : p.Ok c) {s : IterState V T ι} (h : p.Reached c s) : Inv c p s := by
  induction h with
  | init => exact (init_inv c p).1
  | step _ h1 h2 ih =>
    obtain ⟨s1, b, he, _, _, ht, _⟩ := needToIterate_spec c p ih
    rw [he] at h1
    obtain ⟨rfl, rfl⟩ := Prod.mk.inj (Option.some.inj h1)
    exact (iterBody_spec c p hok (ht rfl).1 h2).1

theorem changedAll_eq {c : Prov T W} {sched : ι → Scheduler} {rel rel' : ι → Relation (Tup V) T} {b : Bool}
    (h : changedAll c sched rel = some (rel', b)) (i : ι) : ∃ b', (rel i).changed c (sched i) = some (rel' i, b') := by
  unfold changedAll at h
  split at h
  · rename_i hs
    cases h
    exact ⟨_, (Option.some_get (hs i)).symm⟩
  · cases h

theorem needToIterate_true {c : Prov T W} {p : Stratum V T ι κ} {s s' : IterState V T ι} (h : needToIterate c p s = some (s', true))
    (hlim : p.iterLimit = none) : ∃ b, changedAll c p.sched s.rel = some (s'.rel, b) ∧ (b = true ∨ s.num = 0) := by
  unfold needToIterate at h
  rw [hlim] at h
  cases hc : changedAll c p.sched s.rel with
  | none => rw [hc] at h; cases h
  | some q =>
    obtain ⟨rel, b⟩ := q
    rw [hc] at h
    simp only [Option.any_none, Bool.false_eq_true, if_false] at h
    split at h
    · rename_i hb
      split at h
      · simp only [Option.map_eq_some_iff, Prod.mk.injEq] at h
        obtain ⟨_, _, _, h⟩ := h; cases h
      · cases h
        refine ⟨b, rfl, ?_⟩
        simpa using hb
    · cases h

/-- The number of visible tuples. -/
noncomputable def visCount (s : IterState V T ι) : Nat := ∑ i, (s.rel i).visible.ncard

theorem runLoop_terminates (c : Prov T W) (p : Stratum V T ι κ) (hok : p.Ok c) (hsat : ∀ a b, c.saturated a b = true)
    (hsch : ∀ i, p.sched i = .lfp) (hlim : p.iterLimit = none) (hfin : ∀ i, (p.lfp c i).Finite)
    (hq : ∀ s, p.Reached c s → ∀ i, (s.rel i).noGallop c) :
    ∀ (fuel : Nat) (s : IterState V T ι), p.Reached c s → (∀ i, DisjointB ((s.rel i).recent :: (s.rel i).stable)) →
      (∑ i, (p.lfp c i).ncard) + (if s.num = 0 then 2 else 1) ≤ visCount s + fuel → runLoop c p fuel s ≠ .outOfFuel := by
  have hvis : ∀ s : IterState V T ι, (∀ i, (s.rel i).visible ⊆ p.lfp c i) → visCount s ≤ ∑ i, (p.lfp c i).ncard := by
    intro s hs
    exact Finset.sum_le_sum (fun i _ => Set.ncard_le_ncard (hs i) (hfin i))
  intro fuel
  induction fuel with
  | zero =>
    intro s hr _ hle
    exfalso
    have := hvis s (fun i x hx => (reached_inv c p hok hr).sound i (Or.inl (Or.inl hx)))
    split at hle <;> omega
  | succ fuel ih =>
    intro s hr hd hle
    have hi := reached_inv c p hok hr
    obtain ⟨s1, b, he, hnum, hkn, ht, hf⟩ := needToIterate_spec c p hi
    unfold runLoop
    rw [he]
    cases b with
    | false => intro h; cases h
    | true =>
      obtain ⟨hm, _, _⟩ := ht rfl
      cases hb : iterBody c p s1 with
      | none => simp only [hb]; intro h; cases h
      | some s2 =>
        simp only [hb]
        obtain ⟨b1, b2, b3, _⟩ := iterBody_spec c p hok hm hb
        obtain ⟨ch, hca, hch⟩ := needToIterate_true he hlim
        have hstep : ∀ i, DisjointB ((s1.rel i).recent :: (s1.rel i).stable) ∧ (s.rel i).visible ⊆ (s1.rel i).visible ∧
            ∀ x ∈ tuples (s1.rel i).recent, x ∉ (s.rel i).visible := by
          intro i
          obtain ⟨b', hc⟩ := changedAll_eq hca i
          rw [hsch i] at hc
          obtain ⟨u1, u2⟩ := changed_unique c (hi.wf i) (hd i) (hq s hr i) hc
          refine ⟨u1, ?_, u2 hsat⟩
          obtain ⟨r', e, _, _, _, hv, _⟩ := changed_lfp_spec c (s.rel i) (hi.wf i)
          rw [hc] at e
          obtain ⟨rfl, -⟩ := Prod.mk.inj (Option.some.inj e)
          rw [hv]; exact Set.subset_union_left
        have hv2 : ∀ i, (s2.rel i).visible = (s1.rel i).visible := fun i => (b3 i).visible
        have hfin2 : ∀ i, (s1.rel i).visible.Finite := fun i => (hfin i).subset (fun x hx => hm.sound i (Or.inl (Or.inl hx)))
        have hmono : ∀ i, (s.rel i).visible.ncard ≤ (s2.rel i).visible.ncard := fun i => by
          rw [hv2]; exact Set.ncard_le_ncard (hstep i).2.1 (hfin2 i)
        refine ih s2 (.step hr he hb) (fun i => by rw [(b3 i).recent, (b3 i).stable]; exact (hstep i).1) ?_
        have hn2 : s2.num ≠ 0 := by omega
        rw [if_neg hn2]
        by_cases hn : s.num = 0
        · rw [if_pos hn] at hle
          have : visCount s ≤ visCount s2 := Finset.sum_le_sum (fun i _ => hmono i)
          omega
        · rw [if_neg hn] at hle
          have hct : ch = true := hch.resolve_right hn
          obtain ⟨rel', he', _⟩ := changedAll_spec c p.sched s.rel hi.wf
          rw [hca] at he'
          obtain ⟨rfl, hch'⟩ := Prod.mk.inj (Option.some.inj he')
          rw [hct] at hch'
          obtain ⟨j, hj⟩ := of_decide_eq_true hch'.symm
          have hlt : (s.rel j).visible.ncard < (s2.rel j).visible.ncard := by
            rw [hv2]
            refine Set.ncard_lt_ncard ⟨(hstep j).2.1, fun hsub => ?_⟩ (hfin2 j)
            obtain ⟨e, l, hel⟩ := List.exists_cons_of_ne_nil hj
            have hx : e.tuple ∈ tuples (s1.rel j).recent := ⟨e, by rw [hel]; simp, rfl⟩
            exact (hstep j).2.2 _ hx (hsub (Or.inr hx))
          have : visCount s < visCount s2 := Finset.sum_lt_sum (fun i _ => hmono i) ⟨j, Finset.mem_univ _, hlt⟩
          omega

/-- Strictly sorted lists are not longer than the set of their tuples. -/
theorem length_le_ncard {l : List (Elem (Tup V) T)} (h : Sorted l) {X : Set (Tup V)} (hX : tuples l ⊆ X) (hf : X.Finite) :
    l.length ≤ X.ncard := by
  have hnd : (l.map Elem.tuple).Nodup := sorted_nodup h
  have h1 : (l.map Elem.tuple).toFinset.card = l.length := by rw [List.toFinset_card_of_nodup hnd, List.length_map]
  rw [← h1, ← Set.ncard_coe_finset]
  refine Set.ncard_le_ncard ?_ hf
  intro x hx
  refine hX ?_
  simp only [List.coe_toFinset, List.mem_map, Set.mem_setOf_eq] at hx
  obtain ⟨e, he, rfl⟩ := hx
  exact ⟨e, he, rfl⟩

theorem reached_noGallop_small (c : Prov T W) (p : Stratum V T ι κ) (hok : p.Ok c) (hfin : ∀ i, (p.lfp c i).Finite)
    (h8 : ∀ i, (p.lfp c i).ncard ≤ 8) {s : IterState V T ι} (hr : p.Reached c s) (i : ι) : (s.rel i).noGallop c := by
  have hi := reached_inv c p hok hr
  have hcd := condense_spec c (s.rel i).toAdd.reverse (fun b hb => (hi.wf i).toAdd b (List.mem_reverse.mp hb))
  have hle : (condense c (s.rel i).toAdd.reverse).length ≤ 8 := by
    refine (length_le_ncard hcd.1 ?_ (hfin i)).trans (h8 i)
    rw [hcd.2, tuplesB_reverse]
    exact fun x hx => hi.sound i (Or.inl (Or.inr hx))
  intro b _
  by_cases hb : b.length ≤ 1
  · exact Or.inr hb
  · left; omega

/-- With an iteration limit, the loop stops after at most `n + 1` runs of the body. -/
theorem runLoop_limit (c : Prov T W) (p : Stratum V T ι κ) (hok : p.Ok c) (n : Nat) (hlim : p.iterLimit = some n) :
    ∀ (fuel : Nat) (s : IterState V T ι), Inv c p s → n + 2 ≤ s.num + fuel → s.num ≤ n + 1 → runLoop c p fuel s ≠ .outOfFuel := by
  intro fuel
  induction fuel with
  | zero => intro s _ h1 h2; omega
  | succ fuel ih =>
    intro s hi h1 h2
    obtain ⟨s1, b, he, hnum, hkn, ht, hf⟩ := needToIterate_spec c p hi
    unfold runLoop
    rw [he]
    cases b with
    | false => intro h; cases h
    | true =>
      obtain ⟨hm, _, hl⟩ := ht rfl
      have := hl n hlim
      cases hb : iterBody c p s1 with
      | none => simp only [hb]; intro h; cases h
      | some s2 =>
        simp only [hb]
        obtain ⟨b1, b2, _, _⟩ := iterBody_spec c p hok hm hb
        exact ih s2 b1 (by omega) (by omega)

end Scallop
