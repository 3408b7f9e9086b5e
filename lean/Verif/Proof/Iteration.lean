import Verif.Proof.Scheduler2
import Verif.Proof.Semantics
import Verif.Proof.Relation2

namespace Scallop

variable {V T W ι κ : Type*} [LinearOrder V] [LinearOrder W]

/-- All tuples a relation knows of: visible, pending or waiting. -/
def Relation.known {α T : Type*} (r : Relation α T) : Set α := r.visible ∪ r.pending ∪ tuples r.waitlist

theorem lfp_closed (c : Prov T W) (p : Stratum V T ι κ) : p.Closed c (p.lfp c) := by
  constructor
  · intro i facts hf t ht X hX
    exact hX.1 i facts hf ht
  · intro u hu t ht X hX
    refine hX.2 u hu (sem_mono c p.input (fun i => ?_) u.2 ht)
    exact fun t ht => ht X hX

theorem lfp_least (c : Prov T W) (p : Stratum V T ι κ) {X : ι → Set (Tup V)} (hX : p.Closed c X) (i : ι) : p.lfp c i ⊆ X i :=
  fun _ h => h X hX

/-- No tag is dropped by early discarding. -/
def Stratum.keeps (c : Prov T W) (p : Stratum V T ι κ) : Prop := p.earlyDiscard = true → ∀ t, c.discard t = false

theorem insertBatches_wf {α : Type*} [LinearOrder α] (c : Prov T W) (ed : Bool) {r : Relation α T} (h : r.Wf) (bs : List (List (Elem α T))) :
    (r.insertBatches c ed bs).Wf := by
  refine ⟨h.stable, h.recent, ?_⟩
  intro b hb
  rcases List.mem_append.mp hb with h' | h'
  · exact h.toAdd b h'
  · obtain ⟨d, _, rfl⟩ := List.mem_map.mp h'; exact fromVec_sorted c _

theorem insertBatches_pending_sub {α : Type*} [LinearOrder α] (c : Prov T W) (ed : Bool) (r : Relation α T) (bs : List (List (Elem α T))) :
    (r.insertBatches c ed bs).pending ⊆ r.pending ∪ tuplesB bs := by
  rintro x ⟨b, hb, hx⟩
  rcases List.mem_append.mp hb with h | h
  · exact Or.inl ⟨b, h, hx⟩
  · obtain ⟨d, hd, rfl⟩ := List.mem_map.mp h
    rw [tuples_fromVec] at hx
    obtain ⟨e, he, rfl⟩ := hx
    refine Or.inr ⟨d, hd, e, ?_, rfl⟩
    split at he
    · exact (List.mem_filter.mp he).1
    · exact he

theorem insertBatches_pending_sup {α : Type*} [LinearOrder α] (c : Prov T W) (ed : Bool) (r : Relation α T) (bs : List (List (Elem α T))) :
    r.pending ⊆ (r.insertBatches c ed bs).pending ∧
    ((ed = true → ∀ t, c.discard t = false) → tuplesB bs ⊆ (r.insertBatches c ed bs).pending) := by
  constructor
  · rintro x ⟨b, hb, hx⟩
    exact ⟨b, List.mem_append_left _ hb, hx⟩
  · rintro hk x ⟨b, hb, hx⟩
    refine ⟨_, List.mem_append_right _ (List.mem_map.mpr ⟨b, hb, rfl⟩), ?_⟩
    rw [tuples_fromVec]
    cases ed with
    | false => simpa using hx
    | true =>
      have : b.filter (fun e => !c.discard e.tag) = b := by
        rw [List.filter_eq_self]; intro e _; rw [hk rfl]; rfl
      simpa [this] using hx

/-- What holds at the head of the loop. -/
structure Inv (c : Prov T W) (p : Stratum V T ι κ) (s : IterState V T ι) : Prop where
  wf : ∀ i, (s.rel i).Wf
  sound : ∀ i, (s.rel i).known ⊆ p.lfp c i
  first : s.num = 0 → ∀ i, (s.rel i).stable = [] ∧ (s.rel i).recent = []
  wait : (∀ i, (p.sched i).progress) → ∀ i, p.sched i = .lfp → (s.rel i).waitlist = []

/-- The completeness half of the invariant. -/
structure InvC (c : Prov T W) (p : Stratum V T ι κ) (s : IterState V T ι) : Prop where
  edb : ∀ i facts, p.edb i = some facts → tuples facts ⊆ (s.rel i).known
  rules : s.num ≠ 0 → ∀ u ∈ p.updates, u.2.sem c p.input (fun i => (s.rel i).visible) ⊆ (s.rel u.1).known

theorem init_inv (c : Prov T W) (p : Stratum V T ι κ) : Inv c p (p.init c) ∧ (p.keeps c → InvC c p (p.init c)) := by
  have hnew : (Relation.new : Relation (Tup V) T).known = ∅ := by
    ext x; simp [Relation.known, Relation.visible, Relation.pending, Relation.new, tuplesB, tuples]
  have hwf : (Relation.new : Relation (Tup V) T).Wf := ⟨by simp [Relation.new], List.Pairwise.nil, by simp [Relation.new]⟩
  have hk : ∀ facts : List (Elem (Tup V) T), (Relation.new.insertBatches c p.earlyDiscard [facts]).known =
      (Relation.new.insertBatches c p.earlyDiscard [facts]).pending := by
    intro facts
    ext x; simp [Relation.known, Relation.visible, Relation.insertBatches, Relation.new, tuplesB, tuples]
  have hone : ∀ facts : List (Elem (Tup V) T), tuplesB [facts] = tuples facts := by
    intro facts; ext x; simp [tuplesB]
  refine ⟨⟨?_, ?_, ?_, ?_⟩, ?_⟩
  · intro i
    simp only [Stratum.init]
    split
    · exact insertBatches_wf c _ hwf _
    · exact hwf
  · intro i
    simp only [Stratum.init]
    split
    · rename_i facts hf
      rw [hk]
      refine (insertBatches_pending_sub c _ _ _).trans ?_
      rw [hone]
      rintro x (⟨b, hb, _⟩ | h)
      · simp [Relation.new] at hb
      · exact (lfp_closed c p).1 i facts hf h
    · rw [hnew]; exact Set.empty_subset _
  · intro _ i
    simp only [Stratum.init]
    split
    · exact ⟨rfl, rfl⟩
    · exact ⟨rfl, rfl⟩
  · intro _ i _
    simp only [Stratum.init]
    split <;> rfl
  · intro hkeep
    refine ⟨?_, fun h => absurd rfl h⟩
    intro i facts hf
    simp only [Stratum.init, hf]
    rw [hk, ← hone]
    exact (insertBatches_pending_sup c _ _ _).2 hkeep

section step
variable [Fintype ι] [DecidableEq ι]

/-- One step of all relations. -/
theorem changedAll_spec (c : Prov T W) (sched : ι → Scheduler) (rel : ι → Relation (Tup V) T) (hw : ∀ i, (rel i).Wf) :
    ∃ rel', changedAll c sched rel = some (rel', decide (∃ i, (rel' i).recent ≠ [])) ∧ ∀ i, (rel' i).Wf ∧ (rel' i).toAdd = [] ∧
      (rel' i).known = (rel i).known ∧ tuplesB (rel' i).stable ⊆ (rel i).visible ∧
      ((rel i).stable = [] → (rel i).recent = [] → (rel' i).stable = []) ∧
      ((sched i).progress → (sched i = .lfp → (rel' i).waitlist = (rel i).waitlist) ∧
        (sched i ≠ .lfp → (rel' i).recent = [] → (rel' i).waitlist = [])) ∧
      (sched i = .lfp → (rel i).toAdd = [] → (rel' i).recent = []) := by
  have hex := fun i => changed_full c (sched i) (rel i) (hw i)
  choose rel' he h1 h2 h3 h4 h5 h6 h7 using hex
  have hs : ∀ i, ((rel i).changed c (sched i)).isSome := fun i => by rw [he i]; rfl
  have hg : ∀ i, ((rel i).changed c (sched i)).get (hs i) = (rel' i, !(rel' i).recent.isEmpty) := by
    intro i; simp only [he i, Option.get_some]
  refine ⟨rel', ?_, fun i => ⟨h1 i, h2 i, ?_, h4 i, h5 i, h6 i, h7 i⟩⟩
  · unfold changedAll
    rw [dif_pos hs]
    simp only [hg]
    simp
  · unfold Relation.known
    rw [← h3 i]
    have : (rel' i).pending = ∅ := by
      ext x; simp [Relation.pending, h2 i, tuplesB]
    rw [this, Set.union_empty]

/-- What holds right after the relations have stepped. -/
structure Mid (c : Prov T W) (p : Stratum V T ι κ) (s : IterState V T ι) : Prop where
  wf : ∀ i, (s.rel i).Wf
  sound : ∀ i, (s.rel i).known ⊆ p.lfp c i
  wait : (∀ i, (p.sched i).progress) → ∀ i, (p.sched i = .lfp ∨ (s.rel i).recent = []) → (s.rel i).waitlist = []
  toAdd : ∀ i, (s.rel i).toAdd = []
  stable0 : s.num = 0 → ∀ i, (s.rel i).stable = []

structure MidC (c : Prov T W) (p : Stratum V T ι κ) (s : IterState V T ι) : Prop where
  edb : ∀ i facts, p.edb i = some facts → tuples facts ⊆ (s.rel i).known
  rules : s.num ≠ 0 → ∀ u ∈ p.updates, u.2.sem c p.input (fun i => tuplesB (s.rel i).stable) ⊆ (s.rel u.1).known

theorem changedAll_mid (c : Prov T W) (p : Stratum V T ι κ) {s : IterState V T ι} (h : Inv c p s) :
    ∃ rel, changedAll c p.sched s.rel = some (rel, decide (∃ i, (rel i).recent ≠ [])) ∧ Mid c p ⟨s.num, rel⟩ ∧
      (∀ i, (rel i).known = (s.rel i).known) ∧ (InvC c p s → MidC c p ⟨s.num, rel⟩) := by
  obtain ⟨rel, he, hr⟩ := changedAll_spec c p.sched s.rel h.wf
  refine ⟨rel, he, ⟨fun i => (hr i).1, ?_, ?_, fun i => (hr i).2.1, ?_⟩, fun i => (hr i).2.2.1, ?_⟩
  · intro i; rw [(hr i).2.2.1]; exact h.sound i
  · intro hp i hi
    by_cases hl : p.sched i = .lfp
    · have := ((hr i).2.2.2.2.2.1 (hp i)).1 hl
      simp only [this]; exact h.wait hp i hl
    · exact ((hr i).2.2.2.2.2.1 (hp i)).2 hl (hi.resolve_left hl)
  · intro hn i
    exact (hr i).2.2.2.2.1 (h.first hn i).1 (h.first hn i).2
  · intro hc
    refine ⟨?_, ?_⟩
    · intro i facts hf; rw [(hr i).2.2.1]; exact hc.edb i facts hf
    · intro hn u hu
      rw [(hr u.1).2.2.1]
      exact (sem_mono c p.input (fun i => (hr i).2.2.2.1) u.2).trans (hc.rules hn u hu)

/-- A relation that only has more pending batches. -/
structure Grown (r r' : Relation (Tup V) T) : Prop where
  stable : r'.stable = r.stable
  recent : r'.recent = r.recent
  waitlist : r'.waitlist = r.waitlist
  pending : r.pending ⊆ r'.pending

theorem Grown.visible {r r' : Relation (Tup V) T} (h : Grown r r') : r'.visible = r.visible := by
  unfold Relation.visible; rw [h.stable, h.recent]

theorem Grown.known {r r' : Relation (Tup V) T} (h : Grown r r') : r.known ⊆ r'.known := by
  unfold Relation.known; rw [h.visible, h.waitlist]
  exact Set.union_subset_union_left _ (Set.union_subset_union_right _ h.pending)

theorem tuplesB_map_elems (R : List (Batch V T)) : tuplesB (R.map Batch.elems) = tuples (elemsOf R) := by
  ext x
  constructor
  · rintro ⟨b, hb, e, he, rfl⟩
    obtain ⟨d, hd, rfl⟩ := List.mem_map.mp hb
    exact ⟨e, List.mem_flatMap.mpr ⟨d, hd, he⟩, rfl⟩
  · rintro ⟨e, he, rfl⟩
    obtain ⟨d, hd, he⟩ := List.mem_flatMap.mp he
    exact ⟨d.elems, List.mem_map.mpr ⟨d, hd, rfl⟩, e, he, rfl⟩

/-- One update. -/
theorem applyUpdate_spec (c : Prov T W) (p : Stratum V T ι κ) (hok : p.Ok c) {s : IterState V T ι} (hm : Mid c p s)
    {rel rel' : ι → Relation (Tup V) T} (hg : ∀ i, Grown (s.rel i) (rel i)) (hwf : ∀ i, (rel i).Wf) (hsd : ∀ i, (rel i).known ⊆ p.lfp c i)
    {u : ι × DF V ι κ} (hu : u ∈ p.updates) (h : applyUpdate c p (s.num == 0) rel u = some rel') :
    (∀ i, Grown (rel i) (rel' i)) ∧ (∀ i, (rel' i).Wf) ∧ (∀ i, (rel' i).known ⊆ p.lfp c i) ∧
    (p.keeps c → MidC c p s → u.2.sem c p.input (fun i => (s.rel i).visible) ⊆ (rel' u.1).known) := by
  unfold applyUpdate at h
  rw [Option.map_eq_some_iff] at h
  obtain ⟨R, hR, rfl⟩ := h
  have henv : (⟨rel, p.input, s.num == 0⟩ : Env V T ι κ).Wf := by
    refine ⟨hwf, hok.input, ?_⟩
    intro hf i
    rw [(hg i).stable]
    exact hm.stable0 (by simpa using hf) i
  obtain ⟨h1, h2⟩ := recent_sem c hok.minus henv (hok.sorted u hu) (hok.stratified u hu) hR
  have hv : (fun i => (rel i).visible) = fun i => (s.rel i).visible := by funext i; exact (hg i).visible
  have hst : (fun i => tuplesB (rel i).stable) = fun i => tuplesB (s.rel i).stable := by funext i; rw [(hg i).stable]
  simp only [hv, hst] at h1 h2
  have hgrow : Grown (rel u.1) ((rel u.1).insertBatches c p.earlyDiscard (R.map Batch.elems)) :=
    ⟨rfl, rfl, rfl, (insertBatches_pending_sup c _ _ _).1⟩
  have hlfp : u.2.sem c p.input (fun i => (s.rel i).visible) ⊆ p.lfp c u.1 := by
    refine (sem_mono c p.input (fun i => ?_) u.2).trans ((lfp_closed c p).2 u hu)
    exact fun x hx => hm.sound i (Or.inl (Or.inl hx))
  have hkn : ((rel u.1).insertBatches c p.earlyDiscard (R.map Batch.elems)).known ⊆ p.lfp c u.1 := by
    rintro x ((hx | hx) | hx)
    · exact hsd u.1 (Or.inl (Or.inl hx))
    · rcases insertBatches_pending_sub c _ _ _ hx with hx | hx
      · exact hsd u.1 (Or.inl (Or.inr hx))
      · rw [tuplesB_map_elems] at hx; exact hlfp (h1 hx)
    · exact hsd u.1 (Or.inr hx)
  refine ⟨?_, ?_, ?_, ?_⟩
  · intro i
    by_cases hi : i = u.1
    · subst hi; rw [Function.update_self]; exact hgrow
    · rw [Function.update_of_ne hi]; exact ⟨rfl, rfl, rfl, fun _ h => h⟩
  · intro i
    by_cases hi : i = u.1
    · subst hi; rw [Function.update_self]; exact insertBatches_wf c _ (hwf _) _
    · rw [Function.update_of_ne hi]; exact hwf i
  · intro i
    by_cases hi : i = u.1
    · subst hi; rw [Function.update_self]; exact hkn
    · rw [Function.update_of_ne hi]; exact hsd i
  · intro hk hc x hx
    rw [Function.update_self]
    rcases h2 hx with hx | hx
    · by_cases hn : s.num = 0
      · simp [hn] at hx
      · simp [hn] at hx
        exact hgrow.known ((hg u.1).known (hc.rules hn u hu hx))
    · rw [← tuplesB_map_elems] at hx
      exact Or.inl (Or.inr ((insertBatches_pending_sup c _ _ _).2 hk hx))

theorem Grown.trans {a b d : Relation (Tup V) T} (h1 : Grown a b) (h2 : Grown b d) : Grown a d :=
  ⟨h2.stable.trans h1.stable, h2.recent.trans h1.recent, h2.waitlist.trans h1.waitlist, h1.pending.trans h2.pending⟩

theorem foldUpdates_spec (c : Prov T W) (p : Stratum V T ι κ) (hok : p.Ok c) {s : IterState V T ι} (hm : Mid c p s) :
    ∀ (us : List (ι × DF V ι κ)), (∀ u ∈ us, u ∈ p.updates) → ∀ (rel rel' : ι → Relation (Tup V) T), (∀ i, Grown (s.rel i) (rel i)) →
    (∀ i, (rel i).Wf) → (∀ i, (rel i).known ⊆ p.lfp c i) → us.foldlM (applyUpdate c p (s.num == 0)) rel = some rel' →
    (∀ i, Grown (rel i) (rel' i)) ∧ (∀ i, (rel' i).Wf) ∧ (∀ i, (rel' i).known ⊆ p.lfp c i) ∧
    (p.keeps c → MidC c p s → ∀ u ∈ us, u.2.sem c p.input (fun i => (s.rel i).visible) ⊆ (rel' u.1).known) := by
  intro us
  induction us with
  | nil =>
    intro _ rel rel' _ hwf hsd h
    simp only [List.foldlM_nil, Option.pure_def, Option.some.injEq] at h
    subst h
    exact ⟨fun i => ⟨rfl, rfl, rfl, fun _ h => h⟩, hwf, hsd, by simp⟩
  | cons u us ih =>
    intro hus rel rel' hg hwf hsd h
    simp only [List.foldlM_cons, Option.bind_eq_bind, Option.bind_eq_some_iff] at h
    obtain ⟨rel1, h1, h⟩ := h
    obtain ⟨a1, a2, a3, a4⟩ := applyUpdate_spec c p hok hm hg hwf hsd (hus u (by simp)) h1
    obtain ⟨b1, b2, b3, b4⟩ := ih (fun v hv => hus v (by simp [hv])) rel1 rel' (fun i => (hg i).trans (a1 i)) a2 a3 h
    refine ⟨fun i => (a1 i).trans (b1 i), b2, b3, ?_⟩
    intro hk hc v hv
    rcases List.mem_cons.mp hv with rfl | hv
    · exact (a4 hk hc).trans (b1 v.1).known
    · exact b4 hk hc v hv

/-- The body re-establishes the invariant. -/
theorem iterBody_spec (c : Prov T W) (p : Stratum V T ι κ) (hok : p.Ok c) {s s' : IterState V T ι} (hm : Mid c p s)
    (h : iterBody c p s = some s') : Inv c p s' ∧ s'.num = s.num + 1 ∧ (∀ i, Grown (s.rel i) (s'.rel i)) ∧
      (p.keeps c → MidC c p s → InvC c p s') := by
  unfold iterBody at h
  rw [Option.map_eq_some_iff] at h
  obtain ⟨rel', h, rfl⟩ := h
  obtain ⟨h1, h2, h3, h4⟩ := foldUpdates_spec c p hok hm p.updates (fun _ h => h) s.rel rel' (fun i => ⟨rfl, rfl, rfl, fun _ h => h⟩)
    hm.wf hm.sound h
  refine ⟨⟨h2, h3, by simp, ?_⟩, rfl, h1, ?_⟩
  · intro hp i hi
    simp only [(h1 i).waitlist]
    exact hm.wait hp i (Or.inl hi)
  · intro hk hc
    refine ⟨?_, ?_⟩
    · intro i facts hf; exact (hc.edb i facts hf).trans (h1 i).known
    · intro _ u hu
      have hv : (fun i => (rel' i).visible) = fun i => (s.rel i).visible := by funext i; exact (h1 i).visible
      simp only [hv]
      exact h4 hk hc u hu

/-- A state in which the loop can stop: sound, and closed if it stopped by itself. -/
theorem mid_closed (c : Prov T W) (p : Stratum V T ι κ) {s : IterState V T ι} (hm : Mid c p s) (hc : MidC c p s)
    (hp : ∀ i, (p.sched i).progress) (hr : ∀ i, (s.rel i).recent = []) (hn : s.num ≠ 0) (i : ι) :
    (s.rel i).visible = p.lfp c i := by
  have hk : ∀ i, (s.rel i).known = (s.rel i).visible := by
    intro i
    have h1 : (s.rel i).pending = ∅ := by ext x; simp [Relation.pending, hm.toAdd i, tuplesB]
    have h2 : tuples (s.rel i).waitlist = ∅ := by
      rw [hm.wait hp i (Or.inr (hr i))]; ext x; simp [tuples]
    unfold Relation.known
    rw [h1, h2, Set.union_empty, Set.union_empty]
  have hv : ∀ i, (s.rel i).visible = tuplesB (s.rel i).stable := by
    intro i; unfold Relation.visible; rw [hr i]; ext x; simp [tuples]
  refine Set.Subset.antisymm ?_ ?_
  · rw [← hk]; exact hm.sound i
  · refine lfp_least c p (X := fun i => (s.rel i).visible) ⟨?_, ?_⟩ i
    · intro i facts hf; have := hc.edb i facts hf; rwa [hk] at this
    · intro u hu
      have := hc.rules hn u hu
      rw [hk] at this
      exact (sem_mono c p.input (fun i => (hv i).subset) u.2).trans this

/-- What holds of every state in which the loop stops. -/
structure Final (c : Prov T W) (p : Stratum V T ι κ) (s : IterState V T ι) : Prop where
  wf : ∀ i, (s.rel i).Wf
  toAdd : ∀ i, (s.rel i).toAdd = []
  sound : ∀ i, (s.rel i).known ⊆ p.lfp c i
  lfp : ∀ i, p.sched i = .lfp → (s.rel i).recent = [] ∧ ((∀ i, (p.sched i).progress) → (s.rel i).waitlist = [])

/-- Why the loop stops. -/
inductive Stops (c : Prov T W) (p : Stratum V T ι κ) (s s' : IterState V T ι) : Prop
  | fixpoint : Mid c p s' → (InvC c p s → MidC c p s') → (∀ i, (s'.rel i).recent = []) → s'.num ≠ 0 → Stops c p s s'
  | limit (n : Nat) : p.iterLimit = some n → n < s.num → Stops c p s s'
  | goal : p.stopAtGoal = true → p.goals ≠ [] → Stops c p s s'

/-- What `need_to_iterate` decides. -/
theorem needToIterate_spec (c : Prov T W) (p : Stratum V T ι κ) {s : IterState V T ι} (h : Inv c p s) :
    ∃ s' b, needToIterate c p s = some (s', b) ∧ s'.num = s.num ∧ (∀ i, (s'.rel i).known = (s.rel i).known) ∧
      (b = true → Mid c p s' ∧ (InvC c p s → MidC c p s') ∧ ∀ n, p.iterLimit = some n → s.num ≤ n) ∧
      (b = false → Final c p s' ∧ Stops c p s s') := by
  obtain ⟨rel, he, hm, hkn, hc⟩ := changedAll_mid c p h
  obtain ⟨rel2, he2, hr2⟩ := changedAll_spec c p.sched rel hm.wf
  have hfin2 : Final c p ⟨s.num, rel2⟩ := by
    refine ⟨fun i => (hr2 i).1, fun i => (hr2 i).2.1, ?_, ?_⟩
    · intro i; rw [(hr2 i).2.2.1]; exact hm.sound i
    · intro i hl
      refine ⟨(hr2 i).2.2.2.2.2.2 hl (hm.toAdd i), fun hp => ?_⟩
      have := ((hr2 i).2.2.2.2.2.1 (hp i)).1 hl
      simp only [this]
      exact hm.wait hp i (Or.inl hl)
  have hkn2 : ∀ i, (rel2 i).known = (s.rel i).known := fun i => ((hr2 i).2.2.1).trans (hkn i)
  unfold needToIterate
  rw [he]
  simp only
  by_cases h1 : (decide (∃ i, (rel i).recent ≠ []) || s.num == 0) = true
  · rw [if_pos h1]
    by_cases h2 : p.iterLimit.any (fun n => decide (s.num > n)) = true
    · rw [if_pos h2, he2]
      refine ⟨_, _, rfl, rfl, hkn2, by simp, fun _ => ⟨hfin2, ?_⟩⟩
      rw [Option.any_eq_true] at h2
      obtain ⟨n, hn, hlt⟩ := h2
      exact .limit n hn (by simpa using hlt)
    · rw [if_neg h2]
      have hlim : ∀ n, p.iterLimit = some n → s.num ≤ n := by
        intro n hn; rw [hn] at h2; simpa using h2
      by_cases h3 : (p.stopAtGoal && goalReached p.goals rel) = true
      · rw [if_pos h3, he2]
        refine ⟨_, _, rfl, rfl, hkn2, by simp, fun _ => ⟨hfin2, ?_⟩⟩
        rw [Bool.and_eq_true] at h3
        refine .goal h3.1 ?_
        intro hg; simp [goalReached, hg] at h3
      · rw [if_neg h3]
        exact ⟨_, _, rfl, rfl, hkn, fun _ => ⟨hm, hc, hlim⟩, by simp⟩
  · rw [if_neg h1]
    simp only [Bool.or_eq_true, decide_eq_true_eq, beq_iff_eq, not_or, not_exists, not_not] at h1
    by_cases h2 : p.iterLimit.any (fun n => decide (s.num < n)) = true
    · rw [if_pos h2]
      refine ⟨_, _, rfl, rfl, hkn, fun _ => ⟨hm, hc, ?_⟩, by simp⟩
      intro n hn; rw [hn] at h2; simp at h2; omega
    · rw [if_neg h2]
      refine ⟨_, _, rfl, rfl, hkn, by simp, fun _ => ⟨⟨hm.wf, hm.toAdd, hm.sound, fun i hl => ⟨h1.1 i, fun hp => hm.wait hp i (Or.inl hl)⟩⟩, ?_⟩⟩
      exact .fixpoint hm hc h1.1 h1.2

/-- When the loop stops, from any head state satisfying the invariant. -/
theorem runLoop_spec (c : Prov T W) (p : Stratum V T ι κ) (hok : p.Ok c) : ∀ (fuel : Nat) (s s' : IterState V T ι), Inv c p s →
    runLoop c p fuel s = .done s' → Final c p s' ∧
      (p.keeps c → InvC c p s → ∃ h, Inv c p h ∧ InvC c p h ∧ Stops c p h s' ∧ s.num ≤ h.num ∧ s'.num = h.num ∧
        ∀ i, (s'.rel i).known = (h.rel i).known) ∧
      (∀ n, p.iterLimit = some n → s.num ≤ n + 1 → s'.num ≤ n + 1) := by
  intro fuel
  induction fuel with
  | zero => intro s s' _ h; cases h
  | succ fuel ih =>
    intro s s' hi h
    obtain ⟨s1, b, he, hnum, hkn, ht, hf⟩ := needToIterate_spec c p hi
    unfold runLoop at h
    rw [he] at h
    cases b with
    | false =>
      simp only [RunResult.done.injEq] at h
      subst h
      exact ⟨(hf rfl).1, fun _ hc => ⟨s, hi, hc, (hf rfl).2, le_refl _, hnum, hkn⟩, fun n hn hle => by rw [hnum]; exact hle⟩
    | true =>
      obtain ⟨hm, hmc, hlim⟩ := ht rfl
      simp only at h
      cases hb : iterBody c p s1 with
      | none => rw [hb] at h; cases h
      | some s2 =>
        rw [hb] at h
        simp only at h
        obtain ⟨b1, b2, b3, b4⟩ := iterBody_spec c p hok hm hb
        obtain ⟨r1, r2, r3⟩ := ih s2 s' b1 h
        refine ⟨r1, ?_, ?_⟩
        · intro hk hc
          obtain ⟨g, q1, q2, q3, q4, q5, q6⟩ := r2 hk (b4 hk (hmc hc))
          exact ⟨g, q1, q2, q3, by omega, q5, q6⟩
        · intro n hn hle
          exact r3 n hn (by have := hlim n hn; omega)

end step

end Scallop
