import Verif.Proof.WorldSem
import Verif.Proof.Iteration

/-!
# Runs of a stratum in a world
-/

namespace Scallop

variable {V T W ι κ : Type*} [LinearOrder V] [LinearOrder W] {v P : T → Prop}

/-- What holds in the world at every point of a run. -/
def WInv (v : T → Prop) (p : Stratum V T ι κ) (s : IterState V T ι) : Prop := ∀ i, (s.rel i).knownIn v ⊆ (p.inWorld v).lfp unitProv i

/-- What holds in the world at the head of the loop, if tags are exact. -/
structure WInvC (v : T → Prop) (p : Stratum V T ι κ) (s : IterState V T ι) : Prop where
  edb : ∀ i facts, p.edb i = some facts → worldOf v facts ⊆ (s.rel i).knownIn v
  rules : s.num ≠ 0 → ∀ u ∈ p.updates, u.2.sem unitProv (fun j => inWorld v (p.input j)) (fun i => (s.rel i).visibleIn v) ⊆ (s.rel u.1).knownIn v

/-- The same after the relations have stepped. -/
structure WMidC (v : T → Prop) (p : Stratum V T ι κ) (s : IterState V T ι) : Prop where
  edb : ∀ i facts, p.edb i = some facts → worldOf v facts ⊆ (s.rel i).knownIn v
  rules : s.num ≠ 0 → ∀ u ∈ p.updates, u.2.sem unitProv (fun j => inWorld v (p.input j)) (fun i => worldOfB v (s.rel i).stable) ⊆ (s.rel u.1).knownIn v

omit [LinearOrder W] in
theorem insertBatches_world_sound {α : Type*} [LinearOrder α] {c : Prov T W} (h : c.AddSoundAt v) (ed : Bool) (r : Relation α T)
    (bs : List (List (Elem α T))) : worldOfB v (r.insertBatches c ed bs).toAdd ⊆ worldOfB v r.toAdd ∪ worldOfB v bs := by
  rintro x ⟨b, hb, hx⟩
  rcases List.mem_append.mp hb with h' | h'
  · exact Or.inl ⟨b, h', hx⟩
  · obtain ⟨d, hd, rfl⟩ := List.mem_map.mp h'
    refine Or.inr ⟨d, hd, ?_⟩
    have := fromVec_sound h _ hx
    split at this
    · exact worldOf_mono (fun e he => (List.mem_filter.mp he).1) this
    · exact this

omit [LinearOrder W] in
theorem insertBatches_world_mono {α : Type*} [LinearOrder α] (c : Prov T W) (ed : Bool) (r : Relation α T)
    (bs : List (List (Elem α T))) : worldOfB v r.toAdd ⊆ worldOfB v (r.insertBatches c ed bs).toAdd := by
  rintro x ⟨b, hb, hx⟩
  exact ⟨b, List.mem_append_left _ hb, hx⟩

omit [LinearOrder W] in
theorem insertBatches_world_exact {α : Type*} [LinearOrder α] {c : Prov T W} (h : c.ExactAt P v) (ed : Bool)
    (hd : ed = true → ∀ t, c.discard t = true → ¬ v t) (r : Relation α T) (bs : List (List (Elem α T))) (hP : ∀ b ∈ bs, AllTags P b) :
    worldOfB v bs ⊆ worldOfB v (r.insertBatches c ed bs).toAdd := by
  rintro x ⟨b, hb, hx⟩
  refine ⟨_, List.mem_append_right _ (List.mem_map.mpr ⟨b, hb, rfl⟩), fromVec_exact h _ ?_ ?_⟩
  · split
    · exact fun e he => hP b hb e (List.mem_filter.mp he).1
    · exact hP b hb
  split
  · rename_i he
    obtain ⟨e, hem, rfl, hv⟩ := hx
    refine ⟨e, List.mem_filter.mpr ⟨hem, ?_⟩, rfl, hv⟩
    cases hdt : c.discard e.tag with
    | false => rfl
    | true => exact absurd hv (hd he _ hdt)
  · exact hx

theorem init_world (c : Prov T W) (hc : c.SoundAt v) (p : Stratum V T ι κ) :
    WInv v p (p.init c) ∧ (∀ P, c.ExactAt P v → p.keepsIn v c → (∀ i facts, p.edb i = some facts → AllTags P facts) →
      (∀ i, ((p.init c).rel i).TagsIn P) ∧ WInvC v p (p.init c)) := by
  have hk : ∀ (v : T → Prop) (facts : List (Elem (Tup V) T)), (Relation.new.insertBatches c p.earlyDiscard [facts]).knownIn v =
      worldOfB v (Relation.new.insertBatches c p.earlyDiscard [facts]).toAdd := by
    intro v facts
    ext x; simp [Relation.knownIn, Relation.visibleIn, Relation.insertBatches, Relation.new, worldOfB, worldOf]
  have hone : ∀ (v : T → Prop) (facts : List (Elem (Tup V) T)), worldOfB v [facts] = worldOf v facts := by
    intro v facts; ext x; simp [worldOfB]
  refine ⟨?_, ?_⟩
  · intro i
    simp only [Stratum.init]
    split
    · rename_i facts hf
      rw [hk]
      refine (insertBatches_world_sound hc.add _ _ _).trans ?_
      rw [hone]
      rintro x (⟨b, hb, _⟩ | h)
      · simp [Relation.new] at hb
      · refine (lfp_closed unitProv (p.inWorld v)).1 i (inWorld v facts) ?_ (by rw [tuples_inWorld]; exact h)
        simp [Stratum.inWorld, hf]
    · intro x hx
      simp [Relation.knownIn, Relation.visibleIn, Relation.new, worldOfB, worldOf] at hx
  · intro P he hkeep hP
    refine ⟨?_, ?_, fun h => absurd rfl h⟩
    · intro i
      unfold Relation.TagsIn
      simp only [Stratum.init]
      split
      · rename_i facts hf
        rw [hk]
        refine (insertBatches_world_sound he.notIn _ _ _).trans ?_
        rw [hone]
        rintro x (⟨b, hb, _⟩ | h)
        · simp [Relation.new] at hb
        · exact allTags_iff.mp (hP i facts hf) h
      · intro x hx
        simp [Relation.knownIn, Relation.visibleIn, Relation.new, worldOfB, worldOf] at hx
    · intro i facts hf
      simp only [Stratum.init, hf]
      rw [hk, ← hone]
      exact insertBatches_world_exact he _ hkeep _ _ (by intro b hb; rw [List.mem_singleton.mp hb]; exact hP i facts hf)

section step
variable [Fintype ι] [DecidableEq ι]

/-- What makes the next step of a relation keep everything that is true. -/
def StepOk (v : T → Prop) (c : Prov T W) (rel : ι → Relation (Tup V) T) : Prop :=
  (c.ExactAt (fun _ => True) v ∧ c.LinearAt v) ∨ ∀ i, DisjointB ((rel i).recent :: (rel i).stable) ∧ (rel i).noGallop c

theorem changedAll_world (c : Prov T W) (hc : c.AddSoundAt v) (p : Stratum V T ι κ) (hp : ∀ i, p.sched i = .lfp) {rel rel' : ι → Relation (Tup V) T} {b : Bool}
    (hw : ∀ i, (rel i).Wf) (hwl : ∀ i, (rel i).waitlist = []) (h : changedAll c p.sched rel = some (rel', b)) (i : ι) :
    (rel' i).knownIn v ⊆ (rel i).knownIn v ∧
      (∀ P, c.ExactAt P v → (rel i).TagsIn P → worldOfB v (rel' i).stable ⊆ (rel i).visibleIn v ∧ (StepOk v c rel → (rel i).knownIn v ⊆ (rel' i).knownIn v)) := by
  obtain ⟨b', hb⟩ := changedAll_eq h i
  rw [hp i] at hb
  obtain ⟨r', e, _, h1, h2⟩ := changed_world hc (hw i) (hwl i)
  rw [hb] at e
  obtain ⟨rfl, -⟩ := Prod.mk.inj (Option.some.inj e)
  refine ⟨h1, fun P he hP => ⟨(h2 P he hP).1, fun hs => (h2 P he hP).2 ?_⟩⟩
  rcases hs with hl | hs
  · exact .inl hl
  · exact .inr ⟨(hs i).1, (hs i).2⟩

theorem needToIterate_changed {c : Prov T W} {p : Stratum V T ι κ} {s s' : IterState V T ι} {b : Bool} (h : needToIterate c p s = some (s', b)) :
    ∃ rel b', changedAll c p.sched s.rel = some (rel, b') ∧ s'.num = s.num ∧
      (s'.rel = rel ∨ (b = false ∧ (p.iterLimit ≠ none ∨ p.stopAtGoal = true) ∧ ∃ b'', changedAll c p.sched rel = some (s'.rel, b''))) := by
  unfold needToIterate at h
  cases hc : changedAll c p.sched s.rel with
  | none => rw [hc] at h; cases h
  | some q =>
    obtain ⟨rel, b1⟩ := q
    rw [hc] at h
    simp only at h
    refine ⟨rel, b1, rfl, ?_⟩
    split at h
    · split at h
      · rename_i hl
        rw [Option.map_eq_some_iff] at h
        obtain ⟨r, hr, hrs⟩ := h
        cases hrs
        refine ⟨rfl, .inr ⟨rfl, .inl ?_, r.2, hr⟩⟩
        intro h0; rw [h0] at hl; simp at hl
      · split at h
        · rename_i hg
          rw [Option.map_eq_some_iff] at h
          obtain ⟨r, hr, hrs⟩ := h
          cases hrs
          rw [Bool.and_eq_true] at hg
          exact ⟨rfl, .inr ⟨rfl, .inr hg.1, r.2, hr⟩⟩
        · cases h; exact ⟨rfl, .inl rfl⟩
    · split at h
      · cases h; exact ⟨rfl, .inl rfl⟩
      · cases h; exact ⟨rfl, .inl rfl⟩

/-- One update. -/
theorem applyUpdate_world (c : Prov T W) (hc : c.SoundAt v) (p : Stratum V T ι κ) (hok : p.Ok c) (hp : p.Plain) {s : IterState V T ι}
    (hm : Mid c p s) (hws : WInv v p s) {rel rel' : ι → Relation (Tup V) T} (hg : ∀ i, Grown (s.rel i) (rel i)) (hwf : ∀ i, (rel i).Wf)
    (hsd : ∀ i, (rel i).knownIn v ⊆ (p.inWorld v).lfp unitProv i) (hmono : ∀ i, (s.rel i).knownIn v ⊆ (rel i).knownIn v)
    {u : ι × DF V ι κ} (hu : u ∈ p.updates) (hneg : c.NegSoundAt v ∨ u.2.noMinus) (h : applyUpdate c p (s.num == 0) rel u = some rel') :
    (∀ i, (rel' i).knownIn v ⊆ (p.inWorld v).lfp unitProv i) ∧ (∀ i, (rel i).knownIn v ⊆ (rel' i).knownIn v) ∧
    (∀ P, c.ExactAt P v → (c.NegExactAt P v ∨ u.2.noMinus) → p.keepsIn v c → u.2.readsOnly (fun j => AllTags P (p.input j)) → (∀ i, (rel i).TagsIn P) →
      (∀ i, (rel' i).TagsIn P) ∧ (WMidC v p s →
      u.2.sem unitProv (fun j => inWorld v (p.input j)) (fun i => (s.rel i).visibleIn v) ⊆ (rel' u.1).knownIn v)) := by
  unfold applyUpdate at h
  rw [Option.map_eq_some_iff] at h
  obtain ⟨R, hR, rfl⟩ := h
  have henv : (⟨rel, p.input, s.num == 0⟩ : Env V T ι κ).Wf := by
    refine ⟨hwf, hok.input, ?_⟩
    intro hf i
    rw [(hg i).stable]
    exact hm.stable0 (by simpa using hf) i
  have hv : (fun i => (rel i).visibleIn v) = fun i => (s.rel i).visibleIn v := by
    funext i; unfold Relation.visibleIn; rw [(hg i).stable, (hg i).recent]
  have hst : (fun i => worldOfB v (rel i).stable) = fun i => worldOfB v (s.rel i).stable := by funext i; rw [(hg i).stable]
  have h1 := recent_world_sound c hc henv (hok.sorted u hu) (hok.stratified u hu) (hp.tags u hu) (hp.sharp u hu) hneg hR
  simp only [hv] at h1
  have hflat : worldOfB v (R.map Batch.elems) = worldOf v (elemsOf R) := by
    rw [← worldOfB_flatten]; unfold elemsOf; rw [List.flatMap_def]
  have hlfp : u.2.sem unitProv (fun j => inWorld v (p.input j)) (fun i => (s.rel i).visibleIn v) ⊆ (p.inWorld v).lfp unitProv u.1 := by
    refine (sem_mono unitProv _ (fun i => ?_) u.2).trans ((lfp_closed unitProv (p.inWorld v)).2 u hu)
    exact Set.subset_union_left.trans (hws i)
  have hkn : ((rel u.1).insertBatches c p.earlyDiscard (R.map Batch.elems)).knownIn v ⊆ (p.inWorld v).lfp unitProv u.1 := by
    rintro x (hx | hx)
    · exact hsd u.1 (Or.inl hx)
    · rcases insertBatches_world_sound hc.add _ _ _ hx with hx | hx
      · exact hsd u.1 (Or.inr hx)
      · rw [hflat] at hx; exact hlfp (h1 hx)
  have hgr : (rel u.1).knownIn v ⊆ ((rel u.1).insertBatches c p.earlyDiscard (R.map Batch.elems)).knownIn v :=
    Set.union_subset_union_right _ (insertBatches_world_mono c _ _ _)
  refine ⟨?_, ?_, ?_⟩
  · intro i
    by_cases hi : i = u.1
    · subst hi; rw [Function.update_self]; exact hkn
    · rw [Function.update_of_ne hi]; exact hsd i
  · intro i
    by_cases hi : i = u.1
    · subst hi; rw [Function.update_self]; exact hgr
    · rw [Function.update_of_ne hi]
  · intro P he hne hk hPi hPr
    have hPR : AllTags P (elemsOf R) := recent_allTags c he henv hPr hPi (hok.sorted u hu) (hok.stratified u hu) (hp.tags u hu) hne hR
    have hPb : ∀ b ∈ R.map Batch.elems, AllTags P b := by
      intro b hb e hbe
      obtain ⟨d, hd, rfl⟩ := List.mem_map.mp hb
      exact hPR e (List.mem_flatMap.mpr ⟨d, hd, hbe⟩)
    refine ⟨?_, fun hcm x hx => ?_⟩
    · intro i
      by_cases hi : i = u.1
      · subst hi
        rw [Function.update_self]
        rintro x (hx | hx)
        · exact hPr u.1 (Or.inl hx)
        · rcases insertBatches_world_sound he.notIn _ _ _ hx with hx | ⟨b, hb, hx⟩
          · exact hPr u.1 (Or.inr hx)
          · exact allTags_iff.mp (hPb b hb) hx
      · rw [Function.update_of_ne hi]; exact hPr i
    rw [Function.update_self]
    have h2 := recent_world_exact c he henv hPr hPi (hok.sorted u hu) (hok.stratified u hu) (hp.tags u hu) (hp.sharp u hu)
      (by rcases hneg with h | h
          · rcases hne with h' | h'
            · exact .inl ⟨h, h'⟩
            · exact .inr h'
          · exact .inr h) hR
    simp only [hv, hst] at h2
    rcases h2 hx with hx | hx
    · by_cases hn : s.num = 0
      · simp [hn] at hx
      · simp [hn] at hx
        exact hgr (hmono u.1 (hcm.rules hn u hu hx))
    · rw [← hflat] at hx
      exact Or.inr (insertBatches_world_exact he _ hk _ _ hPb hx)

theorem foldUpdates_world (c : Prov T W) (hc : c.SoundAt v) (p : Stratum V T ι κ) (hok : p.Ok c) (hp : p.Plain) {s : IterState V T ι}
    (hm : Mid c p s) (hws : WInv v p s) : ∀ (us : List (ι × DF V ι κ)), (∀ u ∈ us, u ∈ p.updates) → (∀ u ∈ us, c.NegSoundAt v ∨ u.2.noMinus) →
    ∀ (rel rel' : ι → Relation (Tup V) T), (∀ i, Grown (s.rel i) (rel i)) → (∀ i, (rel i).Wf) → (∀ i, (rel i).known ⊆ p.lfp c i) →
    (∀ i, (rel i).knownIn v ⊆ (p.inWorld v).lfp unitProv i) → (∀ i, (s.rel i).knownIn v ⊆ (rel i).knownIn v) →
    us.foldlM (applyUpdate c p (s.num == 0)) rel = some rel' →
    (∀ i, (rel' i).knownIn v ⊆ (p.inWorld v).lfp unitProv i) ∧ (∀ i, (rel i).knownIn v ⊆ (rel' i).knownIn v) ∧
    (∀ P, c.ExactAt P v → (∀ u ∈ us, c.NegExactAt P v ∨ u.2.noMinus) → p.keepsIn v c → (∀ u ∈ us, u.2.readsOnly (fun j => AllTags P (p.input j))) → (∀ i, (rel i).TagsIn P) →
      (∀ i, (rel' i).TagsIn P) ∧ (WMidC v p s →
      ∀ u ∈ us, u.2.sem unitProv (fun j => inWorld v (p.input j)) (fun i => (s.rel i).visibleIn v) ⊆ (rel' u.1).knownIn v)) := by
  intro us
  induction us with
  | nil =>
    intro _ _ rel rel' _ _ _ hsd _ h
    simp only [List.foldlM_nil, Option.pure_def, Option.some.injEq] at h
    subst h
    exact ⟨hsd, fun _ => subset_rfl, fun P _ _ _ _ hPr => ⟨hPr, by simp⟩⟩
  | cons u us ih =>
    intro hus hneg rel rel' hg hwf hsd0 hsd hmono h
    simp only [List.foldlM_cons, Option.bind_eq_bind, Option.bind_eq_some_iff] at h
    obtain ⟨rel1, h1, h⟩ := h
    obtain ⟨a1, a2, a3, _⟩ := applyUpdate_spec c p hok hm hg hwf hsd0 (hus u (by simp)) h1
    obtain ⟨d1, d2, d3⟩ := applyUpdate_world c hc p hok hp hm hws hg hwf hsd hmono (hus u (by simp)) (hneg u (by simp)) h1
    obtain ⟨b1, b2, b3⟩ := ih (fun w hw => hus w (by simp [hw])) (fun w hw => hneg w (by simp [hw])) rel1 rel' (fun i => (hg i).trans (a1 i)) a2 a3
      d1 (fun i => (hmono i).trans (d2 i)) h
    refine ⟨b1, fun i => (d2 i).trans (b2 i), ?_⟩
    intro P he hne hk hPi hPr
    obtain ⟨e1, e2⟩ := d3 P he (hne u (by simp)) hk (hPi u (by simp)) hPr
    obtain ⟨f1, f2⟩ := b3 P he (fun u hu => hne u (by simp [hu])) hk (fun u hu => hPi u (by simp [hu])) e1
    refine ⟨f1, fun hcm w hw => ?_⟩
    rcases List.mem_cons.mp hw with rfl | hw
    · exact (e2 hcm).trans (b2 w.1)
    · exact f2 hcm w hw

theorem iterBody_world (c : Prov T W) (hc : c.SoundAt v) (p : Stratum V T ι κ) (hok : p.Ok c) (hp : p.Plain)
    (hneg : ∀ u ∈ p.updates, c.NegSoundAt v ∨ u.2.noMinus) {s s' : IterState V T ι} (hm : Mid c p s) (hws : WInv v p s)
    (h : iterBody c p s = some s') :
    WInv v p s' ∧ (∀ P, c.ExactAt P v → (∀ u ∈ p.updates, c.NegExactAt P v ∨ u.2.noMinus) → p.keepsIn v c → p.InputsIn P →
      (∀ i, (s.rel i).TagsIn P) → WMidC v p s → (∀ i, (s'.rel i).TagsIn P) ∧ WInvC v p s') := by
  have hsp := (iterBody_spec c p hok hm h).2.2.1
  unfold iterBody at h
  rw [Option.map_eq_some_iff] at h
  obtain ⟨rel', h, rfl⟩ := h
  obtain ⟨h1, h2, h3⟩ := foldUpdates_world c hc p hok hp hm hws p.updates (fun _ h => h) hneg s.rel rel' (fun i => ⟨rfl, rfl, rfl, fun _ h => h⟩)
    hm.wf hm.sound hws (fun _ => subset_rfl) h
  refine ⟨h1, fun P he hne hk hPi hPr hcm => ?_⟩
  obtain ⟨g1, g2⟩ := h3 P he hne hk hPi hPr
  refine ⟨g1, ?_, ?_⟩
  · intro i facts hf; exact (hcm.edb i facts hf).trans (h2 i)
  · intro _ u hu
    have hv : (fun i => (rel' i).visibleIn v) = fun i => (s.rel i).visibleIn v := by
      funext i; unfold Relation.visibleIn; have := hsp i; rw [this.stable, this.recent]
    simp only [hv]
    exact g2 hcm u hu

/-- At a fixpoint the relations hold in the world what the world's rules define. -/
theorem mid_closed_world (p : Stratum V T ι κ) {s : IterState V T ι} (hws : WInv v p s) (hcm : WMidC v p s) (hta : ∀ i, (s.rel i).toAdd = [])
    (hr : ∀ i, (s.rel i).recent = []) (hn : s.num ≠ 0) (i : ι) : worldOfB v (s.rel i).stable = (p.inWorld v).lfp unitProv i := by
  have hk : ∀ i, (s.rel i).knownIn v = worldOfB v (s.rel i).stable := by
    intro i
    unfold Relation.knownIn Relation.visibleIn
    rw [hta i, hr i]; simp
  refine Set.Subset.antisymm ?_ ?_
  · rw [← hk]; exact hws i
  · refine lfp_least unitProv (p.inWorld v) (X := fun i => worldOfB v (s.rel i).stable) ⟨?_, ?_⟩ i
    · intro i facts hf
      simp only [Stratum.inWorld, Option.map_eq_some_iff] at hf
      obtain ⟨fs, hfs, rfl⟩ := hf
      simp only
      rw [tuples_inWorld, ← hk]
      exact hcm.edb i fs hfs
    · intro u hu
      have := hcm.rules hn u hu
      rwa [hk] at this

/-- Soundness in the world, for every way of stopping. -/
theorem runLoop_world_sound (c : Prov T W) (hc : c.SoundAt v) (p : Stratum V T ι κ) (hok : p.Ok c) (hp : p.Plain)
    (hneg : ∀ u ∈ p.updates, c.NegSoundAt v ∨ u.2.noMinus) : ∀ (fuel : Nat) (s s' : IterState V T ι), Inv c p s → WInv v p s →
    runLoop c p fuel s = .done s' → WInv v p s' := by
  have hprog : ∀ i, (p.sched i).progress := fun i => by rw [hp.lfp i]; trivial
  intro fuel
  induction fuel with
  | zero => intro s s' _ _ h; cases h
  | succ fuel ih =>
    intro s s' hi hws h
    obtain ⟨s1, b, he, hnum, hkn, ht, hf⟩ := needToIterate_spec c p hi
    obtain ⟨rel, b', hch, hnum', hcase⟩ := needToIterate_changed he
    obtain ⟨rel', hch', hm', _, _⟩ := changedAll_mid c p hi
    rw [hch] at hch'
    obtain ⟨rfl, -⟩ := Prod.mk.inj (Option.some.inj hch')
    have hw1 : ∀ i, (rel i).knownIn v ⊆ (p.inWorld v).lfp unitProv i := fun i =>
      (changedAll_world c hc.add p hp.lfp hi.wf (fun i => hi.wait hprog i (hp.lfp i)) hch i).1.trans (hws i)
    have hw2 : WInv v p s1 := by
      rcases hcase with rfl | ⟨_, _, b'', h2⟩
      · exact hw1
      · exact fun i => (changedAll_world c hc.add p hp.lfp hm'.wf (fun i => hm'.wait hprog i (Or.inl (hp.lfp i))) h2 i).1.trans (hw1 i)
    unfold runLoop at h
    rw [he] at h
    cases b with
    | false =>
      simp only [RunResult.done.injEq] at h
      subst h
      exact hw2
    | true =>
      obtain ⟨hm, hmc, hlim⟩ := ht rfl
      simp only at h
      cases hb : iterBody c p s1 with
      | none => rw [hb] at h; cases h
      | some s2 =>
        rw [hb] at h
        exact ih s2 s' (iterBody_spec c p hok hm hb).1 (iterBody_world c hc p hok hp hneg hm hw2 hb).1 h

/-- Exactness in the world, for runs to a fixpoint. -/
theorem runLoop_world_exact (c : Prov T W) (hc : c.ExactAt P v) (p : Stratum V T ι κ) (hok : p.Ok c) (hp : p.Plain) (hkeep : p.keepsIn v c)
    (hPi : p.InputsIn P)
    (hneg : ∀ u ∈ p.updates, (c.NegSoundAt v ∧ c.NegExactAt P v) ∨ u.2.noMinus) (hlim : p.iterLimit = none) (hgoal : p.stopAtGoal = false)
    (hq : (c.ExactAt (fun _ => True) v ∧ c.LinearAt v) ∨ ∀ s, p.Reached c s → ∀ i, (s.rel i).noGallop c) :
    ∀ (fuel : Nat) (s s' : IterState V T ι), p.Reached c s → WInv v p s → (∀ i, (s.rel i).TagsIn P) → WInvC v p s →
    (∀ i, (c.ExactAt (fun _ => True) v ∧ c.LinearAt v) ∨ DisjointB ((s.rel i).recent :: (s.rel i).stable)) →
    runLoop c p fuel s = .done s' → ∀ i, (s'.rel i).recent = [] ∧ (s'.rel i).TagsIn P ∧ worldOfB v (s'.rel i).stable = (p.inWorld v).lfp unitProv i := by
  have hprog : ∀ i, (p.sched i).progress := fun i => by rw [hp.lfp i]; trivial
  intro fuel
  induction fuel with
  | zero => intro s s' _ _ _ _ _ h; cases h
  | succ fuel ih =>
    intro s s' hreach hws hPs hcs hdis h
    have hi := reached_inv c p hok hreach
    obtain ⟨s1, b, he, hnum, hkn, ht, hf⟩ := needToIterate_spec c p hi
    obtain ⟨rel, b', hch, hnum', hcase⟩ := needToIterate_changed he
    have hrel : s1.rel = rel := by
      rcases hcase with h1 | ⟨_, h1 | h1, _⟩
      · exact h1
      · exact absurd hlim h1
      · rw [hgoal] at h1; cases h1
    subst hrel
    have hstep : StepOk v c s.rel := by
      rcases hq with hl | hq
      · exact .inl hl
      · by_cases hl : c.ExactAt (fun _ => True) v ∧ c.LinearAt v
        · exact .inl hl
        · exact .inr (fun i => ⟨(hdis i).resolve_left hl, hq s hreach i⟩)
    have hcw := changedAll_world c hc.add p hp.lfp hi.wf (fun i => hi.wait hprog i (hp.lfp i)) hch
    have hP1 : ∀ i, (s1.rel i).TagsIn P := fun i =>
      (changedAll_world c hc.notIn p hp.lfp hi.wf (fun i => hi.wait hprog i (hp.lfp i)) hch i).1.trans (hPs i)
    have hw1 : WInv v p s1 := fun i => (hcw i).1.trans (hws i)
    have hmid : WMidC v p s1 := by
      refine ⟨fun i facts hfs => (hcs.edb i facts hfs).trans (((hcw i).2 P hc (hPs i)).2 hstep), ?_⟩
      intro hn u hu
      refine (sem_mono unitProv _ (fun i => ((hcw i).2 P hc (hPs i)).1) u.2).trans ?_
      exact (hcs.rules (by rw [← hnum]; exact hn) u hu).trans (((hcw u.1).2 P hc (hPs u.1)).2 hstep)
    have hdis1 : ∀ i, (c.ExactAt (fun _ => True) v ∧ c.LinearAt v) ∨ DisjointB ((s1.rel i).recent :: (s1.rel i).stable) := by
      intro i
      rcases hstep with hl | hs
      · exact .inl hl
      · obtain ⟨b2, hb2⟩ := changedAll_eq hch i
        rw [hp.lfp i] at hb2
        exact .inr (changed_unique c (hi.wf i) (hs i).1 (hs i).2 hb2).1
    have hreach' := hreach
    unfold runLoop at h
    rw [he] at h
    cases b with
    | false =>
      simp only [RunResult.done.injEq] at h
      subst h
      obtain ⟨hfin, hstop⟩ := hf rfl
      cases hstop with
      | limit n hn _ => rw [hlim] at hn; cases hn
      | goal hg _ => rw [hgoal] at hg; cases hg
      | fixpoint hm hmc hr hn => exact fun i => ⟨hr i, hP1 i, mid_closed_world p hw1 hmid hfin.toAdd hr hn i⟩
    | true =>
      obtain ⟨hm, hmc, _⟩ := ht rfl
      simp only at h
      cases hb : iterBody c p s1 with
      | none => rw [hb] at h; cases h
      | some s2 =>
        rw [hb] at h
        have hsp := iterBody_spec c p hok hm hb
        have hbw := iterBody_world c hc.toSoundAt p hok hp (fun u hu => (hneg u hu).imp_left And.left) hm hw1 hb
        obtain ⟨q1, q2⟩ := hbw.2 P hc (fun u hu => (hneg u hu).imp_left And.right) hkeep hPi hP1 hmid
        refine ih s2 s' (.step hreach he hb) hbw.1 q1 q2 ?_ h
        intro i
        rw [(hsp.2.2.1 i).recent, (hsp.2.2.1 i).stable]
        exact hdis1 i

end step

end Scallop
