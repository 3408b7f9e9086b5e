import Verif.Proof.Statics3
import Verif.Proof.WorldIter

/-!
# Compiled programs in a world
-/

namespace Scallop.Statics

open Scallop

section rel
variable {α T W : Type*} [LinearOrder α] {v : T → Prop}

/-- A merge of the static runtime invents nothing. -/
theorem merge_world {c : Prov T W} (h : c.AddSoundAt v) {l m : List (Elem α T)} (hl : Sorted l) (hm : Sorted m) :
    worldOf v (merge c l m) ⊆ worldOf v l ∪ worldOf v m := by
  intro x hx
  rw [mem_worldOf] at hx
  obtain ⟨t, ht, hv⟩ := hx
  rw [(merge_spec c l m hl hm).2 x] at ht
  split at ht
  · exact Or.inl (mem_worldOf.mpr ⟨t, ht, hv⟩)
  · exact merge_sound h hl hm (mem_worldOf.mpr ⟨t, ht, hv⟩)

theorem foldl_merge_world {c : Prov T W} (h : c.AddSoundAt v) : ∀ (bs : List (List (Elem α T))) (b : List (Elem α T)), Sorted b → (∀ b ∈ bs, Sorted b) →
    worldOf v (bs.foldl (merge c) b) ⊆ worldOf v b ∪ worldOfB v bs := by
  intro bs
  induction bs with
  | nil => intro b _ _; simp
  | cons d bs ih =>
    intro b hb hs
    rw [List.foldl_cons, worldOfB_cons]
    have hd := hs d (by simp)
    refine (ih _ (merge_sorted c hb hd) (fun e he => hs e (List.mem_cons_of_mem _ he))).trans ?_
    rintro x (hx | hx)
    · rcases merge_world h hb hd hx with hx | hx
      · exact Or.inl hx
      · exact Or.inr (Or.inl hx)
    · exact Or.inr (Or.inr hx)

theorem mergeIntoStable_world {c : Prov T W} (h : c.AddSoundAt v) : ∀ (bs : List (List (Elem α T))) (rec : List (Elem α T)), Sorted rec →
    (∀ b ∈ bs, Sorted b) → worldOfB v (mergeIntoStable c rec bs) ⊆ worldOf v rec ∪ worldOfB v bs := by
  intro bs
  induction bs with
  | nil => intro rec _ _; simp [mergeIntoStable, worldOfB_cons]
  | cons b bs ih =>
    intro rec hr hs
    have hb := hs b (by simp)
    unfold mergeIntoStable
    split
    · refine (ih _ (merge_sorted c hr hb) (fun e he => hs e (List.mem_cons_of_mem _ he))).trans ?_
      rw [worldOfB_cons]
      rintro x (hx | hx)
      · rcases merge_world h hr hb hx with hx | hx
        · exact Or.inl hx
        · exact Or.inr (Or.inl hx)
      · exact Or.inr (Or.inr hx)
    · rw [worldOfB_cons]

/-- A step of a relation makes nothing true. -/
theorem changed_world {c : Prov T W} (h : c.AddSoundAt v) {r : Relation α T} (hw : r.Wf) : (changed c r).1.knownIn v ⊆ r.knownIn v := by
  have hst : worldOfB v (if r.recent.isEmpty then r.stable else (mergeIntoStable c r.recent r.stable.reverse).reverse) ⊆ r.visibleIn v := by
    unfold Relation.visibleIn
    split
    · exact Set.subset_union_left
    · rw [worldOfB_reverse]
      refine (mergeIntoStable_world h _ _ hw.recent (fun b hb => hw.stable b (List.mem_reverse.mp hb))).trans ?_
      rw [worldOfB_reverse, Set.union_comm]
  unfold changed
  simp only
  split
  · rintro x ((hx | hx) | hx)
    · exact Or.inl (hst hx)
    · simp at hx
    · simp at hx
  · rename_i b bs he
    have hs : ∀ d ∈ b :: bs, Sorted d := fun d hd => hw.toAdd d (List.mem_reverse.mp (he ▸ hd))
    have hta : worldOfB v r.toAdd = worldOf v b ∪ worldOfB v bs := by rw [← worldOfB_reverse, he, worldOfB_cons]
    have key : ∀ x, x ∈ worldOf v (bs.foldl (merge c) b) ∪ worldOfB v (if r.recent.isEmpty then r.stable else (mergeIntoStable c r.recent r.stable.reverse).reverse) →
        x ∈ r.knownIn v := by
      rintro x (hx | hx)
      · refine Or.inr ?_
        rw [hta]
        exact foldl_merge_world h bs b (hs b (by simp)) (fun d hd => hs d (List.mem_cons_of_mem _ hd)) hx
      · exact Or.inl (hst hx)
    rintro x ((hx | hx) | hx)
    · exact key x (scheduleLfp_sound h _ _ (Or.inr hx))
    · exact key x (scheduleLfp_sound h _ _ (Or.inl hx))
    · simp at hx

end rel

variable {V T W ι κ : Type*} [LinearOrder V] [LinearOrder W] {v : T → Prop}

theorem init_world {c : Prov T W} (h : c.AddSoundAt v) (p : Stratum V T ι κ) : WInv v p.interp (p.init c) := by
  intro i x hx
  have : x ∈ worldOfB v (p.facts i) := by
    rcases hx with (hx | hx) | hx
    · simp [Stratum.init, Relation.insertBatches, Relation.new] at hx
    · simp [Stratum.init, Relation.insertBatches, Relation.new] at hx
    · rcases insertBatches_world_sound h false _ _ hx with hx | hx
      · simp [Relation.new] at hx
      · exact hx
  refine (lfp_closed unitProv (p.interp.inWorld v)).1 i (inWorld v (p.facts i).flatten) (by simp [Scallop.Stratum.inWorld, Stratum.interp]) ?_
  rw [tuples_inWorld]
  obtain ⟨b, hb, e, he, h1, h2⟩ := this
  exact ⟨e, List.mem_flatten.mpr ⟨b, hb, he⟩, h1, h2⟩

omit [LinearOrder V] in
theorem Same.world {R' R : List (Batch V T)} (h : Same R' R) : worldOfB v (R'.map Batch.elems) = worldOfB v (R.map Batch.elems) := by
  ext x
  constructor
  · rintro ⟨b, hb, hx⟩; exact ⟨b, h.subset hb, hx⟩
  · rintro ⟨b, hb, hx⟩; exact ⟨b, h.symm.subset hb, hx⟩

section step
variable [Fintype ι] [DecidableEq ι]

theorem applyUpdate_world (c : Prov T W) (hc : c.SoundAt v) (p : Stratum V T ι κ) (hok : p.interp.Ok c) (hp : p.interp.Plain) {s : IterState V T ι}
    (hm : Mid c p.interp s) (hws : WInv v p.interp s) {rel rel' : ι → Relation (Tup V) T} (hg : ∀ i, Grown (s.rel i) (rel i)) (hwf : ∀ i, (rel i).Wf)
    (hsd : ∀ i, (rel i).knownIn v ⊆ (p.interp.inWorld v).lfp unitProv i)
    {u : ι × DF V ι κ} (hu : u ∈ p.updates) (hneg : c.NegSoundAt v ∨ u.2.noMinus) (h : applyUpdate c p (s.num == 0) rel u = some rel') :
    ∀ i, (rel' i).knownIn v ⊆ (p.interp.inWorld v).lfp unitProv i := by
  have henv : (⟨rel, p.input, s.num == 0⟩ : Env V T ι κ).Wf := by
    refine ⟨hwf, hok.input, ?_⟩
    intro hf i
    rw [(hg i).stable]
    exact hm.stable0 (by simpa using hf) i
  obtain ⟨R, R', hR, hsame, rfl⟩ := applyUpdate_corr c p henv (hok.sorted u hu) (hok.stratified u hu) h
  have hv : (fun i => (rel i).visibleIn v) = fun i => (s.rel i).visibleIn v := by
    funext i; unfold Relation.visibleIn; rw [(hg i).stable, (hg i).recent]
  have h1 := recent_world_sound c hc henv (hok.sorted u hu) (hok.stratified u hu) (hp.tags u hu) (hp.sharp u hu) hneg hR
  simp only [hv] at h1
  have hflat : worldOfB v (R.map Batch.elems) = worldOf v (elemsOf R) := by
    rw [← worldOfB_flatten]; unfold elemsOf; rw [List.flatMap_def]
  have hlfp : u.2.sem unitProv (fun j => inWorld v (p.input j)) (fun i => (s.rel i).visibleIn v) ⊆ (p.interp.inWorld v).lfp unitProv u.1 := by
    refine (sem_mono unitProv _ (fun i => ?_) u.2).trans ((lfp_closed unitProv (p.interp.inWorld v)).2 u hu)
    exact Set.subset_union_left.trans (hws i)
  intro i
  by_cases hi : i = u.1
  · subst hi
    rw [Function.update_self]
    rintro x (hx | hx)
    · exact hsd u.1 (Or.inl hx)
    · rcases insertBatches_world_sound hc.add _ _ _ hx with hx | hx
      · exact hsd u.1 (Or.inr hx)
      · rw [hsame.world, hflat] at hx; exact hlfp (h1 hx)
  · rw [Function.update_of_ne hi]; exact hsd i

theorem foldUpdates_world (c : Prov T W) (hc : c.SoundAt v) (p : Stratum V T ι κ) (hok : p.interp.Ok c) (hp : p.interp.Plain) {s : IterState V T ι}
    (hm : Mid c p.interp s) (hws : WInv v p.interp s) : ∀ (us : List (ι × DF V ι κ)), (∀ u ∈ us, u ∈ p.updates) → (∀ u ∈ us, c.NegSoundAt v ∨ u.2.noMinus) →
    ∀ (rel rel' : ι → Relation (Tup V) T), (∀ i, Grown (s.rel i) (rel i)) → (∀ i, (rel i).Wf) → (∀ i, (rel i).known ⊆ p.interp.lfp c i) →
    (∀ i, (rel i).knownIn v ⊆ (p.interp.inWorld v).lfp unitProv i) → us.foldlM (applyUpdate c p (s.num == 0)) rel = some rel' →
    ∀ i, (rel' i).knownIn v ⊆ (p.interp.inWorld v).lfp unitProv i := by
  intro us
  induction us with
  | nil =>
    intro _ _ rel rel' _ _ _ hsd h
    simp only [List.foldlM_nil, Option.pure_def, Option.some.injEq] at h
    subst h
    exact hsd
  | cons u us ih =>
    intro hus hneg rel rel' hg hwf hsd0 hsd h
    simp only [List.foldlM_cons, Option.bind_eq_bind, Option.bind_eq_some_iff] at h
    obtain ⟨rel1, h1, h⟩ := h
    obtain ⟨a1, a2, a3, _⟩ := applyUpdate_spec c p hok hm hg hwf hsd0 (hus u (by simp)) h1
    have d1 := applyUpdate_world c hc p hok hp hm hws hg hwf hsd (hus u (by simp)) (hneg u (by simp)) h1
    exact ih (fun w hw => hus w (by simp [hw])) (fun w hw => hneg w (by simp [hw])) rel1 rel' (fun i => (hg i).trans (a1 i)) a2 a3 d1 h

theorem runLoop_world (c : Prov T W) (hc : c.SoundAt v) (p : Stratum V T ι κ) (hok : p.interp.Ok c) (hp : p.interp.Plain)
    (hneg : ∀ u ∈ p.updates, c.NegSoundAt v ∨ u.2.noMinus) : ∀ (fuel : Nat) (s s' : IterState V T ι), Inv c p.interp s → WInv v p.interp s →
    runLoop c p fuel s = .done s' → WInv v p.interp s' := by
  intro fuel
  induction fuel with
  | zero => intro s s' _ _ h; cases h
  | succ fuel ih =>
    intro s s' hi hws h
    obtain ⟨hx, hm, _⟩ := changedAll_mid c p hi
    have hw1 : WInv v p.interp ⟨s.num, (changedAll c s.rel).1⟩ := fun i => (changed_world hc.add (hi.wf i)).trans (hws i)
    simp only [runLoop] at h
    split at h
    · split at h
      · cases h
      · rename_i rel hrel
        obtain ⟨h1, h2, h3, _⟩ := foldUpdates_spec c p hok hm p.updates (fun _ h => h) _ rel (fun i => ⟨rfl, rfl, rfl, fun _ h => h⟩) hm.wf hm.sound hrel
        have hi' : Inv c p.interp ⟨s.num + 1, rel⟩ := by
          refine ⟨h2, h3, by simp, ?_⟩
          intro hp i hl
          simp only [(h1 i).waitlist]
          exact hm.wait hp i (Or.inl rfl)
        exact ih _ s' hi' (foldUpdates_world c hc p hok hp hm hw1 p.updates (fun _ h => h) hneg _ rel (fun i => ⟨rfl, rfl, rfl, fun _ h => h⟩) hm.wf hm.sound hw1 hrel) h
    · cases h; exact hw1

end step

end Scallop.Statics
