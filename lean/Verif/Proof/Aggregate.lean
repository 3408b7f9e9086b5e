import Verif.Model.Aggregate
import Verif.Spec.Aggregate
import Verif.Proof.Operators
import Mathlib.Data.List.Nodup
import Mathlib.Data.List.Sublists
import Mathlib.Tactic.Push

/-!
# Lemmas about aggregates: sets of facts and their tags
-/

namespace Scallop.Agg

variable {V T W Ω α β : Type*}

/-! ### Subsets -/

theorem mem_combinations {k : Nat} {l s : List α} : s ∈ combinations k l ↔ s.Sublist l ∧ s.length = k := by
  induction l generalizing k s with
  | nil =>
    cases k with
    | zero => simp [combinations]
    | succ k =>
      simp only [combinations, List.not_mem_nil, List.sublist_nil, false_iff]
      rintro ⟨rfl, h⟩; simp at h
  | cons a l ih =>
    cases k with
    | zero =>
      simp only [combinations, List.mem_singleton]
      constructor
      · rintro rfl; simp
      · rintro ⟨_, h⟩; exact List.length_eq_zero_iff.1 h
    | succ k =>
      simp only [combinations, List.mem_append, List.mem_map, ih]
      constructor
      · rintro (⟨s', ⟨h1, h2⟩, rfl⟩ | ⟨h1, h2⟩)
        · exact ⟨h1.cons₂ a, by simp [h2]⟩
        · exact ⟨h1.cons a, h2⟩
      · rintro ⟨h1, h2⟩
        cases h1 with
        | cons _ h => exact .inr ⟨h, h2⟩
        | cons_cons _ h => exact .inl ⟨_, ⟨h, by simpa using h2⟩, rfl⟩

theorem combinations_nodup {k : Nat} {l : List α} (h : l.Nodup) : (combinations k l).Nodup := by
  induction l generalizing k with
  | nil => cases k <;> simp [combinations]
  | cons a l ih =>
    cases k with
    | zero => simp [combinations]
    | succ k =>
      rw [List.nodup_cons] at h
      rw [combinations, List.nodup_append]
      refine ⟨(ih h.2).map (fun x y hxy => by simpa using hxy), ih h.2, ?_⟩
      rintro s hs t ht rfl
      obtain ⟨s', _, rfl⟩ := List.mem_map.1 hs
      exact h.1 ((mem_combinations.1 ht).1.subset (by simp))

theorem mem_powerset {n : Nat} {s : List Nat} : s ∈ powerset n ↔ s.Sublist (List.range n) := by
  simp only [powerset, List.mem_flatMap, List.mem_range, mem_combinations]
  constructor
  · rintro ⟨_, _, h, _⟩; exact h
  · intro h; exact ⟨s.length, by have := h.length_le; simp at this; omega, h, rfl⟩

theorem powerset_nodup (n : Nat) : (powerset n).Nodup := by
  rw [powerset, List.nodup_flatMap]
  refine ⟨fun k _ => combinations_nodup List.nodup_range, ?_⟩
  refine List.nodup_range.imp ?_
  intro a b hab s hs ht
  exact hab ((mem_combinations.1 hs).2.symm.trans (mem_combinations.1 ht).2)

/-- The set of positions with a property. -/
theorem sublist_eq_filter {n : Nat} {s : List Nat} (hs : s.Sublist (List.range n)) (p : Nat → Bool) :
    (∀ i < n, i ∈ s ↔ p i = true) ↔ s = (List.range n).filter p := by
  constructor
  · intro h
    have h2 : s.Sublist ((List.range n).filter p) := by
      have : s.filter p = s := List.filter_eq_self.2 (fun i hi => (h i (by simpa using hs.subset hi)).1 hi)
      rw [← this]; exact hs.filter p
    refine h2.eq_of_length_le ?_
    refine (List.nodup_range.filter p).subperm (fun i hi => ?_) |>.length_le
    simp only [List.mem_filter, List.mem_range] at hi
    exact (h i hi.1).2 hi.2
  · rintro rfl i hi
    simp [hi]

theorem filter_eq_singleton {l : List α} (hl : l.Nodup) {p : α → Bool} {a : α} (ha : a ∈ l) (h : ∀ x ∈ l, p x = true ↔ x = a) : l.filter p = [a] := by
  induction l with
  | nil => simp at ha
  | cons b l ih =>
    rw [List.nodup_cons] at hl
    rcases List.mem_cons.1 ha with rfl | ha'
    · rw [List.filter_cons_of_pos ((h _ (by simp)).2 rfl)]
      congr 1
      rw [List.filter_eq_nil_iff]
      intro x hx hp
      have := (h x (by simp [hx])).1 hp
      subst this; exact hl.1 hx
    · have hb : ¬ p b = true := fun hp => hl.1 ((h b (by simp)).1 hp ▸ ha')
      rw [List.filter_cons_of_neg hb]
      exact ih hl.2 ha' (fun x hx => h x (by simp [hx]))

/-! ### Tags of chosen sets -/

variable {c : Prov T W} {P : T → Prop} {holds : T → Ω → Prop}

theorem worldStep_none (s : List Nat) (L : List (Elem α T × Nat)) : L.foldl (worldStep c s) none = none := by
  induction L with
  | nil => rfl
  | cons p L ih => simpa [worldStep] using ih

theorem worldFold_sound (h : c.SoundIn P holds) (s : List Nat) (L : List (Elem α T × Nat)) (hL : ∀ p ∈ L, P p.1.tag) {a t : T} (ha : P a)
    (hf : L.foldl (worldStep c s) (some a) = some t) :
    P t ∧ ∀ w, holds t w → holds a w ∧ ∀ p ∈ L, (p.2 ∈ s ↔ holds p.1.tag w) := by
  induction L generalizing a with
  | nil =>
    obtain rfl := Option.some.inj hf
    exact ⟨ha, fun w hw => ⟨hw, by simp⟩⟩
  | cons p L ih =>
    have hp := hL p (by simp)
    rw [List.foldl_cons, worldStep, Option.bind_some] at hf
    by_cases hs : s.contains p.2 = true
    · rw [if_pos hs] at hf
      obtain ⟨h1, h2⟩ := ih (fun q hq => hL q (by simp [hq])) (h.mult_mem ha hp) hf
      refine ⟨h1, fun w hw => ?_⟩
      obtain ⟨h3, h4⟩ := h2 w hw
      obtain ⟨h5, h6⟩ := h.mult ha hp h3
      refine ⟨h5, fun q hq => ?_⟩
      rcases List.mem_cons.1 hq with rfl | hq
      · simp only [List.contains_eq_mem, decide_eq_true_eq] at hs
        simp [hs, h6]
      · exact h4 q hq
    · rw [if_neg hs] at hf
      cases hn : c.negate p.1.tag with
      | none => rw [hn, Option.map_none, worldStep_none] at hf; cases hf
      | some n =>
        rw [hn, Option.map_some] at hf
        have hnm := h.negate_mem hp hn
        obtain ⟨h1, h2⟩ := ih (fun q hq => hL q (by simp [hq])) (h.mult_mem ha hnm) hf
        refine ⟨h1, fun w hw => ?_⟩
        obtain ⟨h3, h4⟩ := h2 w hw
        obtain ⟨h5, h6⟩ := h.mult ha hnm h3
        refine ⟨h5, fun q hq => ?_⟩
        rcases List.mem_cons.1 hq with rfl | hq
        · simp only [List.contains_eq_mem, decide_eq_true_eq] at hs
          exact iff_of_false hs (h.negate hp hn h6)
        · exact h4 q hq

theorem worldFold_exact (h : c.ExactIn P holds) (s : List Nat) (L : List (Elem α T × Nat)) (hL : ∀ p ∈ L, P p.1.tag) {a : T} (ha : P a) :
    ∃ t, L.foldl (worldStep c s) (some a) = some t ∧
      ∀ w, holds a w → (∀ p ∈ L, (p.2 ∈ s ↔ holds p.1.tag w)) → holds t w := by
  induction L generalizing a with
  | nil => exact ⟨a, rfl, fun w hw _ => hw⟩
  | cons p L ih =>
    have hp := hL p (by simp)
    rw [List.foldl_cons, worldStep, Option.bind_some]
    by_cases hs : s.contains p.2 = true
    · rw [if_pos hs]
      obtain ⟨t, h1, h2⟩ := ih (fun q hq => hL q (by simp [hq])) (h.mult_mem ha hp)
      refine ⟨t, h1, fun w hw hall => h2 w (h.mult' ha hp hw ?_) (fun q hq => hall q (by simp [hq]))⟩
      exact (hall p (by simp)).1 (by simpa using hs)
    · rw [if_neg hs]
      obtain ⟨n, hn⟩ := h.negate_total hp
      rw [hn, Option.map_some]
      have hnm := h.negate_mem hp hn
      obtain ⟨t, h1, h2⟩ := ih (fun q hq => hL q (by simp [hq])) (h.mult_mem ha hnm)
      refine ⟨t, h1, fun w hw hall => h2 w (h.mult' ha hnm hw (h.negate' hp hn ?_)) (fun q hq => hall q (by simp [hq]))⟩
      exact fun hh => hs (by simpa using (hall p (by simp)).2 hh)

open Classical in
/-- The positions of the elements true in a world. -/
noncomputable def worldSet (holds : T → Ω → Prop) (w : Ω) (batch : List (Elem α T)) : List Nat :=
  (List.range batch.length).filter (fun i => decide (∃ e, batch[i]? = some e ∧ holds e.tag w))

theorem worldSet_mem (w : Ω) (batch : List (Elem α T)) : worldSet holds w batch ∈ powerset batch.length :=
  mem_powerset.2 List.filter_sublist

theorem agree_iff (w : Ω) (batch : List (Elem α T)) {s : List Nat} (hs : s ∈ powerset batch.length) :
    (∀ p ∈ batch.zipIdx, (p.2 ∈ s ↔ holds p.1.tag w)) ↔ s = worldSet holds w batch := by
  classical
  rw [worldSet, ← sublist_eq_filter (mem_powerset.1 hs)]
  constructor
  · intro h i hi
    have := h (batch[i], i) (by rw [List.mk_mem_zipIdx_iff_getElem?]; exact List.getElem?_eq_getElem hi)
    simp only at this
    simp [this, hi]
  · rintro h ⟨e, i⟩ hp
    rw [List.mk_mem_zipIdx_iff_getElem?] at hp
    have := h i (List.getElem?_eq_some_iff.1 hp).1
    rw [this]
    simp [hp]

theorem chosen_append (l : List (Elem α T)) (e : Elem α T) (s : List Nat) (hs : ∀ i ∈ s, i < l.length) :
    chosenTuples (l ++ [e]) s = chosenTuples l s := by
  unfold chosenTuples
  induction s with
  | nil => rfl
  | cons i s ih =>
    rw [List.mapM_cons, List.mapM_cons, ih (fun j hj => hs j (by simp [hj])), List.getElem?_append_left (hs i (by simp))]

theorem chosen_worldSet (w : Ω) (batch : List (Elem α T)) : chosenTuples batch (worldSet holds w batch) = some (trueIn holds w batch) := by
  classical
  induction batch using List.reverseRecOn with
  | nil => rfl
  | append_singleton l e ih =>
    have hset : worldSet holds w (l ++ [e]) = worldSet holds w l ++ (if holds e.tag w then [l.length] else []) := by
      simp only [worldSet, List.length_append, List.length_cons, List.length_nil, List.range_succ, List.filter_append]
      congr 1
      · refine List.filter_congr (fun i hi => ?_)
        rw [List.getElem?_append_left (by simpa using hi)]
      · simp [List.filter_cons]
    have htrue : trueIn holds w (l ++ [e]) = trueIn holds w l ++ (if holds e.tag w then [e.tuple] else []) := by
      simp only [trueIn, List.filter_append, List.map_append]
      congr 1
      by_cases hh : holds e.tag w <;> simp [hh]
    have hlt : ∀ i ∈ worldSet holds w l, i < l.length := fun i hi => by
      have := (List.mem_filter.1 hi).1; simpa using this
    rw [hset, htrue]
    unfold chosenTuples at *
    rw [List.mapM_append]
    have h1 := chosen_append l e _ hlt
    unfold chosenTuples at h1
    rw [h1, ih]
    by_cases hh : holds e.tag w <;> simp [hh]

theorem chosenTuples_some {batch : List (Elem α T)} {s : List Nat} (hs : s ∈ powerset batch.length) : ∃ ts, chosenTuples batch s = some ts := by
  have hlt : ∀ i ∈ s, i < batch.length := fun i hi => by simpa using (mem_powerset.1 hs).subset hi
  unfold chosenTuples
  clear hs
  induction s with
  | nil => exact ⟨[], rfl⟩
  | cons i s ih =>
    obtain ⟨ts, h⟩ := ih (fun j hj => hlt j (by simp [hj]))
    exact ⟨_, by rw [List.mapM_cons, h, List.getElem?_eq_getElem (hlt i (by simp))]; rfl⟩

theorem worldTag_sound (h : c.SoundIn P holds) {batch : List (Elem α T)} (hb : ∀ e ∈ batch, P e.tag) {s : List Nat}
    (hs : s ∈ powerset batch.length) {t : T} (ht : worldTag c batch s = some t) :
    P t ∧ ∀ w, holds t w → s = worldSet holds w batch := by
  have hb' : ∀ p ∈ batch.zipIdx, P p.1.tag := fun p hp => hb p.1 (by
    have := List.mem_map_of_mem (f := Prod.fst) hp; rwa [List.zipIdx_map_fst] at this)
  obtain ⟨h1, h2⟩ := worldFold_sound h s _ hb' h.one_mem ht
  exact ⟨h1, fun w hw => (agree_iff w batch hs).1 (h2 w hw).2⟩

theorem worldTag_exact (h : c.ExactIn P holds) {batch : List (Elem α T)} (hb : ∀ e ∈ batch, P e.tag) {s : List Nat}
    (hs : s ∈ powerset batch.length) :
    ∃ t, worldTag c batch s = some t ∧ ∀ w, holds t w ↔ s = worldSet holds w batch := by
  have hb' : ∀ p ∈ batch.zipIdx, P p.1.tag := fun p hp => hb p.1 (by
    have := List.mem_map_of_mem (f := Prod.fst) hp; rwa [List.zipIdx_map_fst] at this)
  obtain ⟨t, h1, h2⟩ := worldFold_exact h s _ hb' h.one_mem
  exact ⟨t, h1, fun w => ⟨(worldTag_sound h.toSoundIn hb hs h1).2 w, fun he => h2 w (h.one w) ((agree_iff w batch hs).2 he)⟩⟩

/-! ### All chosen sets -/

theorem trueIn_filterMap {σ : Type*} {l : List σ} (hl : l.Nodup) {g : σ → Option (Elem β T)} {w : Ω} {a : σ} (ha : a ∈ l) {e : Elem β T}
    (hg : g a = some e) (h : ∀ s ∈ l, ∀ e, g s = some e → (holds e.tag w ↔ s = a)) : trueIn holds w (l.filterMap g) = [e.tuple] := by
  classical
  have key : ∀ m : List σ, m.Sublist l → trueIn holds w (m.filterMap g) = if a ∈ m then [e.tuple] else [] := by
    intro m hm
    induction m with
    | nil => simp [trueIn]
    | cons s m ih =>
      have hnd := hm.nodup hl
      rw [List.nodup_cons] at hnd
      have ih := ih ((List.sublist_cons_self s m).trans hm)
      have hs : s ∈ l := hm.subset (by simp)
      by_cases hsa : s = a
      · subst hsa
        rw [if_neg hnd.1] at ih
        rw [List.filterMap_cons, hg]
        simp only [trueIn] at ih ⊢
        rw [List.filter_cons_of_pos (by simpa using (h s hs e hg).2 rfl), List.map_cons, ih]
        simp
      · have hmem : (if a ∈ s :: m then [e.tuple] else []) = if a ∈ m then [e.tuple] else [] := by simp [Ne.symm hsa]
        rw [hmem]
        cases hgs : g s with
        | none => rw [List.filterMap_cons, hgs]; exact ih
        | some e' =>
          rw [List.filterMap_cons, hgs]
          simp only [trueIn] at ih ⊢
          rw [List.filter_cons_of_neg (by simpa using fun hh => hsa ((h s hs e' hgs).1 hh)), ih]
  rw [key l (List.Sublist.refl l), if_pos ha]

theorem multiWorld_eq {f : List α → Option β} {batch : List (Elem α T)} {res : List (Elem β T)} (hr : multiWorld c f batch = some res) :
    res = (powerset batch.length).filterMap (fun s => (worldResult c f batch s).join) ∧
    ∀ s ∈ powerset batch.length, ∃ o, worldResult c f batch s = some o := by
  unfold multiWorld at hr
  obtain ⟨rs, hrs, rfl⟩ := Option.map_eq_some_iff.1 hr
  refine ⟨?_, ?_⟩
  · rw [mapM_eq_filterMap hrs, List.filterMap_filterMap]
    congr 1
  · intro s hs
    rw [List.mem_iff_append] at hs
    obtain ⟨l1, l2, he⟩ := hs
    rw [he, List.mapM_append] at hrs
    simp only [Option.bind_eq_bind, Option.bind_eq_some_iff, List.mapM_cons] at hrs
    obtain ⟨_, _, _, ⟨o, ho, _⟩, _⟩ := hrs
    exact ⟨o, ho⟩

theorem worldResult_some {f : List α → Option β} {batch : List (Elem α T)} {s : List Nat} {e : Elem β T}
    (h : worldResult c f batch s = some (some e)) :
    ∃ ts, chosenTuples batch s = some ts ∧ f ts = some e.tuple ∧ worldTag c batch s = some e.tag := by
  unfold worldResult at h
  obtain ⟨v, hv, h⟩ := Option.map_eq_some_iff.1 h
  obtain ⟨ts, hts, hf⟩ := Option.bind_eq_some_iff.1 hv
  obtain ⟨t, ht, rfl⟩ := Option.map_eq_some_iff.1 h
  exact ⟨ts, hts, hf, ht⟩

theorem multiWorld_sound (h : c.SoundIn P holds) {f : List α → Option β} {batch : List (Elem α T)} (hb : ∀ e ∈ batch, P e.tag)
    {res : List (Elem β T)} (hr : multiWorld c f batch = some res) (w : Ω) (e : Elem β T) (he : e ∈ res) (hw : holds e.tag w) :
    f (trueIn holds w batch) = some e.tuple := by
  obtain ⟨rfl, -⟩ := multiWorld_eq hr
  obtain ⟨s, hs, hse⟩ := List.mem_filterMap.1 he
  rw [Option.join_eq_some_iff] at hse
  obtain ⟨ts, hts, hf, ht⟩ := worldResult_some hse
  rw [(worldTag_sound h hb hs ht).2 w hw, chosen_worldSet] at hts
  obtain rfl := Option.some.inj hts
  exact hf

theorem multiWorld_exact (h : c.ExactIn P holds) {f : List α → Option β} {batch : List (Elem α T)} (hb : ∀ e ∈ batch, P e.tag)
    {res : List (Elem β T)} (hr : multiWorld c f batch = some res) (w : Ω) :
    ∃ v, f (trueIn holds w batch) = some v ∧ trueIn holds w res = [v] := by
  obtain ⟨rfl, htot⟩ := multiWorld_eq hr
  obtain ⟨t, ht, hti⟩ := worldTag_exact h hb (worldSet_mem (holds := holds) w batch)
  obtain ⟨o, ho⟩ := htot _ (worldSet_mem (holds := holds) w batch)
  have ho' := ho
  unfold worldResult at ho'
  rw [chosen_worldSet, Option.bind_some, ht] at ho'
  obtain ⟨v, hv, rfl⟩ := Option.map_eq_some_iff.1 ho'
  refine ⟨v, hv, ?_⟩
  refine trueIn_filterMap (powerset_nodup _) (worldSet_mem (holds := holds) w batch) (e := ⟨v, t⟩) (by rw [ho]; rfl) ?_
  intro s hs e he
  rw [Option.join_eq_some_iff] at he
  obtain ⟨ts, -, -, ht'⟩ := worldResult_some he
  obtain ⟨t'', ht2, hti2⟩ := worldTag_exact h hb hs
  rw [ht'] at ht2
  obtain rfl := Option.some.inj ht2
  exact hti2 w

/-- The loop panics only if the aggregate of some set of tuples does. -/
theorem multiWorld_some {f : List α → Option β} {batch : List (Elem α T)}
    (hf : ∀ ts, ts.Sublist (batch.map Elem.tuple) → ∃ v, f ts = some v) : ∃ res, multiWorld c f batch = some res := by
  unfold multiWorld
  obtain ⟨rs, hrs⟩ := mapM_isSome (f := worldResult c f batch) (l := powerset batch.length) (fun s hs => by
    obtain ⟨ts, hts⟩ := chosenTuples_some hs
    have hsub : ts.Sublist (batch.map Elem.tuple) := by
      unfold chosenTuples at hts
      rw [mapM_eq_filterMap hts]
      have h1 := (mem_powerset.1 hs).filterMap (fun i => (batch[i]?).map Elem.tuple)
      have h2 : (List.range batch.length).filterMap (fun i => (batch[i]?).map Elem.tuple) = batch.map Elem.tuple := by
        clear h1 hts hs hf
        induction batch using List.reverseRecOn with
        | nil => rfl
        | append_singleton l e ih =>
          rw [List.length_append, List.length_singleton, List.range_succ, List.filterMap_append, List.map_append, ← ih]
          congr 1
          · refine List.filterMap_congr (fun i hi => ?_)
            rw [List.getElem?_append_left (by simpa using hi)]
          · simp
      rwa [h2] at h1
    obtain ⟨v, hv⟩ := hf ts hsub
    exact ⟨_, by unfold worldResult; rw [hts, Option.bind_some, hv]; rfl⟩)
  exact ⟨_, by rw [hrs]; rfl⟩

theorem mapM_length {γ : Type*} {f : α → Option γ} : ∀ {l : List α} {r : List γ}, l.mapM f = some r → r.length = l.length := by
  intro l
  induction l with
  | nil => intro r h; simp at h; subst h; rfl
  | cons a l ih =>
    intro r h
    rw [List.mapM_cons] at h
    cases ha : f a with
    | none => simp [ha] at h
    | some b =>
      cases hl : l.mapM f with
      | none => simp [ha, hl] at h
      | some bs => simp [ha, hl] at h; rw [← h, List.length_cons, List.length_cons, ih hl]

/-! ### count -/

theorem length_worldSet (w : Ω) (batch : List (Elem α T)) : (worldSet holds w batch).length = (trueIn holds w batch).length := by
  have h := chosen_worldSet (holds := holds) w batch
  unfold chosenTuples at h
  exact (mapM_length h).symm

theorem count_sound (h : c.SoundIn P holds) {batch : List (Elem α T)} (hb : ∀ e ∈ batch, P e.tag) (w : Ω) (e : Elem Nat T)
    (he : e ∈ count c false batch) (hw : holds e.tag w) : e.tuple = (trueIn holds w batch).length := by
  cases batch with
  | nil => simp [count] at he; subst he; rfl
  | cons b l =>
    simp only [count, Bool.false_eq_true, if_false, List.isEmpty_cons] at he
    obtain ⟨s, hs, hse⟩ := List.mem_filterMap.1 he
    unfold countResult at hse
    obtain ⟨t, ht, rfl⟩ := Option.map_eq_some_iff.1 hse
    rw [← length_worldSet, ← (worldTag_sound h hb hs ht).2 w hw]

theorem count_exact (h : c.ExactIn P holds) {batch : List (Elem α T)} (hb : ∀ e ∈ batch, P e.tag) (w : Ω) :
    trueIn holds w (count c false batch) = [(trueIn holds w batch).length] := by
  classical
  cases batch with
  | nil => simp [count, trueIn, h.one w]
  | cons b l =>
    simp only [count, Bool.false_eq_true, if_false, List.isEmpty_cons]
    obtain ⟨t, ht, hti⟩ := worldTag_exact h hb (worldSet_mem (holds := holds) w (b :: l))
    rw [← length_worldSet]
    refine trueIn_filterMap (powerset_nodup _) (worldSet_mem (holds := holds) w (b :: l)) (e := ⟨_, t⟩) (by rw [countResult, ht]; rfl) ?_
    intro s hs e he
    unfold countResult at he
    obtain ⟨t', ht', rfl⟩ := Option.map_eq_some_iff.1 he
    obtain ⟨t'', ht2, hti2⟩ := worldTag_exact h hb hs
    rw [ht'] at ht2
    obtain rfl := Option.some.inj ht2
    exact hti2 w

end Scallop.Agg
