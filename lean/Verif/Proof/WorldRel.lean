import Verif.Spec.Worlds
import Verif.Proof.Relation2
import Verif.Proof.Termination

/-!
# Relations in a world: nothing true is lost, and nothing becomes true
-/

namespace Scallop

variable {α T W : Type*}

/-- The tuples true in some batch. -/
def worldOfB (v : T → Prop) (bs : List (List (Elem α T))) : Set α := {x | ∃ b ∈ bs, x ∈ worldOf v b}

variable {v P : T → Prop}

@[simp] theorem worldOf_nil : worldOf v ([] : List (Elem α T)) = ∅ := by ext x; simp [worldOf]

theorem worldOf_cons (e : Elem α T) (l : List (Elem α T)) : worldOf v (e :: l) = {x | e.tuple = x ∧ v e.tag} ∪ worldOf v l := by
  ext x; simp [worldOf]

theorem worldOf_append (l m : List (Elem α T)) : worldOf v (l ++ m) = worldOf v l ∪ worldOf v m := by
  ext x
  simp only [worldOf, List.mem_append, Set.mem_setOf_eq, Set.mem_union]
  constructor
  · rintro ⟨e, he | he, h⟩
    · exact .inl ⟨e, he, h⟩
    · exact .inr ⟨e, he, h⟩
  · rintro (⟨e, he, h⟩ | ⟨e, he, h⟩)
    · exact ⟨e, .inl he, h⟩
    · exact ⟨e, .inr he, h⟩

theorem worldOf_mono {l m : List (Elem α T)} (h : ∀ e ∈ l, e ∈ m) : worldOf v l ⊆ worldOf v m := by
  rintro x ⟨e, he, hx⟩; exact ⟨e, h e he, hx⟩

theorem worldOf_tuples (l : List (Elem α T)) : worldOf v l ⊆ tuples l := by
  rintro x ⟨e, he, hx, _⟩; exact ⟨e, he, hx⟩

@[simp] theorem worldOfB_nil : worldOfB v ([] : List (List (Elem α T))) = ∅ := by ext x; simp [worldOfB]

theorem worldOfB_cons (b : List (Elem α T)) (bs : List (List (Elem α T))) : worldOfB v (b :: bs) = worldOf v b ∪ worldOfB v bs := by
  ext x; simp [worldOfB]

theorem worldOfB_append (bs cs : List (List (Elem α T))) : worldOfB v (bs ++ cs) = worldOfB v bs ∪ worldOfB v cs := by
  induction bs with
  | nil => simp
  | cons b bs ih => rw [List.cons_append, worldOfB_cons, worldOfB_cons, ih, Set.union_assoc]

theorem worldOfB_reverse (bs : List (List (Elem α T))) : worldOfB v bs.reverse = worldOfB v bs := by
  ext x; simp [worldOfB]

theorem worldOfB_flatten (bs : List (List (Elem α T))) : worldOf v bs.flatten = worldOfB v bs := by
  induction bs with
  | nil => simp
  | cons b bs ih => rw [List.flatten_cons, worldOf_append, worldOfB_cons, ih]

variable [LinearOrder α]

theorem mem_worldOf {l : List (Elem α T)} {x : α} : x ∈ worldOf v l ↔ ∃ t ∈ tagsOf l x, v t := by
  simp only [worldOf, tagsOf, Set.mem_setOf_eq, List.mem_map, List.mem_filter, decide_eq_true_eq]
  constructor
  · rintro ⟨e, he, h1, h2⟩; exact ⟨e.tag, ⟨e, ⟨he, h1⟩, rfl⟩, h2⟩
  · rintro ⟨t, ⟨e, ⟨he, h1⟩, rfl⟩, h2⟩; exact ⟨e, he, h1, h2⟩

theorem mem_worldOfB {bs : List (List (Elem α T))} {x : α} : x ∈ worldOfB v bs ↔ ∃ t ∈ tagsOfB bs x, v t := by
  simp only [worldOfB, Set.mem_setOf_eq, mem_worldOf, tagsOfB, List.mem_flatMap]
  constructor
  · rintro ⟨b, hb, t, ht, h⟩; exact ⟨t, ⟨b, hb, ht⟩, h⟩
  · rintro ⟨t, ⟨b, hb, ht⟩, h⟩; exact ⟨b, hb, t, ht, h⟩

theorem foldl_sound {c : Prov T W} (h : c.AddSoundAt v) : ∀ (ts : List T) (a : T), v (ts.foldl c.add a) → v a ∨ ∃ t ∈ ts, v t := by
  intro ts
  induction ts with
  | nil => intro a ha; exact .inl ha
  | cons t ts ih =>
    intro a ha
    rcases ih _ ha with h1 | ⟨t', ht', h1⟩
    · rcases h _ _ h1 with h1 | h1
      · exact .inl h1
      · exact .inr ⟨t, by simp, h1⟩
    · exact .inr ⟨t', by simp [ht'], h1⟩

theorem foldl_exact {c : Prov T W} (h : c.ExactAt P v) : ∀ (ts : List T) (a : T), P a → (∀ t ∈ ts, P t) → (v a ∨ ∃ t ∈ ts, v t) →
    v (ts.foldl c.add a) := by
  intro ts
  induction ts with
  | nil => rintro a _ _ (ha | ⟨t, ht, _⟩); exacts [ha, by simp at ht]
  | cons t ts ih =>
    rintro a hPa hPt (ha | ⟨t', ht', h1⟩)
    · exact ih _ (h.addIn _ _ hPa (hPt t (by simp))) (fun t ht => hPt t (by simp [ht])) (.inl (h.add' _ _ hPa (hPt t (by simp)) (.inl ha)))
    · rcases List.mem_cons.mp ht' with rfl | ht'
      · exact ih _ (h.addIn _ _ hPa (hPt t' (by simp))) (fun t ht => hPt t (by simp [ht])) (.inl (h.add' _ _ hPa (hPt t' (by simp)) (.inr h1)))
      · exact ih _ (h.addIn _ _ hPa (hPt t (by simp))) (fun t ht => hPt t (by simp [ht])) (.inr ⟨t', ht', h1⟩)

theorem sumTags_sound {c : Prov T W} (h : c.AddSoundAt v) {ts : List T} (hs : ∃ t ∈ (sumTags c ts).toList, v t) : ∃ t ∈ ts, v t := by
  obtain ⟨t, ht, hv⟩ := hs
  cases ts with
  | nil => simp [sumTags] at ht
  | cons a ts =>
    simp only [sumTags, Option.toList_some, List.mem_singleton] at ht
    subst ht
    rcases foldl_sound h ts a hv with h1 | ⟨t, ht, h1⟩
    · exact ⟨a, by simp, h1⟩
    · exact ⟨t, by simp [ht], h1⟩

theorem sumTags_exact {c : Prov T W} (h : c.ExactAt P v) {ts : List T} (hP : ∀ t ∈ ts, P t) (hs : ∃ t ∈ ts, v t) :
    ∃ t ∈ (sumTags c ts).toList, v t := by
  obtain ⟨t, ht, hv⟩ := hs
  cases ts with
  | nil => simp at ht
  | cons a ts =>
    refine ⟨_, by simp [sumTags], foldl_exact h ts a (hP a (by simp)) (fun t ht => hP t (by simp [ht])) ?_⟩
    rcases List.mem_cons.mp ht with rfl | ht
    · exact .inl hv
    · exact .inr ⟨t, ht, hv⟩

theorem AllTags.of {l : List (Elem α T)} (h : AllTags P l) {x : α} : ∀ t ∈ tagsOf l x, P t := by
  intro t ht
  simp only [tagsOf, List.mem_map, List.mem_filter] at ht
  obtain ⟨e, ⟨he, _⟩, rfl⟩ := ht
  exact h e he

omit [LinearOrder α] in
theorem allTags_iff {l : List (Elem α T)} : AllTags P l ↔ worldOf (fun t => ¬ P t) l ⊆ ∅ := by
  constructor
  · rintro h x ⟨e, he, _, hn⟩; exact hn (h e he)
  · intro h e he; by_contra hn; exact h ⟨e, he, rfl, hn⟩

theorem Prov.ExactAt.notIn {c : Prov T W} (h : c.ExactAt P v) : c.AddSoundAt (fun t => ¬ P t) := by
  intro a b hn
  by_contra hab
  rw [not_or, not_not, not_not] at hab
  exact hn (h.addIn a b hab.1 hab.2)

theorem fromVec_sound {c : Prov T W} (h : c.AddSoundAt v) (l : List (Elem α T)) : worldOf v (fromVec c l) ⊆ worldOf v l := by
  intro x hx
  rw [mem_worldOf, tagsOf_fromVec] at hx
  exact mem_worldOf.mpr (sumTags_sound h hx)

theorem fromVec_exact {c : Prov T W} (h : c.ExactAt P v) (l : List (Elem α T)) (hP : AllTags P l) :
    worldOf v l ⊆ worldOf v (fromVec c l) := by
  intro x hx
  rw [mem_worldOf, tagsOf_fromVec]
  exact sumTags_exact h hP.of (mem_worldOf.mp hx)

theorem merge_sound {c : Prov T W} (h : c.AddSoundAt v) {l m : List (Elem α T)} (hl : Sorted l) (hm : Sorted m) :
    worldOf v (merge c l m) ⊆ worldOf v l ∪ worldOf v m := by
  intro x hx
  rw [mem_worldOf] at hx
  rw [Set.mem_union, mem_worldOf, mem_worldOf]
  rcases (merge_spec c l m hl hm).2 with e | e <;> rw [e] at hx <;> obtain ⟨t, ht, hv⟩ := sumTags_sound h hx <;>
    rcases List.mem_append.mp ht with ht | ht
  · exact .inl ⟨t, ht, hv⟩
  · exact .inr ⟨t, ht, hv⟩
  · exact .inr ⟨t, ht, hv⟩
  · exact .inl ⟨t, ht, hv⟩

theorem merge_exact {c : Prov T W} (h : c.ExactAt P v) {l m : List (Elem α T)} (hl : Sorted l) (hm : Sorted m)
    (hPl : AllTags P l) (hPm : AllTags P m) : worldOf v l ∪ worldOf v m ⊆ worldOf v (merge c l m) := by
  intro x hx
  rw [Set.mem_union, mem_worldOf, mem_worldOf] at hx
  rw [mem_worldOf]
  rcases (merge_spec c l m hl hm).2 with e | e <;> rw [e] <;>
    refine sumTags_exact h (fun t ht => by
      rcases List.mem_append.mp ht with ht | ht
      · first | exact hPl.of t ht | exact hPm.of t ht
      · first | exact hPl.of t ht | exact hPm.of t ht) ?_ <;> rcases hx with ⟨t, ht, hv⟩ | ⟨t, ht, hv⟩ <;>
    exact ⟨t, by simp [ht], hv⟩

theorem foldl_merge_sound {c : Prov T W} (h : c.AddSoundAt v) : ∀ (bs : List (List (Elem α T))) (b : List (Elem α T)), Sorted b → (∀ b ∈ bs, Sorted b) →
    worldOf v (bs.foldl (merge c) b) ⊆ worldOf v b ∪ worldOfB v bs := by
  intro bs
  induction bs with
  | nil => intro b _ _; simp
  | cons d bs ih =>
    intro b hb hbs
    have hd := hbs d (by simp)
    refine (ih _ (merge_sorted c hb hd) (fun d hd => hbs d (List.mem_cons_of_mem _ hd))).trans ?_
    rw [worldOfB_cons, ← Set.union_assoc]
    exact Set.union_subset_union_left _ (merge_sound h hb hd)

theorem merge_allTags {c : Prov T W} (h : c.ExactAt P v) {l m : List (Elem α T)} (hl : Sorted l) (hm : Sorted m) (hPl : AllTags P l)
    (hPm : AllTags P m) : AllTags P (merge c l m) := by
  rw [allTags_iff] at *
  exact (merge_sound h.notIn hl hm).trans (Set.union_subset hPl hPm)

theorem foldl_merge_exact {c : Prov T W} (h : c.ExactAt P v) : ∀ (bs : List (List (Elem α T))) (b : List (Elem α T)), Sorted b → (∀ b ∈ bs, Sorted b) →
    AllTags P b → (∀ b ∈ bs, AllTags P b) → worldOf v b ∪ worldOfB v bs ⊆ worldOf v (bs.foldl (merge c) b) := by
  intro bs
  induction bs with
  | nil => intro b _ _ _ _; simp
  | cons d bs ih =>
    intro b hb hbs hPb hPbs
    have hd := hbs d (by simp)
    have hPd := hPbs d (by simp)
    refine subset_trans ?_ (ih _ (merge_sorted c hb hd) (fun d hd => hbs d (List.mem_cons_of_mem _ hd)) (merge_allTags h hb hd hPb hPd)
      (fun d hd => hPbs d (List.mem_cons_of_mem _ hd)))
    rw [worldOfB_cons, ← Set.union_assoc]
    exact Set.union_subset_union_left _ (merge_exact h hb hd hPb hPd)

theorem condense_sound {c : Prov T W} (h : c.AddSoundAt v) {bs : List (List (Elem α T))} (hs : ∀ b ∈ bs, Sorted b) :
    worldOf v (condense c bs) ⊆ worldOfB v bs := by
  cases bs with
  | nil => simp [condense]
  | cons b bs => rw [worldOfB_cons]; exact foldl_merge_sound h bs b (hs b (by simp)) (fun d hd => hs d (List.mem_cons_of_mem _ hd))

theorem condense_exact {c : Prov T W} (h : c.ExactAt P v) {bs : List (List (Elem α T))} (hs : ∀ b ∈ bs, Sorted b)
    (hP : ∀ b ∈ bs, AllTags P b) : worldOfB v bs ⊆ worldOf v (condense c bs) := by
  cases bs with
  | nil => simp
  | cons b bs => rw [worldOfB_cons]; exact foldl_merge_exact h bs b (hs b (by simp)) (fun d hd => hs d (List.mem_cons_of_mem _ hd)) (hP b (by simp)) (fun d hd => hP d (List.mem_cons_of_mem _ hd))

theorem mergeIntoStable_sound {c : Prov T W} (h : c.AddSoundAt v) : ∀ (bs : List (List (Elem α T))) (rec : List (Elem α T)), Sorted rec →
    (∀ b ∈ bs, Sorted b) → worldOfB v (mergeIntoStable c rec bs) ⊆ worldOf v rec ∪ worldOfB v bs := by
  intro bs
  induction bs with
  | nil => intro rec _ _; simp [mergeIntoStable, worldOfB_cons]
  | cons b bs ih =>
    intro rec hr hb
    unfold mergeIntoStable
    split
    · refine (ih _ (merge_sorted c hr (hb b (by simp))) (fun d hd => hb d (List.mem_cons_of_mem _ hd))).trans ?_
      rw [worldOfB_cons, ← Set.union_assoc]
      exact Set.union_subset_union_left _ (merge_sound h hr (hb b (by simp)))
    · rw [worldOfB_cons]

theorem mergeIntoStable_exact {c : Prov T W} (h : c.ExactAt P v) : ∀ (bs : List (List (Elem α T))) (rec : List (Elem α T)), Sorted rec →
    (∀ b ∈ bs, Sorted b) → AllTags P rec → (∀ b ∈ bs, AllTags P b) → worldOf v rec ∪ worldOfB v bs ⊆ worldOfB v (mergeIntoStable c rec bs) := by
  intro bs
  induction bs with
  | nil => intro rec _ _ _ _; simp [mergeIntoStable, worldOfB_cons]
  | cons b bs ih =>
    intro rec hr hb hPr hPb
    unfold mergeIntoStable
    split
    · refine subset_trans ?_ (ih _ (merge_sorted c hr (hb b (by simp))) (fun d hd => hb d (List.mem_cons_of_mem _ hd))
        (merge_allTags h hr (hb b (by simp)) hPr (hPb b (by simp))) (fun d hd => hPb d (List.mem_cons_of_mem _ hd)))
      rw [worldOfB_cons, ← Set.union_assoc]
      exact Set.union_subset_union_left _ (merge_exact h hr (hb b (by simp)) hPr (hPb b (by simp)))
    · rw [worldOfB_cons (b := rec)]

/-- What the relation shows in the world. -/
def Relation.visibleIn (v : T → Prop) (r : Relation α T) : Set α := worldOfB v r.stable ∪ worldOf v r.recent

/-- Everything the relation knows of in the world. -/
def Relation.knownIn (v : T → Prop) (r : Relation α T) : Set α := r.visibleIn v ∪ worldOfB v r.toAdd

/-- All tags of the relation are in `P`. -/
def Relation.TagsIn (P : T → Prop) (r : Relation α T) : Prop := r.knownIn (fun t => ¬ P t) ⊆ ∅

omit [LinearOrder α] in
theorem Relation.tagsIn_iff {r : Relation α T} : r.TagsIn P ↔ (∀ b ∈ r.stable, AllTags P b) ∧ AllTags P r.recent ∧ ∀ b ∈ r.toAdd, AllTags P b := by
  unfold Relation.TagsIn Relation.knownIn Relation.visibleIn
  constructor
  · intro h
    refine ⟨fun b hb => allTags_iff.mpr (fun x hx => h (.inl (.inl ⟨b, hb, hx⟩))), allTags_iff.mpr (fun x hx => h (.inl (.inr hx))),
      fun b hb => allTags_iff.mpr (fun x hx => h (.inr ⟨b, hb, hx⟩))⟩
  · rintro ⟨h1, h2, h3⟩ x ((⟨b, hb, hx⟩ | hx) | ⟨b, hb, hx⟩)
    · exact allTags_iff.mp (h1 b hb) hx
    · exact allTags_iff.mp h2 hx
    · exact allTags_iff.mp (h3 b hb) hx

theorem stableAfter_sound {c : Prov T W} (h : c.AddSoundAt v) {r : Relation α T} (hw : r.Wf) : worldOfB v (stableAfter c r) ⊆ r.visibleIn v := by
  unfold stableAfter Relation.visibleIn
  split
  · exact Set.subset_union_left
  · rw [worldOfB_reverse]
    refine (mergeIntoStable_sound h _ _ hw.recent (fun b hb => hw.stable b (List.mem_reverse.mp hb))).trans ?_
    rw [worldOfB_reverse, Set.union_comm]

theorem stableAfter_exact {c : Prov T W} (h : c.ExactAt P v) {r : Relation α T} (hw : r.Wf) (hP : r.TagsIn P) :
    r.visibleIn v ⊆ worldOfB v (stableAfter c r) := by
  obtain ⟨hP1, hP2, _⟩ := Relation.tagsIn_iff.mp hP
  unfold stableAfter Relation.visibleIn
  split
  · rename_i he
    rw [List.isEmpty_iff.mp he]; simp
  · rw [worldOfB_reverse]
    refine subset_trans ?_ (mergeIntoStable_exact h _ _ hw.recent (fun b hb => hw.stable b (List.mem_reverse.mp hb)) hP2
      (fun b hb => hP1 b (List.mem_reverse.mp hb)))
    rw [worldOfB_reverse, Set.union_comm]

/-! ## The scan of the stable batches -/

/-- What is true of the elements is in `A`. -/
def BelowIn (v : T → Prop) (A : Set α) (l : List (Elem α T)) : Prop := ∀ e ∈ l, v e.tag → e.tuple ∈ A

omit [LinearOrder α] in
theorem belowIn_iff {A : Set α} {l : List (Elem α T)} : BelowIn v A l ↔ worldOf v l ⊆ A :=
  ⟨fun h _ ⟨e, he, hx, hv⟩ => hx ▸ h e he hv, fun h e he hv => h ⟨e, he, rfl, hv⟩⟩

theorem stableRetain_sound {c : Prov T W} (h : c.AddSoundAt v) {A : Set α} (i : Nat) {st : Scan α T} {s : Elem α T} (h1 : BelowIn v A st.toAdd)
    (h2 : v s.tag → s.tuple ∈ A) :
    (∀ s', (stableRetain c i st s).1 = some s' → v s'.tag → s'.tuple ∈ A) ∧ BelowIn v A (stableRetain c i st s).2.toAdd := by
  unfold stableRetain
  split
  · exact ⟨by rintro s' ⟨⟩; exact h2, h1⟩
  · rename_i t ht
    have htm : t ∈ st.toAdd := List.mem_of_getElem? ht
    split
    · exact ⟨by rintro s' ⟨⟩; exact h2, h1⟩
    · rename_i hne
      have hts : t.tuple = s.tuple := not_not.mp hne
      have hn : v (c.add s.tag t.tag) → s.tuple ∈ A := fun hv => (h _ _ hv).elim h2 (fun hv => hts ▸ h1 t htm hv)
      unfold satUpdate
      dsimp only
      split
      · rename_i heq
        split at heq
        · cases heq
          exact ⟨by rintro s' ⟨⟩; exact hn, h1⟩
        · cases heq
      · rename_i heq
        split at heq
        · cases heq
        · cases heq
          refine ⟨by rintro s' ⟨⟩, ?_⟩
          intro e he hv
          rcases List.mem_or_eq_of_mem_set he with he | rfl
          · exact h1 e he hv
          · exact hts ▸ hn hv

theorem scanBatch_sound {c : Prov T W} (h : c.AddSoundAt v) {A : Set α} (seek : List (Elem α T) → Nat → α → Nat) : ∀ (batch : List (Elem α T)) (i : Nat)
    (st : Scan α T), BelowIn v A st.toAdd → BelowIn v A batch →
    BelowIn v A (scanBatch c seek batch i st).1 ∧ BelowIn v A (scanBatch c seek batch i st).2.toAdd := by
  intro batch
  induction batch with
  | nil => intro i st h1 _; exact ⟨by simp [scanBatch, BelowIn], h1⟩
  | cons s batch ih =>
    intro i st h1 h2
    simp only [scanBatch]
    obtain ⟨a1, a2⟩ := stableRetain_sound h (seek st.toAdd i s.tuple) h1 (h2 s (by simp))
    obtain ⟨b1, b2⟩ := ih (seek st.toAdd i s.tuple) _ a2 (fun e he => h2 e (List.mem_cons_of_mem _ he))
    refine ⟨?_, b2⟩
    intro e he hv
    rcases List.mem_append.mp he with he | he
    · exact a1 e (by simpa using he) hv
    · exact b1 e he hv

theorem scanStable_sound {c : Prov T W} (h : c.AddSoundAt v) {A : Set α} : ∀ (bs : List (List (Elem α T))) (st : Scan α T), BelowIn v A st.toAdd →
    (∀ b ∈ bs, BelowIn v A b) → (∀ b ∈ (scanStable c bs st).1, BelowIn v A b) ∧ BelowIn v A (scanStable c bs st).2.toAdd := by
  intro bs
  induction bs with
  | nil => intro st h1 _; exact ⟨by simp [scanStable], h1⟩
  | cons b bs ih =>
    intro st h1 h2
    simp only [scanStable]
    have hr : ∃ seek, (if st.toAdd.length > 4 * b.length then scanBatch c seekGallop b 0 st else scanBatch c seekLinear b 0 st)
        = scanBatch c seek b 0 st := by
      split
      · exact ⟨_, rfl⟩
      · exact ⟨_, rfl⟩
    obtain ⟨seek, hr⟩ := hr
    rw [hr]
    obtain ⟨a1, a2⟩ := scanBatch_sound h seek b 0 st h1 (h2 b (by simp))
    obtain ⟨b1, b2⟩ := ih _ a2 (fun d hd => h2 d (List.mem_cons_of_mem _ hd))
    refine ⟨?_, b2⟩
    intro d hd
    rcases List.mem_cons.mp hd with rfl | hd
    · exact a1
    · exact b1 d hd

theorem scheduleLfp_sound {c : Prov T W} (h : c.AddSoundAt v) (toAdd : List (Elem α T)) (stable : List (List (Elem α T))) :
    worldOf v (scheduleLfp c toAdd stable).1 ∪ worldOfB v (scheduleLfp c toAdd stable).2 ⊆ worldOf v toAdd ∪ worldOfB v stable := by
  unfold scheduleLfp
  split
  · obtain ⟨h1, h2⟩ := scanStable_sound h (A := worldOf v toAdd ∪ worldOfB v stable) stable ⟨toAdd, []⟩
      (belowIn_iff.mpr Set.subset_union_left) (fun b hb => belowIn_iff.mpr (fun x hx => Or.inr ⟨b, hb, hx⟩))
    simp only
    refine Set.union_subset ?_ ?_
    · exact (worldOf_mono (fun e he => (retainIdx_sublist _ _).subset he)).trans (belowIn_iff.mp h2)
    · rintro x ⟨b, hb, hx⟩
      exact belowIn_iff.mp (h1 b hb) hx
  · exact subset_rfl

theorem belowIn_empty {l : List (Elem α T)} : BelowIn (fun t => ¬ P t) (∅ : Set α) l ↔ AllTags P l := by
  rw [belowIn_iff, allTags_iff]

/-- What is true in the stable part afterwards was true there before. -/
theorem scanBatch_old {c : Prov T W} (h : c.ExactAt P v) (seek : List (Elem α T) → Nat → α → Nat) : ∀ (batch : List (Elem α T)) (i : Nat)
    (st : Scan α T), AllTags P batch → AllTags P st.toAdd → worldOf v (scanBatch c seek batch i st).1 ⊆ worldOf v batch := by
  intro batch
  induction batch with
  | nil => intro i st _ _; simp [scanBatch]
  | cons s batch ih =>
    intro i st hPb hPt
    simp only [scanBatch]
    rw [worldOf_append, worldOf_cons]
    have hP' := (stableRetain_sound h.notIn (A := ∅) (seek st.toAdd i s.tuple) (st := st) (s := s) (belowIn_empty.mpr hPt)
      (fun hn => absurd (hPb s (by simp)) hn)).2
    refine Set.union_subset_union ?_ (ih _ _ (fun e he => hPb e (List.mem_cons_of_mem _ he)) (belowIn_empty.mp hP'))
    rintro x ⟨e, he, hx, hv⟩
    have he : (stableRetain c (seek st.toAdd i s.tuple) st s).1 = some e := by simpa using he
    unfold stableRetain at he
    split at he
    · cases he; exact ⟨hx, hv⟩
    · rename_i t ht
      split at he
      · cases he; exact ⟨hx, hv⟩
      · unfold satUpdate at he
        dsimp only at he
        split at he
        · rename_i heq
          split at heq
          · rename_i hsat
            cases heq
            cases he
            exact ⟨hx, (h.add _ _ hv).elim id (h.saturated _ _ (hPb s (by simp)) (hPt t (List.mem_of_getElem? ht)) hsat)⟩
          · cases heq
        · cases he

theorem scanStable_old {c : Prov T W} (h : c.ExactAt P v) : ∀ (bs : List (List (Elem α T))) (st : Scan α T), (∀ b ∈ bs, AllTags P b) →
    AllTags P st.toAdd → worldOfB v (scanStable c bs st).1 ⊆ worldOfB v bs := by
  intro bs
  induction bs with
  | nil => intro st _ _; simp [scanStable]
  | cons b bs ih =>
    intro st hPb hPt
    simp only [scanStable]
    have hr : ∃ seek, (if st.toAdd.length > 4 * b.length then scanBatch c seekGallop b 0 st else scanBatch c seekLinear b 0 st)
        = scanBatch c seek b 0 st := by
      split
      · exact ⟨_, rfl⟩
      · exact ⟨_, rfl⟩
    obtain ⟨seek, hr⟩ := hr
    rw [hr, worldOfB_cons, worldOfB_cons]
    have hP' := (scanBatch_sound h.notIn (A := ∅) seek b 0 st (belowIn_empty.mpr hPt) (belowIn_empty.mpr (hPb b (by simp)))).2
    exact Set.union_subset_union (scanBatch_old h _ _ _ _ (hPb b (by simp)) hPt)
      (ih _ (fun d hd => hPb d (List.mem_cons_of_mem _ hd)) (belowIn_empty.mp hP'))

theorem scheduleLfp_old {c : Prov T W} (h : c.ExactAt P v) (toAdd : List (Elem α T)) (stable : List (List (Elem α T)))
    (hP1 : AllTags P toAdd) (hP2 : ∀ b ∈ stable, AllTags P b) : worldOfB v (scheduleLfp c toAdd stable).2 ⊆ worldOfB v stable := by
  unfold scheduleLfp
  split
  · exact scanStable_old h _ _ hP2 hP1
  · exact subset_rfl

/-! ## Nothing true is lost: each tuple in one batch only -/

theorem scheduleLfp_exact_disjoint {c : Prov T W} (h : c.ExactAt P v) (toAdd : List (Elem α T)) (stable : List (List (Elem α T)))
    (h1 : Sorted toAdd) (h2 : ∀ b ∈ stable, Sorted b) (hsafe : ∀ b ∈ stable, ScanSafe toAdd b) (hdis : DisjointB stable)
    (hP1 : AllTags P toAdd) (hP2 : ∀ b ∈ stable, AllTags P b) :
    worldOf v toAdd ∪ worldOfB v stable ⊆ worldOf v (scheduleLfp c toAdd stable).1 ∪ worldOfB v (scheduleLfp c toAdd stable).2 := by
  intro x hx
  have ht := scheduleLfp_tags c toAdd stable h1 h2 hsafe hdis x
  have : ∃ t ∈ tagsOfB stable x ++ tagsOf toAdd x, v t := by
    rcases hx with hx | hx
    · obtain ⟨t, ht, hv⟩ := mem_worldOf.mp hx; exact ⟨t, by simp [ht], hv⟩
    · obtain ⟨t, ht, hv⟩ := mem_worldOfB.mp hx; exact ⟨t, by simp [ht], hv⟩
  obtain ⟨t, hmem, hv⟩ := sumTags_exact h (fun t ht => by
    rcases List.mem_append.mp ht with ht | ht
    · obtain ⟨b, hb, ht⟩ := List.mem_flatMap.mp ht
      exact (hP2 b hb).of t ht
    · exact hP1.of t ht) this
  rw [← ht] at hmem
  rcases List.mem_append.mp hmem with hm | hm
  · exact .inr (mem_worldOfB.mpr ⟨t, hm, hv⟩)
  · exact .inl (mem_worldOf.mpr ⟨t, hm, hv⟩)

/-! ## Nothing true is lost: tags in a line -/

/-- What is true of the pending elements is either kept, or covered by `D`. -/
def Covered (v : T → Prop) (D : Set α) (st : Scan α T) : Prop :=
  ∀ (j : Nat) (e : Elem α T), st.toAdd[j]? = some e → j ∈ st.rm → v e.tag → e.tuple ∈ D

theorem stableRetain_linear {c : Prov T W} (h : c.ExactAt (fun _ => True) v) (hl : c.LinearAt v) (i : Nat) (st : Scan α T) (s : Elem α T) :
    ∀ D : Set α, Covered v D st → worldOf v (stableRetain c i st s).1.toList ⊆ D →
    Covered v D (stableRetain c i st s).2 ∧
    (v s.tag → s.tuple ∈ D ∪ worldOf v (stableRetain c i st s).2.toAdd) ∧ worldOf v st.toAdd ⊆ worldOf v (stableRetain c i st s).2.toAdd := by
  intro D hc hD
  unfold stableRetain at hD ⊢
  split
  · rename_i hn
    rw [hn] at hD
    exact ⟨hc, fun hv => .inl (hD ⟨s, by simp, rfl, hv⟩), subset_rfl⟩
  · rename_i t ht
    simp only [ht] at hD
    split
    · rename_i hne
      rw [if_pos hne] at hD
      exact ⟨hc, fun hv => .inl (hD ⟨s, by simp, rfl, hv⟩), subset_rfl⟩
    · rename_i hne
      rw [if_neg hne] at hD
      have hts : t.tuple = s.tuple := not_not.mp hne
      unfold satUpdate at hD ⊢
      dsimp only at hD ⊢
      by_cases hsat : c.saturated s.tag (c.add s.tag t.tag) = true
      · rw [if_pos hsat] at hD ⊢
        simp only at hD ⊢
        refine ⟨?_, fun hv => .inl (hD ⟨{ s with tag := c.add s.tag t.tag }, by simp, rfl, h.add' _ _ trivial trivial (.inl hv)⟩), subset_rfl⟩
        intro j e he hj hv
        rcases List.mem_cons.mp hj with rfl | hj
        · rw [ht] at he
          cases he
          exact hD ⟨{ s with tag := c.add s.tag t.tag }, by simp, hts.symm, h.add' _ _ trivial trivial (.inr hv)⟩
        · exact hc j e he hj hv
      · rw [if_neg hsat] at hD ⊢
        simp only at hD ⊢
        have hi : i < st.toAdd.length := (List.getElem?_eq_some_iff.mp ht).1
        have hmem : ({ t with tag := c.add s.tag t.tag } : Elem α T) ∈ st.toAdd.set i { t with tag := c.add s.tag t.tag } :=
          List.mem_iff_getElem?.mpr ⟨i, by simp [hi]⟩
        refine ⟨?_, fun hv => .inr ⟨_, hmem, hts, h.add' _ _ trivial trivial (.inl hv)⟩, ?_⟩
        · intro j e he hj hv
          rw [List.getElem?_set] at he
          by_cases hij : i = j
          · subst hij
            simp only [if_true, hi, Option.some.injEq] at he
            subst he
            refine hc i t ht hj ?_
            exact (h.add _ _ hv).elim (hl _ _ (by simpa using hsat)) id
          · rw [if_neg hij] at he
            exact hc j e he hj hv
        · rintro x ⟨e, he, hx, hv⟩
          obtain ⟨j, hj⟩ := List.mem_iff_getElem?.mp he
          by_cases hij : i = j
          · subst hij
            rw [ht] at hj
            cases hj
            exact ⟨_, hmem, hx, h.add' _ _ trivial trivial (.inr hv)⟩
          · exact ⟨e, List.mem_iff_getElem?.mpr ⟨j, by rw [List.getElem?_set, if_neg hij]; exact hj⟩, hx, hv⟩

theorem scanBatch_linear {c : Prov T W} (h : c.ExactAt (fun _ => True) v) (hl : c.LinearAt v) (seek : List (Elem α T) → Nat → α → Nat) (D : Set α) :
    ∀ (batch : List (Elem α T)) (i : Nat) (st : Scan α T), Covered v D st → worldOf v (scanBatch c seek batch i st).1 ⊆ D →
    Covered v D (scanBatch c seek batch i st).2 ∧ worldOf v batch ⊆ D ∪ worldOf v (scanBatch c seek batch i st).2.toAdd ∧
      worldOf v st.toAdd ⊆ worldOf v (scanBatch c seek batch i st).2.toAdd := by
  intro batch
  induction batch with
  | nil => intro i st hc _; exact ⟨hc, by simp, subset_rfl⟩
  | cons s batch ih =>
    intro i st hc hD
    simp only [scanBatch] at hD ⊢
    rw [worldOf_append] at hD
    obtain ⟨a1, a2, a3⟩ := stableRetain_linear h hl (seek st.toAdd i s.tuple) st s D hc (Set.subset_union_left.trans hD)
    obtain ⟨b1, b2, b3⟩ := ih _ _ a1 (Set.subset_union_right.trans hD)
    refine ⟨b1, ?_, a3.trans b3⟩
    rw [worldOf_cons]
    refine Set.union_subset ?_ b2
    rintro x ⟨rfl, hv⟩
    exact (a2 hv).elim .inl (fun hx => .inr (b3 hx))

theorem scanStable_linear {c : Prov T W} (h : c.ExactAt (fun _ => True) v) (hl : c.LinearAt v) (D : Set α) :
    ∀ (bs : List (List (Elem α T))) (st : Scan α T), Covered v D st → worldOfB v (scanStable c bs st).1 ⊆ D →
    Covered v D (scanStable c bs st).2 ∧ worldOfB v bs ⊆ D ∪ worldOf v (scanStable c bs st).2.toAdd ∧
      worldOf v st.toAdd ⊆ worldOf v (scanStable c bs st).2.toAdd := by
  intro bs
  induction bs with
  | nil => intro st hc _; exact ⟨hc, by simp, subset_rfl⟩
  | cons b bs ih =>
    intro st hc hD
    simp only [scanStable] at hD ⊢
    have hr : ∃ seek, (if st.toAdd.length > 4 * b.length then scanBatch c seekGallop b 0 st else scanBatch c seekLinear b 0 st)
        = scanBatch c seek b 0 st := by
      split
      · exact ⟨_, rfl⟩
      · exact ⟨_, rfl⟩
    obtain ⟨seek, hr⟩ := hr
    rw [hr] at hD ⊢
    rw [worldOfB_cons] at hD
    obtain ⟨a1, a2, a3⟩ := scanBatch_linear h hl seek D b 0 st hc (Set.subset_union_left.trans hD)
    obtain ⟨b1, b2, b3⟩ := ih _ a1 (Set.subset_union_right.trans hD)
    refine ⟨b1, ?_, a3.trans b3⟩
    rw [worldOfB_cons]
    exact Set.union_subset (a2.trans (Set.union_subset_union_right _ b3)) b2

theorem scheduleLfp_exact_linear {c : Prov T W} (h : c.ExactAt (fun _ => True) v) (hl : c.LinearAt v) (toAdd : List (Elem α T)) (stable : List (List (Elem α T))) :
    worldOf v toAdd ∪ worldOfB v stable ⊆ worldOf v (scheduleLfp c toAdd stable).1 ∪ worldOfB v (scheduleLfp c toAdd stable).2 := by
  unfold scheduleLfp
  split
  · simp only
    obtain ⟨a1, a2, a3⟩ := scanStable_linear h hl _ stable ⟨toAdd, []⟩ (fun j e _ hj => by simp at hj) subset_rfl
    have hk : worldOf v (scanStable c stable ⟨toAdd, []⟩).2.toAdd ⊆
        worldOf v (retainIdx (fun i _ => !(scanStable c stable ⟨toAdd, []⟩).2.rm.contains i) (scanStable c stable ⟨toAdd, []⟩).2.toAdd) ∪
          worldOfB v (scanStable c stable ⟨toAdd, []⟩).1 := by
      rintro x ⟨e, he, rfl, hv⟩
      obtain ⟨j, hj⟩ := List.mem_iff_getElem?.mp he
      by_cases hr : j ∈ (scanStable c stable ⟨toAdd, []⟩).2.rm
      · exact .inr (a1 j e hj hr hv)
      · exact .inl ⟨e, mem_retainIdx.mpr ⟨j, hj, by simpa using hr⟩, rfl, hv⟩
    refine Set.union_subset (a3.trans hk) (a2.trans (Set.union_subset Set.subset_union_right hk))
  · exact subset_rfl

/-! ## One step of a relation -/

theorem changed_world [LinearOrder W] {c : Prov T W} (h : c.AddSoundAt v) {r : Relation α T} (hw : r.Wf) (hwl : r.waitlist = []) :
    ∃ r', r.changed c .lfp = some (r', !r'.recent.isEmpty) ∧ r'.waitlist = [] ∧ r'.knownIn v ⊆ r.knownIn v ∧
      (∀ P, c.ExactAt P v → r.TagsIn P → worldOfB v r'.stable ⊆ r.visibleIn v ∧
        ((c.ExactAt (fun _ => True) v ∧ c.LinearAt v) ∨
          (DisjointB (r.recent :: r.stable) ∧ ∀ b ∈ stableAfter c r, ScanSafe (condense c r.toAdd.reverse) b) → r.knownIn v ⊆ r'.knownIn v)) := by
  obtain ⟨r', e, g1, g2, g3, g4⟩ := changed_spec c .lfp r hw
  have hsd := stableAfter_spec c r hw
  have hcs : ∀ b ∈ r.toAdd.reverse, Sorted b := fun b hb => hw.toAdd b (List.mem_reverse.mp hb)
  have hcd := condense_spec c r.toAdd.reverse hcs
  simp only [Scheduler.schedule, Option.some.injEq, Sched.mk.injEq] at g4
  obtain ⟨e1, e2, e3⟩ := g4
  have hk' : r'.knownIn v = worldOf v (scheduleLfp c (condense c r.toAdd.reverse) (stableAfter c r)).1 ∪
      worldOfB v (scheduleLfp c (condense c r.toAdd.reverse) (stableAfter c r)).2 := by
    unfold Relation.knownIn Relation.visibleIn
    rw [g2, e1, e3, worldOfB_nil, Set.union_empty, Set.union_comm]
  refine ⟨r', e, by rw [← e2, hwl], ?_, fun P he hP => ?_⟩
  · rw [hk']
    refine (scheduleLfp_sound h _ _).trans ?_
    unfold Relation.knownIn
    rw [Set.union_comm]
    refine Set.union_subset_union (stableAfter_sound h hw) ?_
    rw [← worldOfB_reverse]
    exact condense_sound h hcs
  obtain ⟨hP1, hP2, hP3⟩ := Relation.tagsIn_iff.mp hP
  have hPc : AllTags P (condense c r.toAdd.reverse) := by
    rw [allTags_iff]
    rintro x hx
    obtain ⟨b, hb, hx⟩ := condense_sound he.notIn hcs hx
    exact allTags_iff.mp (hP3 b (List.mem_reverse.mp hb)) hx
  have hPs : ∀ b ∈ stableAfter c r, AllTags P b := by
    intro b hb
    rw [allTags_iff]
    intro x hx
    exact hP (.inl (stableAfter_sound he.notIn hw ⟨b, hb, hx⟩))
  refine ⟨?_, fun hx => ?_⟩
  · rw [← e3]
    exact (scheduleLfp_old he _ _ hPc hPs).trans (stableAfter_sound h hw)
  · rw [hk']
    have : r.knownIn v ⊆ worldOf v (condense c r.toAdd.reverse) ∪ worldOfB v (stableAfter c r) := by
      unfold Relation.knownIn
      rw [Set.union_comm]
      refine Set.union_subset_union ?_ (stableAfter_exact he hw hP)
      rw [← worldOfB_reverse]
      exact condense_exact he hcs (fun b hb => hP3 b (List.mem_reverse.mp hb))
    refine this.trans ?_
    rcases hx with hl | ⟨hd, hsafe⟩
    · exact scheduleLfp_exact_linear hl.1 hl.2 _ _
    · exact scheduleLfp_exact_disjoint he _ _ hcd.1 hsd.1 hsafe (stableAfter_disjoint c hw hd) hPc hPs

end Scallop
