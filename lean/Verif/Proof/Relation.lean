import Verif.Proof.Scheduler

namespace Scallop
variable {α T W : Type*} [LinearOrder α]

theorem mergeIntoStable_spec (c : Prov T W) : ∀ (bs : List (List (Elem α T))) (rec : List (Elem α T)),
    Sorted rec → (∀ b ∈ bs, Sorted b) →
    (∀ b ∈ mergeIntoStable c rec bs, Sorted b) ∧ tuplesB (mergeIntoStable c rec bs) = tuples rec ∪ tuplesB bs := by
  intro bs
  induction bs with
  | nil => intro rec h _; simp [mergeIntoStable, tuplesB_cons, h]
  | cons b bs ih =>
    intro rec h hb
    unfold mergeIntoStable
    split
    · have := ih (merge c rec b) (merge_sorted c h (hb b (by simp))) (fun d hd => hb d (List.mem_cons_of_mem _ hd))
      refine ⟨this.1, ?_⟩
      rw [this.2, tuples_merge c h (hb b (by simp)), tuplesB_cons, Set.union_assoc]
    · refine ⟨?_, by rw [tuplesB_cons]⟩
      intro d hd
      rcases List.mem_cons.mp hd with rfl | hd
      · exact h
      · exact hb d hd

theorem foldl_merge_spec (c : Prov T W) : ∀ (bs : List (List (Elem α T))) (b : List (Elem α T)),
    Sorted b → (∀ b ∈ bs, Sorted b) →
    Sorted (bs.foldl (merge c) b) ∧ tuples (bs.foldl (merge c) b) = tuples b ∪ tuplesB bs := by
  intro bs
  induction bs with
  | nil => intro b h _; simp [h]
  | cons d bs ih =>
    intro b h hb
    have hd := hb d (by simp)
    have := ih (merge c b d) (merge_sorted c h hd) (fun d hd => hb d (List.mem_cons_of_mem _ hd))
    refine ⟨this.1, ?_⟩
    rw [List.foldl_cons, this.2, tuples_merge c h hd, tuplesB_cons, Set.union_assoc]

theorem condense_spec (c : Prov T W) (bs : List (List (Elem α T))) (h : ∀ b ∈ bs, Sorted b) :
    Sorted (condense c bs) ∧ tuples (condense c bs) = tuplesB bs := by
  cases bs with
  | nil => exact ⟨List.Pairwise.nil, by simp [condense]⟩
  | cons b bs =>
    have := foldl_merge_spec c bs b (h b (by simp)) (fun d hd => h d (List.mem_cons_of_mem _ hd))
    exact ⟨this.1, by rw [condense, this.2, tuplesB_cons]⟩

/-- The stable batches after step 1 of `changed`. -/
def stableAfter (c : Prov T W) (r : Relation α T) : List (List (Elem α T)) :=
  if r.recent.isEmpty then r.stable else (mergeIntoStable c r.recent r.stable.reverse).reverse

theorem stableAfter_spec (c : Prov T W) (r : Relation α T) (h : r.Wf) :
    (∀ b ∈ stableAfter c r, Sorted b) ∧ tuplesB (stableAfter c r) = r.visible := by
  unfold stableAfter Relation.visible
  split
  · rename_i he
    have : r.recent = [] := List.isEmpty_iff.mp he
    exact ⟨h.stable, by rw [this]; simp⟩
  · have := mergeIntoStable_spec c r.stable.reverse r.recent h.recent (fun b hb => h.stable b (List.mem_reverse.mp hb))
    refine ⟨fun b hb => this.1 b (List.mem_reverse.mp hb), ?_⟩
    rw [tuplesB_reverse, this.2, tuplesB_reverse, Set.union_comm]

theorem changed_spec [LinearOrder W] (c : Prov T W) (s : Scheduler) (r : Relation α T) (h : r.Wf) :
    ∃ r', r.changed c s = some (r', !r'.recent.isEmpty) ∧ r'.Wf ∧ r'.toAdd = [] ∧
      r'.visible ∪ tuples r'.waitlist = r.visible ∪ r.pending ∪ tuples r.waitlist ∧
      s.schedule c (condense c r.toAdd.reverse) r.waitlist (stableAfter c r) = some ⟨r'.recent, r'.waitlist, r'.stable⟩ := by
  have h1 := stableAfter_spec c r h
  have h2 := condense_spec c r.toAdd.reverse (fun b hb => h.toAdd b (List.mem_reverse.mp hb))
  obtain ⟨x, e, g1, g2, g3⟩ := schedule_spec s c (condense c r.toAdd.reverse) r.waitlist (stableAfter c r) h1.1 h2.1
  refine ⟨⟨x.stable, x.toAdd, [], x.waitlist⟩, ?_, ⟨g2, g1, by simp⟩, rfl, ?_, ?_⟩
  · unfold Relation.changed
    simp only
    rw [← stableAfter, e]
    rfl
  · unfold Relation.visible at *
    simp only
    rw [h1.2, h2.2, tuplesB_reverse] at g3
    unfold Relation.pending
    have : tuplesB x.stable ∪ tuples x.toAdd ∪ tuples x.waitlist = tuples x.toAdd ∪ tuples x.waitlist ∪ tuplesB x.stable := by
      ext y; simp only [Set.mem_union]; tauto
    rw [this, g3]
    ext y; simp only [Set.mem_union]; tauto
  · rw [e]

theorem changed_lfp_spec [LinearOrder W] (c : Prov T W) (r : Relation α T) (h : r.Wf) :
    ∃ r', r.changed c .lfp = some (r', !r'.recent.isEmpty) ∧ r'.Wf ∧ r'.toAdd = [] ∧ r'.waitlist = r.waitlist ∧
      r'.visible = r.visible ∪ r.pending ∧ tuples r'.recent ⊆ r.pending ∧ tuplesB r'.stable ⊆ r.visible := by
  have h1 := stableAfter_spec c r h
  have h2 := condense_spec c r.toAdd.reverse (fun b hb => h.toAdd b (List.mem_reverse.mp hb))
  have h3 := scheduleLfp_tuples c (condense c r.toAdd.reverse) (stableAfter c r)
  have h4 := scheduleLfp_sublist c (condense c r.toAdd.reverse) (stableAfter c r)
  obtain ⟨r', e, g1, g2, _, g4⟩ := changed_spec c .lfp r h
  simp only [Scheduler.schedule, Option.some.injEq, Sched.mk.injEq] at g4
  obtain ⟨k1, k2, k3⟩ := g4
  refine ⟨r', e, g1, g2, k2.symm, ?_, ?_, ?_⟩
  · rw [k1, k3, h1.2, h2.2, tuplesB_reverse] at h3
    unfold Relation.visible at *
    rw [Set.union_comm, h3, Set.union_comm]; rfl
  · intro x hx
    rw [k1] at h4
    rw [mem_tuples_map] at hx
    have := h4.subset hx
    rw [← mem_tuples_map, h2.2, tuplesB_reverse] at this
    exact this
  · rw [← k3, ← h1.2]
    unfold scheduleLfp
    split
    · exact (scanStable_spec c (stableAfter c r) ⟨condense c r.toAdd.reverse, []⟩).2.2.1
    · exact fun _ h => h

/-! ### Sizes of the stable batches -/

/-- Newest first: each batch is more than twice as long as the next newer one. -/
def GeometricRev : List (List (Elem α T)) → Prop
  | [] => True
  | [b] => 0 < b.length
  | b :: d :: bs => 0 < b.length ∧ 2 * b.length < d.length ∧ GeometricRev (d :: bs)

omit [LinearOrder α] in
theorem geometricRev_tail {b : List (Elem α T)} {bs : List (List (Elem α T))} (h : GeometricRev (b :: bs)) : GeometricRev bs := by
  cases bs with
  | nil => trivial
  | cons d bs => exact h.2.2

omit [LinearOrder α] in
theorem length_pos_of_tuples {l m : List (Elem α T)} (h : tuples m ⊆ tuples l) (hm : 0 < m.length) : 0 < l.length := by
  cases m with
  | nil => simp at hm
  | cons e m =>
    obtain ⟨a, ha, _⟩ := h ⟨e, by simp, rfl⟩
    exact List.length_pos_of_mem ha

theorem mergeIntoStable_geometric (c : Prov T W) : ∀ (bs : List (List (Elem α T))) (rec : List (Elem α T)),
    Sorted rec → (∀ b ∈ bs, Sorted b) → 0 < rec.length → GeometricRev bs → GeometricRev (mergeIntoStable c rec bs) := by
  intro bs
  induction bs with
  | nil => intro rec _ _ h _; exact h
  | cons b bs ih =>
    intro rec hs hb h hg
    have hsb := hb b (by simp)
    unfold mergeIntoStable
    split
    · refine ih _ (merge_sorted c hs hsb) (fun d hd => hb d (List.mem_cons_of_mem _ hd)) ?_ (geometricRev_tail hg)
      refine length_pos_of_tuples (m := rec) ?_ h
      rw [tuples_merge c hs hsb]; exact Set.subset_union_left
    · exact ⟨h, by omega, hg⟩

omit [LinearOrder α] in
theorem geometricRev_size : ∀ (bs : List (List (Elem α T))) (m : Nat), GeometricRev bs →
    (∀ b ∈ bs.head?, m ≤ b.length) → m * 2 ^ bs.length ≤ (bs.map List.length).sum + m := by
  intro bs
  induction bs with
  | nil => intro m _ _; simp
  | cons b bs ih =>
    intro m h hm
    have hb : m ≤ b.length := hm b (by simp)
    have := ih (2 * m) (geometricRev_tail h) (by
      intro d hd
      cases bs with
      | nil => simp at hd
      | cons d' bs =>
        simp at hd; subst hd
        have := h.2.1
        omega)
    simp only [List.length_cons, List.map_cons, List.sum_cons, Nat.pow_succ]
    have e : m * (2 ^ bs.length * 2) = 2 * m * 2 ^ bs.length := by
      rw [Nat.mul_comm (2 ^ bs.length) 2, ← Nat.mul_assoc, Nat.mul_comm m 2]
    rw [e]
    omega

/-! ### Tags under the default scheduler -/

theorem tagsOf_retainAux (f : Nat → Elem α T → Bool) (x : α) : ∀ (l : List (Elem α T)) (k : Nat), Sorted l →
    (x ∉ tuples l → tagsOf (((l.zipIdx k).filter (fun p => f p.2 p.1)).map Prod.fst) x = []) ∧
    (∀ i e, l[i]? = some e → e.tuple = x →
      tagsOf (((l.zipIdx k).filter (fun p => f p.2 p.1)).map Prod.fst) x = if f (i + k) e then [e.tag] else []) := by
  intro l
  induction l with
  | nil => intro k _; simp
  | cons a l ih =>
    intro k hs
    have hs' := sorted_cons.mp hs
    have hi := ih (k + 1) hs'.2
    have hstep : tagsOf ((((a :: l).zipIdx k).filter (fun p => f p.2 p.1)).map Prod.fst) x =
        (if f k a ∧ a.tuple = x then [a.tag] else []) ++
          tagsOf (((l.zipIdx (k + 1)).filter (fun p => f p.2 p.1)).map Prod.fst) x := by
      rw [List.zipIdx_cons, List.filter_cons]
      by_cases h1 : f k a = true
      · simp only [h1, if_true, List.map_cons, tagsOf_cons, true_and]
        split <;> simp
      · simp [h1]
    constructor
    · intro hx
      rw [tuples_cons] at hx
      have h1 : x ≠ a.tuple := fun h => hx (Or.inl h)
      have h2 : x ∉ tuples l := fun h => hx (Or.inr h)
      rw [hstep, hi.1 h2, if_neg (fun h => h1 h.2.symm)]; rfl
    · intro i e he hx
      cases i with
      | zero =>
        simp at he; subst he
        have h2 : x ∉ tuples l := by
          rintro ⟨d, hd, h⟩
          have := hs'.1 d hd
          rw [h, hx] at this
          exact lt_irrefl _ this
        rw [hstep, hi.1 h2]
        simp [hx]
      | succ i =>
        simp at he
        have h2 : a.tuple ≠ x := by
          rw [← hx]; exact ne_of_lt (hs'.1 e (List.mem_of_getElem? he))
        rw [hstep, hi.2 i e he hx, if_neg (fun h => h2 h.2)]
        rw [show i + 1 + k = i + (k + 1) by omega]; rfl

theorem tagsOf_retainIdx_not (f : Nat → Elem α T → Bool) {x : α} {l : List (Elem α T)} (h : Sorted l) (hx : x ∉ tuples l) :
    tagsOf (retainIdx f l) x = [] := (tagsOf_retainAux f x l 0 h).1 hx

theorem tagsOf_retainIdx (f : Nat → Elem α T → Bool) {l : List (Elem α T)} (h : Sorted l) {i : Nat} {e : Elem α T}
    (he : l[i]? = some e) : tagsOf (retainIdx f l) e.tuple = if f i e then [e.tag] else [] :=
  (tagsOf_retainAux f e.tuple l 0 h).2 i e he rfl

theorem tagsOf_sorted_at {l : List (Elem α T)} (h : Sorted l) {i : Nat} {e : Elem α T} (he : l[i]? = some e) :
    tagsOf l e.tuple = [e.tag] := by
  have := tagsOf_retainIdx (fun _ _ => true) h he
  rw [if_pos rfl] at this
  rw [← this]
  congr 1
  unfold retainIdx
  simp

/-- The tags of the pending elements not marked for removal. -/
def viewTags (st : Scan α T) (x : α) : List T := tagsOf (retainIdx (fun i _ => !st.rm.contains i) st.toAdd) x

theorem sorted_index_unique {l : List (Elem α T)} (h : Sorted l) {i j : Nat} {e d : Elem α T}
    (hi : l[i]? = some e) (hj : l[j]? = some d) (he : e.tuple = d.tuple) : i = j := by
  obtain ⟨hi', rfl⟩ := List.getElem?_eq_some_iff.mp hi
  obtain ⟨hj', rfl⟩ := List.getElem?_eq_some_iff.mp hj
  rcases Nat.lt_trichotomy i j with hlt | heq | hlt
  · have := List.pairwise_iff_getElem.mp h i j hi' hj' hlt
    rw [he] at this; exact absurd this (lt_irrefl _)
  · exact heq
  · have := List.pairwise_iff_getElem.mp h j i hj' hi' hlt
    rw [he] at this; exact absurd this (lt_irrefl _)

/-- Effect of `stableRetain` on tags when the index is the boundary. -/
theorem stableRetain_tags (c : Prov T W) (i : Nat) (st : Scan α T) (s : Elem α T) (hst : Sorted st.toAdd)
    (hb : ∀ j e, st.toAdd[j]? = some e → e.tuple = s.tuple → j = i)
    (hrm : ∀ j ∈ st.rm, ∀ e, st.toAdd[j]? = some e → e.tuple ≠ s.tuple) (x : α) :
    (x ≠ s.tuple → viewTags (stableRetain c i st s).2 x = viewTags st x) ∧
    tagsOf (stableRetain c i st s).1.toList s.tuple ++ viewTags (stableRetain c i st s).2 s.tuple =
      (sumTags c (s.tag :: viewTags st s.tuple)).toList := by
  unfold stableRetain
  cases ht : st.toAdd[i]? with
  | none =>
    have hx : s.tuple ∉ tuples st.toAdd := by
      rintro ⟨e, he, h⟩
      obtain ⟨j, hj⟩ := List.mem_iff_getElem?.mp he
      have := hb j e hj h
      subst this
      rw [hj] at ht; cases ht
    have : viewTags st s.tuple = [] := tagsOf_retainIdx_not _ hst hx
    exact ⟨fun _ => rfl, by simp only; rw [this]; simp [tagsOf_cons, sumTags]⟩
  | some t =>
    simp only
    by_cases hne : t.tuple ≠ s.tuple
    · rw [if_pos hne]
      have hx : s.tuple ∉ tuples st.toAdd := by
        rintro ⟨e, he, h⟩
        obtain ⟨j, hj⟩ := List.mem_iff_getElem?.mp he
        have := hb j e hj h
        subst this
        rw [hj] at ht; cases ht
        exact hne h
      have : viewTags st s.tuple = [] := tagsOf_retainIdx_not _ hst hx
      exact ⟨fun _ => rfl, by simp only; rw [this]; simp [tagsOf_cons, sumTags]⟩
    · rw [if_neg hne]
      have hne : t.tuple = s.tuple := not_not.mp hne
      have hirm : i ∉ st.rm := fun h => hrm i h t ht hne
      have hview : viewTags st s.tuple = [t.tag] := by
        unfold viewTags
        rw [← hne, tagsOf_retainIdx _ hst ht]
        simp [hirm]
      rw [hview]
      unfold satUpdate
      by_cases hsat : c.saturated s.tag (c.add s.tag t.tag) = true
      · simp only [hsat, if_true]
        constructor
        · intro hx
          unfold viewTags
          simp only
          by_cases hxm : x ∈ tuples st.toAdd
          · obtain ⟨e, he, rfl⟩ := hxm
            obtain ⟨j, hj⟩ := List.mem_iff_getElem?.mp he
            rw [tagsOf_retainIdx _ hst hj, tagsOf_retainIdx _ hst hj]
            have hji : j ≠ i := by
              rintro rfl; rw [hj] at ht; cases ht; exact hx hne
            simp [hji]
          · rw [tagsOf_retainIdx_not _ hst hxm, tagsOf_retainIdx_not _ hst hxm]
        · have : viewTags (⟨st.toAdd, i :: st.rm⟩ : Scan α T) s.tuple = [] := by
            unfold viewTags
            rw [← hne, tagsOf_retainIdx _ hst ht]
            simp
          rw [this]
          simp [tagsOf_cons, sumTags]
      · simp only [hsat, Bool.false_eq_true, if_false]
        have hm : (st.toAdd.set i { t with tag := c.add s.tag t.tag }).map Elem.tuple = st.toAdd.map Elem.tuple :=
          map_set_tuple ht rfl
        have hst' : Sorted (st.toAdd.set i { t with tag := c.add s.tag t.tag }) := by
          rw [sorted_map, hm, ← sorted_map]; exact hst
        have hilt : i < st.toAdd.length := (List.getElem?_eq_some_iff.mp ht).1
        constructor
        · intro hx
          unfold viewTags
          simp only
          by_cases hxm : x ∈ tuples st.toAdd
          · obtain ⟨e, he, rfl⟩ := hxm
            obtain ⟨j, hj⟩ := List.mem_iff_getElem?.mp he
            have hji : j ≠ i := by
              rintro rfl; rw [hj] at ht; cases ht; exact hx hne
            have hj' : (st.toAdd.set i { t with tag := c.add s.tag t.tag })[j]? = some e := by
              rw [List.getElem?_set_ne (Ne.symm hji)]; exact hj
            rw [tagsOf_retainIdx _ hst' hj', tagsOf_retainIdx _ hst hj]
          · rw [tagsOf_retainIdx_not _ hst' (by rw [tuples_eq_of_map hm]; exact hxm), tagsOf_retainIdx_not _ hst hxm]
        · have hi' : (st.toAdd.set i { t with tag := c.add s.tag t.tag })[i]? = some { t with tag := c.add s.tag t.tag } := by
            simp [hilt]
          have := tagsOf_retainIdx (fun i _ => !st.rm.contains i) hst' hi'
          simp only at this
          unfold viewTags
          rw [← hne]
          simp only
          rw [this]
          simp [hirm, sumTags]

theorem seekLinear_boundary (l : List (Elem α T)) (i : Nat) (k : α) (h : Sorted l)
    (hi : ∀ j e, j < i → l[j]? = some e → e.tuple < k) :
    (∀ j e, j < seekLinear l i k → l[j]? = some e → e.tuple < k) ∧
    (∀ j e, l[j]? = some e → e.tuple = k → j = seekLinear l i k) := by
  unfold seekLinear
  have hlow : ∀ j e, j < i + ((l.drop i).takeWhile (fun y => decide (y.tuple < k))).length → l[j]? = some e → e.tuple < k := by
    intro j e hj he
    by_cases hji : j < i
    · exact hi j e hji he
    · have hmem : e ∈ (l.drop i).takeWhile (fun y => decide (y.tuple < k)) := by
        have hpre := List.takeWhile_prefix (l := l.drop i) (p := fun y : Elem α T => decide (y.tuple < k))
        have hlt : j - i < ((l.drop i).takeWhile (fun y => decide (y.tuple < k))).length := by omega
        have hd : (l.drop i)[j - i]? = some e := by
          rw [List.getElem?_drop, show i + (j - i) = j by omega]; exact he
        have := List.getElem?_eq_getElem hlt
        have h2 := hpre.getElem hlt
        rw [List.getElem?_eq_some_iff] at hd
        obtain ⟨hd1, hd2⟩ := hd
        rw [hd2] at h2
        rw [← h2]; exact List.getElem_mem hlt
      exact takeWhile_lt_mem (e := ⟨k, e.tag⟩) hmem
  refine ⟨hlow, ?_⟩
  intro j e he hk
  generalize hn : ((l.drop i).takeWhile (fun y => decide (y.tuple < k))).length = n at *
  by_contra hne
  rcases Nat.lt_or_gt_of_ne hne with hlt | hgt
  · have := hlow j e hlt he
    rw [hk] at this; exact lt_irrefl _ this
  · -- the element at the boundary is not smaller than `k`, but lies before `e`
    have hjl : j < l.length := (List.getElem?_eq_some_iff.mp he).1
    have hb : i + n < l.length := by omega
    have hnot : ¬ (l[i + n].tuple < k) := by
      have hdw := List.takeWhile_append_dropWhile (l := l.drop i) (p := fun y : Elem α T => decide (y.tuple < k))
      have hge := dropWhile_lt_ge (e := (⟨k, e.tag⟩ : Elem α T)) (l := l.drop i)
        (List.Pairwise.sublist (List.drop_sublist _ _) h)
      have hmem : l[i + n] ∈ (l.drop i).dropWhile (fun y => decide (y.tuple < k)) := by
        have h1 : (l.drop i)[n]? = some l[i + n] := by rw [List.getElem?_drop]; simp [hb]
        rw [← hdw, List.getElem?_append_right (by omega), hn, Nat.sub_self] at h1
        exact List.mem_of_getElem? h1
      exact not_lt.mpr (hge _ hmem)
    obtain ⟨hj', rfl⟩ := List.getElem?_eq_some_iff.mp he
    have := List.pairwise_iff_getElem.mp h (i + n) j hb hj' hgt
    rw [hk] at this
    exact hnot this

theorem seek_eq (l : List (Elem α T)) (k : α) (h : Sorted l) : seekGallop l 0 k = seekLinear l 0 k := by
  obtain ⟨h1, h2, h3⟩ := gallop_split h k
  have hb := gallopIndex_boundary l (fun y => decide (y.tuple < k)) 0 (sorted_downClosed h k) (Or.inl rfl)
  unfold seekGallop seekLinear
  simp only [List.drop_zero, Nat.zero_add]
  generalize gallopIndex l 0 (fun y => decide (y.tuple < k)) = i at *
  conv_rhs => rw [← List.take_append_drop i l]
  rw [List.takeWhile_append_of_pos (by intro a ha; simpa using h2 a ha)]
  have : (l.drop i).takeWhile (fun y => decide (y.tuple < k)) = [] := by
    cases hd : l.drop i with
    | nil => rfl
    | cons a t =>
      rw [List.takeWhile_cons, if_neg]
      have := h3 a (by rw [hd]; simp)
      simpa using this
  rw [this]
  simp [h1]

theorem scanBatch_tags (c : Prov T W) : ∀ (batch : List (Elem α T)) (i : Nat) (st : Scan α T),
    Sorted batch → Sorted st.toAdd →
    (∀ s ∈ batch, ∀ j e, j < i → st.toAdd[j]? = some e → e.tuple < s.tuple) →
    (∀ j ∈ st.rm, ∀ e, st.toAdd[j]? = some e → e.tuple ∉ tuples batch) →
    ∀ x, (x ∉ tuples batch → viewTags (scanBatch c seekLinear batch i st).2 x = viewTags st x) ∧
      tagsOf (scanBatch c seekLinear batch i st).1 x ++ (if x ∈ batch.map Elem.tuple then viewTags (scanBatch c seekLinear batch i st).2 x else [])
        = if x ∈ batch.map Elem.tuple then (sumTags c (tagsOf batch x ++ viewTags st x)).toList else [] := by
  intro batch
  induction batch with
  | nil => intro i st _ _ _ _ x; simp [scanBatch]
  | cons s batch ih =>
    intro i st hsb hst hlow hrm x
    have hs := sorted_cons.mp hsb
    obtain ⟨hlow', hbd⟩ := seekLinear_boundary st.toAdd i s.tuple hst (fun j e hj he => hlow s (by simp) j e hj he)
    simp only [scanBatch]
    generalize seekLinear st.toAdd i s.tuple = i' at *
    have hr := stableRetain_tags c i' st s hst hbd (fun j hj e he h => hrm j hj e he (by rw [h, tuples_cons]; exact Or.inl rfl))
    have hr0 := stableRetain_spec c i' st s
    generalize stableRetain c i' st s = r at *
    have hst' : Sorted r.2.toAdd := by rw [sorted_map, hr0.1, ← sorted_map]; exact hst
    have hget : ∀ (j : Nat) (e : Elem α T), r.2.toAdd[j]? = some e → ∃ e' : Elem α T, st.toAdd[j]? = some e' ∧ e'.tuple = e.tuple := by
      intro j e he
      have : (r.2.toAdd.map Elem.tuple)[j]? = some e.tuple := by rw [List.getElem?_map, he]; rfl
      rw [hr0.1, List.getElem?_map] at this
      cases h : st.toAdd[j]? with
      | none => rw [h] at this; simp at this
      | some e' => rw [h] at this; simp at this; exact ⟨e', rfl, this⟩
    have hsnot : s.tuple ∉ tuples batch := by
      rintro ⟨d, hd, h⟩
      have := hs.1 d hd
      rw [h] at this; exact lt_irrefl _ this
    have hi := ih i' r.2 hs.2 hst' ?_ ?_
    · have hi := hi x
      have hrx := hr x
      have hrlist : ∀ y, y ≠ s.tuple → tagsOf r.1.toList y = [] := by
        intro y hy
        cases h : r.1 with
        | none => rfl
        | some s' =>
          have := hr0.2.1 s' h
          simp [tagsOf_cons, this, Ne.symm hy]
      rw [tagsOf_append]
      by_cases hx : x = s.tuple
      · subst hx
        have hxn : s.tuple ∉ batch.map Elem.tuple := by rw [← mem_tuples_map]; exact hsnot
        constructor
        · intro h; exact absurd (by rw [tuples_cons]; exact Or.inl rfl) h
        · have hi2 := hi.2
          rw [if_neg hxn, if_neg hxn, List.append_nil] at hi2
          rw [hi2, List.append_nil, if_pos (by simp), if_pos (by simp), hi.1 hsnot, tagsOf_cons, if_pos rfl,
            tagsOf_sorted_cons hsb]
          exact hrx.2
      · have hiff : x ∈ (s :: batch).map Elem.tuple ↔ x ∈ batch.map Elem.tuple := by simp [hx]
        rw [hrlist x hx, List.nil_append]
        constructor
        · intro h
          have h : x ∉ tuples batch := fun hm => h (by rw [tuples_cons]; exact Or.inr hm)
          rw [hi.1 h, hrx.1 hx]
        · simp only [hiff]
          rw [hi.2, hrx.1 hx, tagsOf_cons, if_neg (Ne.symm hx)]
    · intro d hd j e hj he
      obtain ⟨e', he', h⟩ := hget j e he
      rw [← h]
      exact lt_trans (hlow' j e' hj he') (hs.1 d hd)
    · intro j hj e he
      obtain ⟨e', he', h⟩ := hget j e he
      rcases hr0.2.2.1 j hj with h1 | ⟨_, h1⟩
      · rw [← h]
        exact fun hm => hrm j h1 e' he' (by rw [tuples_cons]; exact Or.inr hm)
      · rw [List.getElem?_map, he'] at h1
        simp at h1
        rw [← h, h1]; exact hsnot

/-- A stable batch and the pending collection are in the size relation for which the scan is right: not galloping, or at most
one element. -/
def ScanSafe (toAdd : List (Elem α T)) (b : List (Elem α T)) : Prop := toAdd.length ≤ 4 * b.length ∨ b.length ≤ 1

theorem scanStable_tags (c : Prov T W) : ∀ (bs : List (List (Elem α T))) (st : Scan α T),
    (∀ b ∈ bs, Sorted b) → Sorted st.toAdd → (∀ b ∈ bs, ScanSafe st.toAdd b) →
    (bs.Pairwise (fun b d => ∀ x, x ∈ tuples b → x ∉ tuples d)) →
    (∀ j ∈ st.rm, ∀ e, st.toAdd[j]? = some e → e.tuple ∉ tuplesB bs) →
    ∀ x, (x ∉ tuplesB bs → viewTags (scanStable c bs st).2 x = viewTags st x) ∧
      (x ∈ tuplesB bs → tagsOfB (scanStable c bs st).1 x ++ viewTags (scanStable c bs st).2 x
        = (sumTags c (tagsOfB bs x ++ viewTags st x)).toList) := by
  intro bs
  induction bs with
  | nil => intro st _ _ _ _ _ x; simp [scanStable]
  | cons b bs ih =>
    intro st hsb hst hsafe hdis hrm x
    have hb := hsb b (by simp)
    have hd := List.pairwise_cons.mp hdis
    simp only [scanStable]
    have hr : (if st.toAdd.length > 4 * b.length then scanBatch c seekGallop b 0 st else scanBatch c seekLinear b 0 st)
        = scanBatch c seekLinear b 0 st := by
      split
      · rename_i hlen
        rcases hsafe b (by simp) with h | h
        · omega
        · match b, h with
          | [], _ => rfl
          | [s], _ => simp only [scanBatch]; rw [seek_eq _ _ hst]
      · rfl
    rw [hr]
    have h1 := scanBatch_tags c b 0 st hb hst (by intro _ _ j e hj; omega)
      (fun j hj e he h => hrm j hj e he (by rw [tuplesB_cons]; exact Or.inl h)) 
    have h0 := scanBatch_spec c seekLinear b 0 st
    generalize scanBatch c seekLinear b 0 st = r at *
    have hst' : Sorted r.2.toAdd := by rw [sorted_map, h0.1, ← sorted_map]; exact hst
    have hlen : r.2.toAdd.length = st.toAdd.length := by
      have := congrArg List.length h0.1
      simpa using this
    have hget : ∀ (j : Nat) (e : Elem α T), r.2.toAdd[j]? = some e → ∃ e' : Elem α T, st.toAdd[j]? = some e' ∧ e'.tuple = e.tuple := by
      intro j e he
      have : (r.2.toAdd.map Elem.tuple)[j]? = some e.tuple := by rw [List.getElem?_map, he]; rfl
      rw [h0.1, List.getElem?_map] at this
      cases h : st.toAdd[j]? with
      | none => rw [h] at this; simp at this
      | some e' => rw [h] at this; simp at this; exact ⟨e', rfl, this⟩
    have hrsub : ∀ y, y ∈ tuples r.1 → y ∈ tuples b := by
      intro y hy; rw [mem_tuples_map] at hy ⊢; exact h0.2.1.subset hy
    have hi := ih r.2 (fun d hd => hsb d (List.mem_cons_of_mem _ hd)) hst'
      (fun d hd => by unfold ScanSafe; rw [hlen]; exact hsafe d (List.mem_cons_of_mem _ hd)) hd.2 ?_ x
    · have h1 := h1 x
      have h2 := scanStable_spec c bs r.2
      generalize scanStable c bs r.2 = q at *
      constructor
      · intro hx
        rw [tuplesB_cons] at hx
        have hx1 : x ∉ tuples b := fun h => hx (Or.inl h)
        have hx2 : x ∉ tuplesB bs := fun h => hx (Or.inr h)
        rw [hi.1 hx2, h1.1 hx1]
      · intro hx
        have e1 : ∀ (m : List (Elem α T)) (ms : List (List (Elem α T))), tagsOfB (m :: ms) x = tagsOf m x ++ tagsOfB ms x := by
          intro m ms; simp [tagsOfB]
        rw [e1, e1]
        have hnilB : ∀ (ms : List (List (Elem α T))), x ∉ tuplesB ms → tagsOfB ms x = [] := by
          intro ms hm
          unfold tagsOfB
          rw [List.flatMap_eq_nil_iff]
          intro m hmem
          by_contra hne
          exact hm ⟨m, hmem, mem_tuples_iff.mpr hne⟩
        have hnil : ∀ (m : List (Elem α T)), x ∉ tuples m → tagsOf m x = [] := by
          intro m hm
          by_contra hne
          exact hm (mem_tuples_iff.mpr hne)
        rw [tuplesB_cons] at hx
        by_cases hxb : x ∈ tuples b
        · have hx2 : x ∉ tuplesB bs := by
            rintro ⟨d, hd', h⟩
            exact hd.1 d hd' x hxb h
          have hxm := mem_tuples_map.mp hxb
          have h12 := h1.2
          rw [if_pos hxm, if_pos hxm] at h12
          rw [hi.1 hx2, hnilB q.1 (fun h => hx2 (h2.2.2.1 x h)), hnilB bs hx2, List.append_nil, List.append_nil, h12]
        · have hx2 : x ∈ tuplesB bs := hx.resolve_left hxb
          rw [hnil r.1 (fun h => hxb (hrsub x h)), hnil b hxb, List.nil_append, List.nil_append, hi.2 hx2, h1.1 hxb]
    · intro j hj e he
      obtain ⟨e', he', h⟩ := hget j e he
      rw [← h]
      rcases h0.2.2.1 j hj with h1 | ⟨y, hy, h1⟩
      · exact fun hm => hrm j h1 e' he' (by rw [tuplesB_cons]; exact Or.inr hm)
      · rw [List.getElem?_map, he'] at h1
        simp at h1
        rw [h1]
        rintro ⟨d, hd', hm⟩
        exact hd.1 d hd' y (hrsub y hy) hm

theorem scheduleLfp_tags (c : Prov T W) (toAdd : List (Elem α T)) (stable : List (List (Elem α T)))
    (h1 : Sorted toAdd) (h2 : ∀ b ∈ stable, Sorted b) (hsafe : ∀ b ∈ stable, ScanSafe toAdd b)
    (hdis : stable.Pairwise (fun b d => ∀ x, x ∈ tuples b → x ∉ tuples d)) (x : α) :
    tagsOfB (scheduleLfp c toAdd stable).2 x ++ tagsOf (scheduleLfp c toAdd stable).1 x
      = (sumTags c (tagsOfB stable x ++ tagsOf toAdd x)).toList := by
  have hnilB : ∀ (ms : List (List (Elem α T))), x ∉ tuplesB ms → tagsOfB ms x = [] := by
    intro ms hm
    unfold tagsOfB
    rw [List.flatMap_eq_nil_iff]
    intro m hmem
    by_contra hne
    exact hm ⟨m, hmem, mem_tuples_iff.mpr hne⟩
  have hv : viewTags (⟨toAdd, []⟩ : Scan α T) x = tagsOf toAdd x := by
    unfold viewTags retainIdx; simp
  have ht := scanStable_tags c stable ⟨toAdd, []⟩ h2 h1 hsafe hdis (by simp) x
  have hs := scanStable_spec c stable ⟨toAdd, []⟩
  rw [hv] at ht
  unfold scheduleLfp
  split
  · simp only
    generalize scanStable c stable ⟨toAdd, []⟩ = r at *
    by_cases hx : x ∈ tuplesB stable
    · exact ht.2 hx
    · have := ht.1 hx
      rw [hnilB _ hx, hnilB r.1 (fun h => hx (hs.2.2.1 x h))]
      unfold viewTags at this
      rw [List.nil_append, List.nil_append, this, sumTags_sorted c h1]
  · rename_i hlen
    have : toAdd = [] := by
      cases toAdd with
      | nil => rfl
      | cons a l => simp at hlen
    subst this
    simp only [tagsOf_nil, List.append_nil]
    by_cases hx : x ∈ tuplesB stable
    · have := ht.2 hx
      -- without pending elements, nothing to combine: at most one batch has the tuple
      clear this ht hs hsafe hv
      induction stable with
      | nil => rfl
      | cons b bs ih =>
        have hd := List.pairwise_cons.mp hdis
        have e1 : tagsOfB (b :: bs) x = tagsOf b x ++ tagsOfB bs x := by simp [tagsOfB]
        rw [e1]
        by_cases hxb : x ∈ tuples b
        · have hx2 : x ∉ tuplesB bs := by
            rintro ⟨d, hd', h⟩
            exact hd.1 d hd' x hxb h
          rw [hnilB bs hx2, List.append_nil, sumTags_sorted c (h2 b (by simp))]
        · have : tagsOf b x = [] := by
            by_contra hne
            exact hxb (mem_tuples_iff.mpr hne)
          rw [this, List.nil_append]
          rw [tuplesB_cons] at hx
          exact ih (fun d hd => h2 d (List.mem_cons_of_mem _ hd)) hd.2 (hx.resolve_left hxb)
    · rw [hnilB _ hx]; rfl

end Scallop
