import Verif.Model.Relation
import Verif.Spec.Relation
import Verif.Proof.Insert

namespace Scallop
variable {α T W : Type*}

theorem mem_tuples_map {l : List (Elem α T)} {x : α} : x ∈ tuples l ↔ x ∈ l.map Elem.tuple := by
  simp [tuples]

theorem tuples_eq_of_map {l m : List (Elem α T)} (h : l.map Elem.tuple = m.map Elem.tuple) : tuples l = tuples m := by
  ext x; rw [mem_tuples_map, mem_tuples_map, h]

@[simp] theorem tuplesB_nil : tuplesB ([] : List (List (Elem α T))) = ∅ := by
  ext x; simp [tuplesB]

theorem tuplesB_cons (b : List (Elem α T)) (bs : List (List (Elem α T))) :
    tuplesB (b :: bs) = tuples b ∪ tuplesB bs := by
  ext x; simp [tuplesB]

theorem tuplesB_append (bs cs : List (List (Elem α T))) : tuplesB (bs ++ cs) = tuplesB bs ∪ tuplesB cs := by
  ext x; simp only [tuplesB, List.mem_append, Set.mem_setOf_eq, Set.mem_union]
  constructor
  · rintro ⟨b, h | h, hx⟩
    · exact Or.inl ⟨b, h, hx⟩
    · exact Or.inr ⟨b, h, hx⟩
  · rintro (⟨b, h, hx⟩ | ⟨b, h, hx⟩)
    · exact ⟨b, Or.inl h, hx⟩
    · exact ⟨b, Or.inr h, hx⟩

theorem tuplesB_reverse (bs : List (List (Elem α T))) : tuplesB bs.reverse = tuplesB bs := by
  ext x; simp [tuplesB]

theorem tuples_reverse (l : List (Elem α T)) : tuples l.reverse = tuples l := by
  ext x; simp [tuples]

theorem tuples_perm {l m : List (Elem α T)} (h : l.Perm m) : tuples l = tuples m := by
  ext x; simp [tuples, h.mem_iff]

variable [LinearOrder α]

theorem sorted_map {l : List (Elem α T)} : Sorted l ↔ (l.map Elem.tuple).Pairwise (· < ·) := by
  rw [List.pairwise_map]; rfl

theorem sorted_of_map_sublist {l m : List (Elem α T)} (h : Sorted m)
    (hs : (l.map Elem.tuple).Sublist (m.map Elem.tuple)) : Sorted l :=
  sorted_map.mpr (List.Pairwise.sublist hs (sorted_map.mp h))

/-! ### The pass over the stable batches -/

theorem satUpdate_tuple (c : Prov T W) (t s : Elem α T) :
    (satUpdate c t s).2.1.tuple = t.tuple ∧ (satUpdate c t s).2.2.tuple = s.tuple := by
  unfold satUpdate
  simp only
  split <;> exact ⟨rfl, rfl⟩

theorem map_set_tuple {l : List (Elem α T)} {i : Nat} {t e : Elem α T} (h : l[i]? = some t) (he : e.tuple = t.tuple) :
    (l.set i e).map Elem.tuple = l.map Elem.tuple := by
  rw [List.map_set]
  apply List.ext_getElem?
  intro j
  rw [List.getElem?_set]
  split
  · rename_i hij
    subst hij
    simp only [List.length_map]
    obtain ⟨hi, rfl⟩ := List.getElem?_eq_some_iff.mp h
    simp [hi, he]
  · rfl

theorem stableRetain_spec (c : Prov T W) (i : Nat) (st : Scan α T) (s : Elem α T) :
    (stableRetain c i st s).2.toAdd.map Elem.tuple = st.toAdd.map Elem.tuple ∧
    (∀ s', (stableRetain c i st s).1 = some s' → s'.tuple = s.tuple) ∧
    (∀ j ∈ (stableRetain c i st s).2.rm, j ∈ st.rm ∨
      ((stableRetain c i st s).1.isSome ∧ (st.toAdd.map Elem.tuple)[j]? = some s.tuple)) ∧
    ((stableRetain c i st s).1 = none → s.tuple ∈ tuples st.toAdd) := by
  unfold stableRetain
  cases ht : st.toAdd[i]? with
  | none => exact ⟨rfl, by simp, fun j hj => Or.inl hj, by simp⟩
  | some t =>
    simp only
    by_cases hne : t.tuple ≠ s.tuple
    · rw [if_pos hne]
      exact ⟨rfl, by simp, fun j hj => Or.inl hj, by simp⟩
    · rw [if_neg hne]
      have hne : t.tuple = s.tuple := not_not.mp hne
      have hsu := satUpdate_tuple c t s
      rcases hr : satUpdate c t s with ⟨b, t', s'⟩
      rw [hr] at hsu
      simp only at hsu
      cases b with
      | true =>
        simp only
        refine ⟨by simp, by simp [hsu.2], ?_, by simp⟩
        intro j hj
        rcases List.mem_cons.mp hj with rfl | hj
        · right
          refine ⟨rfl, ?_⟩
          rw [List.getElem?_map, ht]; simp [hne]
        · exact Or.inl hj
      | false =>
        simp only
        refine ⟨map_set_tuple ht hsu.1, by simp, fun j hj => Or.inl hj, ?_⟩
        intro _
        exact ⟨t, List.mem_of_getElem? ht, hne⟩

theorem scanBatch_spec (c : Prov T W) (seek : List (Elem α T) → Nat → α → Nat) : ∀ (batch : List (Elem α T)) (i : Nat)
    (st : Scan α T),
    (scanBatch c seek batch i st).2.toAdd.map Elem.tuple = st.toAdd.map Elem.tuple ∧
    ((scanBatch c seek batch i st).1.map Elem.tuple).Sublist (batch.map Elem.tuple) ∧
    (∀ j ∈ (scanBatch c seek batch i st).2.rm, j ∈ st.rm ∨
      ∃ x ∈ tuples (scanBatch c seek batch i st).1, (st.toAdd.map Elem.tuple)[j]? = some x) ∧
    (∀ x ∈ tuples batch, x ∈ tuples (scanBatch c seek batch i st).1 ∨ x ∈ tuples st.toAdd) := by
  intro batch
  induction batch with
  | nil => intro i st; simp [scanBatch]
  | cons s batch ih =>
    intro i st
    have hr := stableRetain_spec c (seek st.toAdd i s.tuple) st s
    simp only [scanBatch]
    generalize seek st.toAdd i s.tuple = i' at *
    have hi := ih i' (stableRetain c i' st s).2
    obtain ⟨a1, a2, a3, a4⟩ := hr
    obtain ⟨b1, b2, b3, b4⟩ := hi
    rw [a1] at b1 b3
    refine ⟨b1, ?_, ?_, ?_⟩
    · rw [List.map_append]
      cases h : (stableRetain c i' st s).1 with
      | none => simpa using List.Sublist.cons _ b2
      | some s' => simpa [a2 s' h] using b2
    · intro j hj
      rcases b3 j hj with h | ⟨x, hx, h⟩
      · rcases a3 j h with h | ⟨h1, h2⟩
        · exact Or.inl h
        · right
          obtain ⟨s', hs'⟩ := Option.isSome_iff_exists.mp h1
          refine ⟨s.tuple, ?_, h2⟩
          rw [tuples_append, hs']
          left
          exact ⟨s', by simp, a2 s' hs'⟩
      · right
        refine ⟨x, ?_, h⟩
        rw [tuples_append]; exact Or.inr hx
    · intro x hx
      rw [tuples_append]
      rw [tuples_cons] at hx
      rcases hx with hx | hx
      · have hx : x = s.tuple := hx
        subst hx
        cases h : (stableRetain c i' st s).1 with
        | none => exact Or.inr (a4 h)
        | some s' => exact Or.inl (Or.inl ⟨s', by simp, a2 s' h⟩)
      · rcases b4 x hx with h | h
        · exact Or.inl (Or.inr h)
        · rw [tuples_eq_of_map a1] at h; exact Or.inr h

theorem scanStable_spec (c : Prov T W) : ∀ (bs : List (List (Elem α T))) (st : Scan α T),
    (scanStable c bs st).2.toAdd.map Elem.tuple = st.toAdd.map Elem.tuple ∧
    ((∀ b ∈ bs, Sorted b) → ∀ b ∈ (scanStable c bs st).1, Sorted b) ∧
    (∀ x ∈ tuplesB (scanStable c bs st).1, x ∈ tuplesB bs) ∧
    (∀ j ∈ (scanStable c bs st).2.rm, j ∈ st.rm ∨
      ∃ x ∈ tuplesB (scanStable c bs st).1, (st.toAdd.map Elem.tuple)[j]? = some x) ∧
    (∀ x ∈ tuplesB bs, x ∈ tuplesB (scanStable c bs st).1 ∨ x ∈ tuples st.toAdd) := by
  intro bs
  induction bs with
  | nil => intro st; simp [scanStable]
  | cons b bs ih =>
    intro st
    simp only [scanStable]
    have hr : ∃ seek, (if st.toAdd.length > 4 * b.length then scanBatch c seekGallop b 0 st else scanBatch c seekLinear b 0 st)
        = scanBatch c seek b 0 st := by
      split
      · exact ⟨_, rfl⟩
      · exact ⟨_, rfl⟩
    obtain ⟨seek, hr⟩ := hr
    rw [hr]
    have h1 := scanBatch_spec c seek b 0 st
    generalize scanBatch c seek b 0 st = r at *
    have h2 := ih r.2
    obtain ⟨a1, a2, a3, a4⟩ := h1
    obtain ⟨b1, b2, b3, b4, b5⟩ := h2
    rw [a1] at b1 b4
    refine ⟨b1, ?_, ?_, ?_, ?_⟩
    · intro hs d hd
      rcases List.mem_cons.mp hd with rfl | hd
      · exact sorted_of_map_sublist (hs b (by simp)) a2
      · exact b2 (fun b hb => hs b (List.mem_cons_of_mem _ hb)) d hd
    · intro x hx
      rw [tuplesB_cons] at hx ⊢
      rcases hx with hx | hx
      · left
        rw [mem_tuples_map] at hx ⊢
        exact a2.subset hx
      · exact Or.inr (b3 x hx)
    · intro j hj
      rw [tuplesB_cons]
      rcases b4 j hj with h | ⟨x, hx, h⟩
      · rcases a3 j h with h | ⟨x, hx, h⟩
        · exact Or.inl h
        · exact Or.inr ⟨x, Or.inl hx, h⟩
      · exact Or.inr ⟨x, Or.inr hx, h⟩
    · intro x hx
      rw [tuplesB_cons] at hx ⊢
      rcases hx with hx | hx
      · rcases a4 x hx with h | h
        · exact Or.inl (Or.inl h)
        · exact Or.inr h
      · rcases b5 x hx with h | h
        · exact Or.inl (Or.inr h)
        · rw [tuples_eq_of_map a1] at h; exact Or.inr h

theorem mem_retainIdx {β : Type*} {f : Nat → β → Bool} {l : List β} {e : β} :
    e ∈ retainIdx f l ↔ ∃ i, l[i]? = some e ∧ f i e = true := by
  unfold retainIdx
  simp only [List.mem_map, List.mem_filter, Prod.exists, List.mem_zipIdx_iff_getElem?]
  constructor
  · rintro ⟨a, i, ⟨h1, h2⟩, rfl⟩; exact ⟨i, h1, h2⟩
  · rintro ⟨i, h1, h2⟩; exact ⟨e, i, ⟨h1, h2⟩, rfl⟩

theorem retainIdx_sublist {β : Type*} (f : Nat → β → Bool) (l : List β) : (retainIdx f l).Sublist l := by
  unfold retainIdx
  have h : (l.zipIdx.map Prod.fst) = l := by simp
  conv_rhs => rw [← h]
  exact List.Sublist.map _ List.filter_sublist

theorem scheduleLfp_sorted (c : Prov T W) {toAdd : List (Elem α T)} {stable : List (List (Elem α T))}
    (h1 : Sorted toAdd) (h2 : ∀ b ∈ stable, Sorted b) :
    Sorted (scheduleLfp c toAdd stable).1 ∧ ∀ b ∈ (scheduleLfp c toAdd stable).2, Sorted b := by
  unfold scheduleLfp
  split
  · have hs := scanStable_spec c stable ⟨toAdd, []⟩
    refine ⟨?_, hs.2.1 h2⟩
    simp only
    refine List.Pairwise.sublist (retainIdx_sublist _ _) ?_
    rw [← Sorted, sorted_map, hs.1]
    exact sorted_map.mp h1
  · exact ⟨h1, h2⟩

theorem scheduleLfp_sublist (c : Prov T W) (toAdd : List (Elem α T)) (stable : List (List (Elem α T))) :
    ((scheduleLfp c toAdd stable).1.map Elem.tuple).Sublist (toAdd.map Elem.tuple) := by
  unfold scheduleLfp
  split
  · have hs := scanStable_spec c stable ⟨toAdd, []⟩
    have := (retainIdx_sublist (fun i _ => !(scanStable c stable ⟨toAdd, []⟩).2.rm.contains i)
      (scanStable c stable ⟨toAdd, []⟩).2.toAdd).map Elem.tuple
    rw [hs.1] at this
    exact this
  · exact List.Sublist.refl _

theorem scheduleLfp_tuples (c : Prov T W) (toAdd : List (Elem α T)) (stable : List (List (Elem α T))) :
    tuples (scheduleLfp c toAdd stable).1 ∪ tuplesB (scheduleLfp c toAdd stable).2 = tuples toAdd ∪ tuplesB stable := by
  have hsub := scheduleLfp_sublist c toAdd stable
  unfold scheduleLfp at *
  split
  · rename_i hpos
    rw [if_pos hpos] at hsub
    simp only at hsub ⊢
    have hs := scanStable_spec c stable ⟨toAdd, []⟩
    generalize scanStable c stable ⟨toAdd, []⟩ = r at *
    obtain ⟨h1, _, h3, h4, h5⟩ := hs
    simp only at h1 h4 h5
    ext x
    constructor
    · rintro (hx | hx)
      · left; rw [mem_tuples_map] at hx ⊢; exact hsub.subset hx
      · exact Or.inr (h3 x hx)
    · have key : x ∈ tuples toAdd → x ∈ tuples (retainIdx (fun i _ => !r.2.rm.contains i) r.2.toAdd) ∪ tuplesB r.1 := by
        intro hx
        rw [mem_tuples_map, ← h1, List.mem_map] at hx
        obtain ⟨e, he, rfl⟩ := hx
        obtain ⟨j, hj⟩ := List.mem_iff_getElem?.mp he
        by_cases hr : j ∈ r.2.rm
        · rcases h4 j hr with h | ⟨y, hy, h⟩
          · simp at h
          · rw [← h1, List.getElem?_map, hj] at h
            simp at h
            rw [h]; exact Or.inr hy
        · left
          exact ⟨e, mem_retainIdx.mpr ⟨j, hj, by simpa using hr⟩, rfl⟩
      rintro (hx | hx)
      · exact key hx
      · rcases h5 x hx with h | h
        · exact Or.inr h
        · exact key h
  · rfl

/-! ### Popping the wait list -/

theorem lookupStable_spec (c : Prov T W) (w : Elem α T) : ∀ (bs : List (List (Elem α T))),
    match lookupStable c w bs with
    | .notFound => True
    | .saturated bs' => tuplesB bs' = tuplesB bs ∧ w.tuple ∈ tuplesB bs ∧ ((∀ b ∈ bs, Sorted b) → ∀ b ∈ bs', Sorted b)
    | .unsaturated w' bs' => w'.tuple = w.tuple ∧ {w.tuple} ∪ tuplesB bs' = {w.tuple} ∪ tuplesB bs ∧
        ((∀ b ∈ bs, Sorted b) → ∀ b ∈ bs', Sorted b) := by
  intro bs
  induction bs with
  | nil => simp [lookupStable]
  | cons b bs ih =>
    have hnext : match (match lookupStable c w bs with
        | .notFound => (.notFound : Lookup α T)
        | .saturated bs' => .saturated (b :: bs')
        | .unsaturated w' bs' => .unsaturated w' (b :: bs')) with
      | .notFound => True
      | .saturated bs' => tuplesB bs' = tuplesB (b :: bs) ∧ w.tuple ∈ tuplesB (b :: bs) ∧
          ((∀ d ∈ b :: bs, Sorted d) → ∀ d ∈ bs', Sorted d)
      | .unsaturated w' bs' => w'.tuple = w.tuple ∧ {w.tuple} ∪ tuplesB bs' = {w.tuple} ∪ tuplesB (b :: bs) ∧
          ((∀ d ∈ b :: bs, Sorted d) → ∀ d ∈ bs', Sorted d) := by
      revert ih
      cases lookupStable c w bs with
      | notFound => simp
      | saturated bs' =>
        simp only
        rintro ⟨h1, h2, h3⟩
        refine ⟨by rw [tuplesB_cons, tuplesB_cons, h1], by rw [tuplesB_cons]; exact Or.inr h2, ?_⟩
        intro hs d hd
        rcases List.mem_cons.mp hd with rfl | hd
        · exact hs d (by simp)
        · exact h3 (fun b hb => hs b (List.mem_cons_of_mem _ hb)) d hd
      | unsaturated w' bs' =>
        simp only
        rintro ⟨h1, h2, h3⟩
        refine ⟨h1, ?_, ?_⟩
        · rw [tuplesB_cons, tuplesB_cons, Set.union_left_comm, h2, Set.union_left_comm]
        · intro hs d hd
          rcases List.mem_cons.mp hd with rfl | hd
          · exact hs d (by simp)
          · exact h3 (fun b hb => hs b (List.mem_cons_of_mem _ hb)) d hd
    unfold lookupStable
    simp only
    generalize gallopIndex b 0 (fun y => decide (y.tuple < w.tuple)) = i
    cases hi : b[i]? with
    | none => exact hnext
    | some s =>
      simp only
      by_cases hne : s.tuple ≠ w.tuple
      · rw [if_pos hne]; exact hnext
      · rw [if_neg hne]
        have hne : s.tuple = w.tuple := not_not.mp hne
        have hsu := satUpdate_tuple c w s
        rcases hr : satUpdate c w s with ⟨bo, w', s'⟩
        rw [hr] at hsu
        simp only at hsu
        cases bo with
        | true =>
          simp only
          have hm := map_set_tuple hi hsu.2
          refine ⟨by rw [tuplesB_cons, tuplesB_cons, tuples_eq_of_map hm], ?_, ?_⟩
          · rw [tuplesB_cons]; left; exact ⟨s, List.mem_of_getElem? hi, hne⟩
          · intro hs d hd
            rcases List.mem_cons.mp hd with rfl | hd
            · rw [sorted_map, hm, ← sorted_map]; exact hs b (by simp)
            · exact hs d (List.mem_cons_of_mem _ hd)
        | false =>
          simp only
          refine ⟨hsu.1, ?_, ?_⟩
          · rw [tuplesB_cons, tuplesB_cons, ← Set.union_assoc, ← Set.union_assoc]
            congr 1
            ext x
            constructor
            · rintro (hx | ⟨e, he, rfl⟩)
              · exact Or.inl hx
              · exact Or.inr ⟨e, (retainIdx_sublist _ _).subset he, rfl⟩
            · rintro (hx | ⟨e, he, rfl⟩)
              · exact Or.inl hx
              · obtain ⟨j, hj⟩ := List.mem_iff_getElem?.mp he
                by_cases hij : j = i
                · subst hij
                  rw [hj] at hi; cases hi
                  left; exact hne
                · right; exact ⟨e, mem_retainIdx.mpr ⟨j, hj, by simpa using hij⟩, rfl⟩
          · intro hs d hd
            rcases List.mem_cons.mp hd with rfl | hd
            · exact List.Pairwise.sublist (retainIdx_sublist _ _) (hs b (by simp))
            · exact hs d (List.mem_cons_of_mem _ hd)

theorem insertUnchecked?_nil (w : Elem α T) : insertUnchecked? [] w = some [w] := by
  simp [insertUnchecked?, gallopIndex, cmpAt, vecInsert]

theorem popWaitlist_spec (c : Prov T W) : ∀ (ws : List (Elem α T)) (stable : List (List (Elem α T))),
    ∃ a ws' stable', popWaitlist c ws stable = some (a, ws', stable') ∧ a.length ≤ 1 ∧ Sorted a ∧
      ((∀ b ∈ stable, Sorted b) → ∀ b ∈ stable', Sorted b) ∧
      tuples a ∪ tuples ws' ∪ tuplesB stable' = tuples ws ∪ tuplesB stable ∧ (a = [] → ws' = []) := by
  intro ws
  induction ws with
  | nil => intro stable; exact ⟨[], [], stable, rfl, by simp, List.Pairwise.nil, fun h => h, by simp, fun _ => rfl⟩
  | cons w ws ih =>
    intro stable
    have hl := lookupStable_spec c w stable
    unfold popWaitlist
    cases h : lookupStable c w stable with
    | notFound =>
      refine ⟨[w], ws, stable, by simp [insertUnchecked?_nil], by simp, by simp [Sorted], fun h => h, ?_, by simp⟩
      rw [tuples_cons, tuples_cons]; simp
    | saturated s' =>
      rw [h] at hl
      obtain ⟨a, ws', st', e, h1, h2, h3, h4, h5⟩ := ih s'
      refine ⟨a, ws', st', e, h1, h2, fun hs => h3 (hl.2.2 hs), ?_, h5⟩
      rw [h4, hl.1, tuples_cons]
      ext x
      constructor
      · rintro (hx | hx)
        · exact Or.inl (Or.inr hx)
        · exact Or.inr hx
      · rintro ((hx | hx) | hx)
        · have hx : x = w.tuple := hx
          rw [hx]; exact Or.inr hl.2.1
        · exact Or.inl hx
        · exact Or.inr hx
    | unsaturated w' s' =>
      rw [h] at hl
      refine ⟨[w'], ws, s', by simp [insertUnchecked?_nil], by simp, by simp [Sorted], hl.2.2, ?_, by simp⟩
      rw [tuples_cons, tuples_cons, hl.1]
      simp only [tuples_nil, Set.union_empty]
      rw [Set.union_right_comm, hl.2.1, Set.union_right_comm]

theorem scheduleDfs_spec (c : Prov T W) (toAdd waitlist : List (Elem α T)) (stable : List (List (Elem α T)))
    (hs : ∀ b ∈ stable, Sorted b) (hsa : Sorted toAdd) :
    ∃ r, scheduleDfs c toAdd waitlist stable = some r ∧ r.toAdd.length ≤ 1 ∧ Sorted r.toAdd ∧ (∀ b ∈ r.stable, Sorted b) ∧
      tuples r.toAdd ∪ tuples r.waitlist ∪ tuplesB r.stable = tuples toAdd ∪ tuples waitlist ∪ tuplesB stable ∧
      (r.toAdd = [] → r.waitlist = []) := by
  have h1 := scheduleLfp_tuples c toAdd stable
  have h2 := scheduleLfp_sorted c hsa hs
  unfold scheduleDfs
  simp only
  generalize scheduleLfp c toAdd stable = p at *
  obtain ⟨p1, p2⟩ := p
  simp only at h1 h2 ⊢
  cases p1 with
  | cons f rest =>
    simp only [insertUnchecked?_nil, Option.map_some]
    refine ⟨_, rfl, by simp, by simp [Sorted], h2.2, ?_, by simp⟩
    simp only
    rw [Set.union_right_comm (tuples toAdd), ← h1, tuples_append, tuples_cons, tuples_cons]
    ext x; simp only [Set.mem_union, tuples_nil, Set.mem_empty_iff_false]; tauto
  | nil =>
    simp only
    obtain ⟨a, ws', st', e, g1, g2, g3, g4, g5⟩ := popWaitlist_spec c waitlist.reverse p2
    rw [e]
    refine ⟨⟨a, ws'.reverse, st'⟩, rfl, g1, g2, g3 h2.2, ?_, ?_⟩
    · simp only
      rw [tuples_reverse, g4, tuples_reverse, Set.union_right_comm, ← h1]; simp [Set.union_comm]
    · intro h; simp only at h ⊢; rw [g5 h]; rfl

theorem drainIntoWaitlist_spec [LinearOrder W] (c : Prov T W) : ∀ (ts wl : List (Elem α T)),
    ∃ r, drainIntoWaitlist c ts wl = some r ∧ tuples r = tuples ts ∪ tuples wl := by
  intro ts
  induction ts with
  | nil => intro wl; exact ⟨wl, rfl, by simp⟩
  | cons t ts ih =>
    intro wl
    unfold drainIntoWaitlist
    simp only
    have hle := gallopIndex_zero_le wl (fun e => decide (c.weight e.tag < c.weight t.tag))
    generalize gallopIndex wl 0 (fun e => decide (c.weight e.tag < c.weight t.tag)) = i at *
    cases hi : wl[i]? with
    | none =>
      obtain ⟨r, e, h⟩ := ih (wl ++ [t])
      refine ⟨r, e, ?_⟩
      rw [h, tuples_append, tuples_cons, tuples_cons]
      ext x; simp only [Set.mem_union, tuples_nil, Set.mem_empty_iff_false]; tauto
    | some e =>
      simp only
      split
      · rename_i heq
        obtain ⟨r, e', h⟩ := ih (wl.set i { e with tag := c.add e.tag t.tag })
        refine ⟨r, e', ?_⟩
        rw [h, tuples_eq_of_map (map_set_tuple (e := { e with tag := c.add e.tag t.tag }) hi rfl), tuples_cons]
        have : t.tuple ∈ tuples wl := ⟨e, List.mem_of_getElem? hi, heq⟩
        ext x
        simp only [Set.mem_union, Set.mem_singleton_iff]
        constructor
        · tauto
        · rintro ((rfl | h) | h) <;> tauto
      · rw [vecInsert_spec _ _ _ hle]
        obtain ⟨r, e', h⟩ := ih (wl.take i ++ t :: wl.drop i)
        refine ⟨r, e', ?_⟩
        rw [h, tuples_append, tuples_cons, tuples_cons]
        conv_rhs => rw [← List.take_append_drop i wl, tuples_append]
        ext x; simp only [Set.mem_union]; tauto

theorem scheduleAStar_spec [LinearOrder W] (c : Prov T W) (toAdd waitlist : List (Elem α T)) (stable : List (List (Elem α T)))
    (hs : ∀ b ∈ stable, Sorted b) (hsa : Sorted toAdd) :
    ∃ r, scheduleAStar c toAdd waitlist stable = some r ∧ r.toAdd.length ≤ 1 ∧ Sorted r.toAdd ∧ (∀ b ∈ r.stable, Sorted b) ∧
      tuples r.toAdd ∪ tuples r.waitlist ∪ tuplesB r.stable = tuples toAdd ∪ tuples waitlist ∪ tuplesB stable ∧
      (r.toAdd = [] → r.waitlist = []) := by
  have h1 := scheduleLfp_tuples c toAdd stable
  have h2 := scheduleLfp_sorted c hsa hs
  unfold scheduleAStar
  simp only
  generalize scheduleLfp c toAdd stable = p at *
  obtain ⟨wl, e, hw⟩ := drainIntoWaitlist_spec c p.1 waitlist
  obtain ⟨a, ws', st', e', g1, g2, g3, g4, g5⟩ := popWaitlist_spec c wl.reverse p.2
  rw [e]
  simp only [Option.bind_some]
  rw [e']
  refine ⟨⟨a, ws'.reverse, st'⟩, rfl, g1, g2, g3 h2.2, ?_, ?_⟩
  · simp only
    rw [tuples_reverse, g4, tuples_reverse, hw, Set.union_right_comm, h1, Set.union_right_comm]
  · intro h; simp only at h ⊢; rw [g5 h]; rfl

theorem drainByWeight_spec [LinearOrder W] (c : Prov T W) : ∀ (ts sd : List (Elem α T)),
    ∃ r, drainByWeight c ts sd = some r ∧ r.Perm (ts ++ sd) := by
  intro ts
  induction ts with
  | nil => intro sd; exact ⟨sd, rfl, by simp⟩
  | cons t ts ih =>
    intro sd
    unfold drainByWeight
    have hle := gallopIndex_zero_le sd (fun e => decide (c.weight e.tag < c.weight t.tag))
    generalize gallopIndex sd 0 (fun e => decide (c.weight e.tag < c.weight t.tag)) = i at *
    rw [vecInsert_spec _ _ _ hle]
    obtain ⟨r, e, h⟩ := ih (sd.take i ++ t :: sd.drop i)
    refine ⟨r, e, h.trans ?_⟩
    have : (sd.take i ++ t :: sd.drop i).Perm (t :: sd) := by
      refine List.perm_middle.trans ?_
      rw [List.take_append_drop]
    exact (this.append_left ts).trans List.perm_middle

/-- Inserting a list of elements with pairwise different new tuples. -/
theorem insertOne_new {acc : List (Elem α T)} {t : Elem α T} (hs : Sorted acc) (hnew : t.tuple ∉ tuples acc) :
    ∃ r, insertUnchecked? acc t = some r ∧ Sorted r ∧ r.Perm (t :: acc) := by
  obtain ⟨r, e, h, _⟩ := insertUnchecked?_spec acc t hs hnew
  obtain ⟨r', e', h'⟩ := insertUnchecked?_tuples acc t
  rw [e] at e'; cases e'
  exact ⟨r, e, h, h'⟩

theorem takeBeam_spec : ∀ (n : Nat) (rsd acc : List (Elem α T)), n ≤ rsd.length → Sorted acc →
    ((rsd ++ acc).map Elem.tuple).Nodup →
    ∃ acc' rest, takeBeam n rsd acc = some (acc', rest) ∧ Sorted acc' ∧ (acc' ++ rest).Perm (acc ++ rsd) ∧
      acc'.length = acc.length + n := by
  intro n
  induction n with
  | zero => intro rsd acc _ hs _; exact ⟨acc, rsd, rfl, hs, List.Perm.refl _, by simp⟩
  | succ n ih =>
    intro rsd acc hn hs hnd
    cases rsd with
    | nil => simp at hn
    | cons t rsd =>
      simp only [List.cons_append, List.map_cons, List.nodup_cons] at hnd
      obtain ⟨r, e, h1, h2⟩ := insertOne_new (t := t) hs (by
        rw [mem_tuples_map]; intro h; exact hnd.1 (by rw [List.map_append]; exact List.mem_append_right _ h))
      unfold takeBeam
      rw [e]
      have hp : (rsd ++ r).Perm (t :: (rsd ++ acc)) := (h2.append_left rsd).trans List.perm_middle
      obtain ⟨acc', rest, e', g1, g2, g3⟩ := ih rsd r (by simpa using hn) h1 (by
        rw [(hp.map Elem.tuple).nodup_iff, List.map_cons, List.nodup_cons]; exact hnd)
      refine ⟨acc', rest, by simpa using e', g1, g2.trans ?_, ?_⟩
      · refine (h2.append_right rsd).trans ?_
        rw [List.cons_append]
        exact List.perm_middle.symm
      · rw [g3, h2.length_eq]; simp; omega

theorem insertAll_spec : ∀ (ts acc : List (Elem α T)), Sorted acc → ((ts ++ acc).map Elem.tuple).Nodup →
    ∃ r, insertAll ts acc = some r ∧ Sorted r ∧ r.Perm (ts ++ acc) := by
  intro ts
  induction ts with
  | nil => intro acc hs _; exact ⟨acc, rfl, hs, List.Perm.refl _⟩
  | cons t ts ih =>
    intro acc hs hnd
    simp only [List.cons_append, List.map_cons, List.nodup_cons] at hnd
    obtain ⟨r, e, h1, h2⟩ := insertOne_new (t := t) hs (by
      rw [mem_tuples_map]; intro h; exact hnd.1 (by rw [List.map_append]; exact List.mem_append_right _ h))
    have hp : (ts ++ r).Perm (t :: (ts ++ acc)) := (h2.append_left ts).trans List.perm_middle
    obtain ⟨r', e', g1, g2⟩ := ih r h1 (by
      rw [(hp.map Elem.tuple).nodup_iff, List.map_cons, List.nodup_cons]; exact hnd)
    unfold insertAll
    rw [e]
    exact ⟨r', by simpa using e', g1, g2.trans hp⟩

theorem insert?_tuples (c : Prov T W) {acc : List (Elem α T)} (w : Elem α T) (hs : Sorted acc) :
    ∃ r, insert? c acc w = some r ∧ Sorted r ∧ tuples r = {w.tuple} ∪ tuples acc ∧ r.length ≤ acc.length + 1 := by
  obtain ⟨r, e, h1, h2⟩ := insert?_spec c acc w hs
  refine ⟨r, e, h1, ?_, ?_⟩
  · ext x
    rw [mem_tuples_iff, h2]
    split
    · rename_i hx; subst hx; simp [sumTags]
    · rename_i hx
      rw [← mem_tuples_iff]
      constructor
      · exact Or.inr
      · rintro (h | h)
        · exact absurd h hx
        · exact h
  · unfold insert? at e
    simp only at e
    split at e
    · split at e
      · rw [vecInsert_spec _ _ _ (gallopIndex_zero_le _ _)] at e
        cases e
        simp; omega
      · cases e; simp
    · cases e; simp

theorem fillBeam_spec (c : Prov T W) (beam : Nat) : ∀ (ws acc : List (Elem α T)), Sorted acc → acc.length ≤ beam →
    ∃ acc' rest, fillBeam c beam ws acc = some (acc', rest) ∧ Sorted acc' ∧ acc'.length ≤ beam ∧
      tuples acc' ∪ tuples rest = tuples acc ∪ tuples ws := by
  intro ws
  induction ws with
  | nil => intro acc hs hl; exact ⟨acc, [], rfl, hs, hl, rfl⟩
  | cons w ws ih =>
    intro acc hs hl
    unfold fillBeam
    split
    · rename_i hlt
      obtain ⟨r, e, h1, h2, h3⟩ := insert?_tuples c w hs
      obtain ⟨acc', rest, e', g1, g2, g3⟩ := ih r h1 (by omega)
      refine ⟨acc', rest, by rw [e]; simpa using e', g1, g2, ?_⟩
      rw [g3, h2, tuples_cons]
      ext x; simp only [Set.mem_union]; tauto
    · exact ⟨acc, w :: ws, rfl, hs, hl, rfl⟩

theorem sorted_nodup {l : List (Elem α T)} (h : Sorted l) : (l.map Elem.tuple).Nodup :=
  List.Pairwise.imp (fun h => ne_of_lt h) (sorted_map.mp h)

theorem scheduleBeam_spec [LinearOrder W] (c : Prov T W) (beam : Nat) (toAdd waitlist : List (Elem α T))
    (stable : List (List (Elem α T))) (hs : ∀ b ∈ stable, Sorted b) (hsa : Sorted toAdd) :
    ∃ r, scheduleBeam c beam toAdd waitlist stable = some r ∧ r.toAdd.length ≤ beam ∧ Sorted r.toAdd ∧
      (∀ b ∈ r.stable, Sorted b) ∧
      tuples r.toAdd ∪ tuples r.waitlist ∪ tuplesB r.stable = tuples toAdd ∪ tuples waitlist ∪ tuplesB stable := by
  have h1 := scheduleLfp_tuples c toAdd stable
  have h2 := scheduleLfp_sorted c hsa hs
  unfold scheduleBeam
  simp only
  generalize scheduleLfp c toAdd stable = p at *
  obtain ⟨sd, e, hp⟩ := drainByWeight_spec c p.1 []
  rw [List.append_nil] at hp
  have hnd : (sd.map Elem.tuple).Nodup := by
    rw [(hp.map Elem.tuple).nodup_iff]; exact sorted_nodup h2.1
  rw [e]
  simp only [Option.bind_some]
  split
  · rename_i hge
    obtain ⟨acc, rest, e', g1, g2, g3⟩ := takeBeam_spec beam sd.reverse [] (by simpa using hge) List.Pairwise.nil
      (by rw [List.append_nil, List.map_reverse, List.nodup_reverse]; exact hnd)
    rw [e']
    refine ⟨⟨acc, waitlist ++ rest.reverse, p.2⟩, rfl, by simp at g3; simp only; omega, g1, h2.2, ?_⟩
    simp only
    have := tuples_perm g2
    rw [tuples_append, List.nil_append, tuples_reverse, tuples_perm hp] at this
    rw [tuples_append, tuples_reverse, Set.union_right_comm (tuples toAdd), ← h1, ← this]
    ext x; simp only [Set.mem_union]; tauto
  · rename_i hlt
    obtain ⟨acc, e', g1, g2⟩ := insertAll_spec sd [] List.Pairwise.nil (by rw [List.append_nil]; exact hnd)
    rw [List.append_nil] at g2
    rw [e']
    simp only [Option.bind_some]
    obtain ⟨acc', rest, e'', k1, k2, k3⟩ := fillBeam_spec c beam waitlist.reverse acc g1 (by rw [g2.length_eq]; omega)
    rw [e'']
    refine ⟨⟨acc', rest.reverse, p.2⟩, rfl, k2, k1, h2.2, ?_⟩
    simp only
    rw [tuples_reverse, k3, tuples_reverse, tuples_perm g2, tuples_perm hp, Set.union_right_comm (tuples toAdd), ← h1]
    ext x; simp only [Set.mem_union]; tauto

/-- All schedulers: no panic, sortedness kept, no tuple lost or invented. -/
theorem schedule_spec [LinearOrder W] (s : Scheduler) (c : Prov T W) (toAdd waitlist : List (Elem α T))
    (stable : List (List (Elem α T))) (hs : ∀ b ∈ stable, Sorted b) (hsa : Sorted toAdd) :
    ∃ r, s.schedule c toAdd waitlist stable = some r ∧ Sorted r.toAdd ∧ (∀ b ∈ r.stable, Sorted b) ∧
      tuples r.toAdd ∪ tuples r.waitlist ∪ tuplesB r.stable = tuples toAdd ∪ tuples waitlist ∪ tuplesB stable := by
  cases s with
  | lfp =>
    refine ⟨_, rfl, (scheduleLfp_sorted c hsa hs).1, (scheduleLfp_sorted c hsa hs).2, ?_⟩
    simp only
    rw [Set.union_right_comm, scheduleLfp_tuples, Set.union_right_comm]
  | dfs =>
    obtain ⟨r, h0, h1, h2, h3, h4, h5⟩ := scheduleDfs_spec c toAdd waitlist stable hs hsa
    exact ⟨r, h0, h2, h3, h4⟩
  | aStar =>
    obtain ⟨r, h0, h1, h2, h3, h4, h5⟩ := scheduleAStar_spec c toAdd waitlist stable hs hsa
    exact ⟨r, h0, h2, h3, h4⟩
  | beam n =>
    obtain ⟨r, h0, h1, h2, h3, h4⟩ := scheduleBeam_spec c n toAdd waitlist stable hs hsa
    exact ⟨r, h0, h2, h3, h4⟩

end Scallop
