import Verif.Proof.Sorted

namespace Scallop
variable {α T W : Type*} [LinearOrder α]

theorem sorted_downClosed {els : List (Elem α T)} (h : Sorted els) (k : α) :
    DownClosed els (fun x => decide (x.tuple < k)) := by
  intro i j x y hij hx hy hp
  rcases Nat.lt_or_eq_of_le hij with hlt | rfl
  · obtain ⟨hi, rfl⟩ := List.getElem?_eq_some_iff.mp hx
    obtain ⟨hj, rfl⟩ := List.getElem?_eq_some_iff.mp hy
    have := List.pairwise_iff_getElem.mp h i j hi hj hlt
    simp at hp ⊢
    exact lt_trans this hp
  · rw [hx] at hy; cases hy; exact hp

/-- The insertion point splits a sorted collection in the elements smaller than `k` and the others. -/
theorem gallop_split {els : List (Elem α T)} (h : Sorted els) (k : α) :
    let i := gallopIndex els 0 (fun x => decide (x.tuple < k))
    i ≤ els.length ∧ (∀ a ∈ els.take i, a.tuple < k) ∧ (∀ a ∈ els.drop i, k ≤ a.tuple) := by
  intro i
  have hb := gallopIndex_boundary els (fun x => decide (x.tuple < k)) 0 (sorted_downClosed h k) (Or.inl rfl)
  obtain ⟨_, h1, h2⟩ := hb
  refine ⟨gallopIndex_zero_le _ _, ?_, ?_⟩
  · intro a ha
    obtain ⟨n, hn, rfl⟩ := List.mem_take_iff_getElem.mp ha
    obtain ⟨x, hx, hp⟩ := h1 n (Nat.zero_le _) (by omega)
    rw [List.getElem?_eq_getElem (by omega)] at hx
    cases hx
    simpa using hp
  · intro a ha
    obtain ⟨n, hn, rfl⟩ := List.mem_drop_iff_getElem.mp ha
    have hi : i < els.length := by omega
    have := h2 els[i] (by simp [i, hi])
    have hk : k ≤ els[i].tuple := by simpa using this
    cases n with
    | zero => simpa using hk
    | succ n =>
      refine le_trans hk (le_of_lt ?_)
      exact List.pairwise_iff_getElem.mp h i (i + (n + 1)) hi (by omega) (by omega)

theorem vecInsert_spec {β : Type*} (l : List β) (i : Nat) (x : β) (h : i ≤ l.length) :
    vecInsert l i x = some (l.take i ++ x :: l.drop i) := by
  simp [vecInsert, h]

/-- Inserting a new element at the boundary. -/
theorem insert_new {els : List (Elem α T)} {e : Elem α T} {i : Nat} (h : Sorted els)
    (h1 : ∀ a ∈ els.take i, a.tuple < e.tuple) (h2 : ∀ a ∈ els.drop i, e.tuple < a.tuple) :
    Sorted (els.take i ++ e :: els.drop i) ∧
    ∀ x, tagsOf (els.take i ++ e :: els.drop i) x = if x = e.tuple then [e.tag] else tagsOf els x := by
  have h' := h
  rw [← List.take_append_drop i els] at h'
  have hs := sorted_append.mp h'
  constructor
  · refine sorted_append.mpr ⟨hs.1, sorted_cons.mpr ⟨h2, hs.2.1⟩, ?_⟩
    intro a ha b hb
    rcases List.mem_cons.mp hb with rfl | hb
    · exact h1 a ha
    · exact hs.2.2 a ha b hb
  · intro x
    rw [tagsOf_append, tagsOf_cons]
    split
    · rename_i hx
      subst hx
      rw [if_pos rfl]
      have t1 : tagsOf (els.take i) e.tuple = [] := by
        rw [tagsOf_eq_nil]; intro a ha; exact ne_of_lt (h1 a ha)
      have t2 : tagsOf (els.drop i) e.tuple = [] := by
        rw [tagsOf_eq_nil]; intro a ha; exact ne_of_gt (h2 a ha)
      rw [t1, t2]; rfl
    · rename_i hx
      rw [if_neg (fun h => hx h.symm), ← tagsOf_append, List.take_append_drop]

theorem drop_gt_of_ne {els : List (Elem α T)} {e n : Elem α T} {i : Nat} (h : Sorted els)
    (hn : els[i]? = some n) (hne : n.tuple ≠ e.tuple) (h2 : ∀ a ∈ els.drop i, e.tuple ≤ a.tuple) :
    ∀ a ∈ els.drop i, e.tuple < a.tuple := by
  obtain ⟨hi, rfl⟩ := List.getElem?_eq_some_iff.mp hn
  have hs : Sorted (els.drop i) := List.Pairwise.sublist (List.drop_sublist _ _) h
  rw [List.drop_eq_getElem_cons hi] at h2 hs ⊢
  have hlt : e.tuple < els[i].tuple := lt_of_le_of_ne (h2 _ List.mem_cons_self) (Ne.symm hne)
  intro a ha
  rcases List.mem_cons.mp ha with rfl | ha
  · exact hlt
  · exact lt_trans hlt ((sorted_cons.mp hs).1 a ha)

theorem set_eq_append {β : Type*} (l : List β) (i : Nat) (x : β) (h : i < l.length) :
    l.set i x = l.take i ++ x :: l.drop (i + 1) := by
  rw [List.set_eq_take_append_cons_drop]; simp [h]

theorem insert?_spec (c : Prov T W) (els : List (Elem α T)) (e : Elem α T) (h : Sorted els) :
    ∃ r, insert? c els e = some r ∧ Sorted r ∧
      ∀ x, tagsOf r x = if x = e.tuple then (sumTags c (e.tag :: tagsOf els x)).toList else tagsOf els x := by
  obtain ⟨hi, h1, h2⟩ := gallop_split h e.tuple
  unfold insert?
  simp only
  generalize gallopIndex els 0 (fun x => decide (x.tuple < e.tuple)) = i at *
  cases hn : els[i]? with
  | none =>
    have hlen : els.length ≤ i := List.getElem?_eq_none_iff.mp hn
    have he : i = els.length := by omega
    subst he
    have := insert_new (i := els.length) h h1 (by simp)
    simp only [List.take_length, List.drop_length] at this h1
    refine ⟨els ++ [e], rfl, this.1, ?_⟩
    intro x
    rw [this.2]
    split
    · rename_i hx
      have : tagsOf els x = [] := by
        rw [tagsOf_eq_nil]; intro a ha; rw [hx]; exact ne_of_lt (h1 a ha)
      rw [this]; rfl
    · rfl
  | some n =>
    simp only
    by_cases hne : n.tuple ≠ e.tuple
    · rw [if_pos hne, vecInsert_spec _ _ _ hi]
      have hgt := drop_gt_of_ne h hn hne h2
      have := insert_new h h1 hgt
      refine ⟨_, rfl, this.1, ?_⟩
      intro x
      rw [this.2]
      split
      · rename_i hx
        have : tagsOf els x = [] := by
          rw [← List.take_append_drop i els, tagsOf_append, List.append_eq_nil_iff, tagsOf_eq_nil, tagsOf_eq_nil]
          rw [hx]
          exact ⟨fun a ha => ne_of_lt (h1 a ha), fun a ha => ne_of_gt (hgt a ha)⟩
        rw [this]; rfl
      · rfl
    · rw [if_neg hne]
      have hne : n.tuple = e.tuple := not_not.mp hne
      obtain ⟨hlt, rfl⟩ := List.getElem?_eq_some_iff.mp hn
      refine ⟨_, rfl, ?_⟩
      rw [set_eq_append _ _ _ hlt]
      have hsplit : els = els.take i ++ els[i] :: els.drop (i + 1) := by
        rw [← List.drop_eq_getElem_cons hlt, List.take_append_drop]
      have h' := h
      rw [hsplit] at h'
      have hs := sorted_append.mp h'
      have hc := sorted_cons.mp hs.2.1
      constructor
      · refine sorted_append.mpr ⟨hs.1, sorted_cons.mpr ⟨hc.1, hc.2⟩, ?_⟩
        intro a ha b hb
        rcases List.mem_cons.mp hb with rfl | hb
        · exact hs.2.2 a ha els[i] List.mem_cons_self
        · exact hs.2.2 a ha b (List.mem_cons_of_mem _ hb)
      · intro x
        have hx' : tagsOf els x = tagsOf (els.take i) x ++ tagsOf (els[i] :: els.drop (i + 1)) x := by
          rw [← tagsOf_append, ← hsplit]
        rw [hx', tagsOf_append, tagsOf_cons, tagsOf_cons]
        by_cases hx : x = e.tuple
        · subst hx
          have t1 : tagsOf (els.take i) e.tuple = [] := by
            rw [tagsOf_eq_nil]; intro a ha; exact ne_of_lt (h1 a ha)
          have t2 : tagsOf (els.drop (i + 1)) e.tuple = [] := by
            rw [tagsOf_eq_nil]; intro a ha; rw [← hne]; exact ne_of_gt (hc.1 a ha)
          simp [t1, t2, hne, sumTags]
        · have : ¬ els[i].tuple = x := by rw [hne]; exact fun h => hx h.symm
          simp [hx, this]

theorem insertUnchecked?_spec (els : List (Elem α T)) (e : Elem α T) (h : Sorted els) (hnew : e.tuple ∉ tuples els) :
    ∃ r, insertUnchecked? els e = some r ∧ Sorted r ∧
      ∀ x, tagsOf r x = if x = e.tuple then [e.tag] else tagsOf els x := by
  obtain ⟨hi, h1, h2⟩ := gallop_split h e.tuple
  unfold insertUnchecked?
  rw [vecInsert_spec _ _ _ hi]
  refine ⟨_, rfl, insert_new h h1 ?_⟩
  intro a ha
  refine lt_of_le_of_ne (h2 a ha) (fun he => hnew ⟨a, (List.drop_sublist _ _).subset ha, he.symm⟩)

/-- Whatever the collection, `insert_unchecked` does not panic and adds just the given element. -/
theorem insertUnchecked?_tuples (els : List (Elem α T)) (e : Elem α T) :
    ∃ r, insertUnchecked? els e = some r ∧ r.Perm (e :: els) := by
  unfold insertUnchecked?
  rw [vecInsert_spec _ _ _ (gallopIndex_zero_le _ _)]
  refine ⟨_, rfl, List.perm_middle.trans ?_⟩
  rw [List.take_append_drop]

end Scallop
