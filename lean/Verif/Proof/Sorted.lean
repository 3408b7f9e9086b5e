import Verif.Model.Sorted
import Verif.Spec.Collection
import Verif.Proof.Gallop

namespace Scallop
variable {α T W : Type*}

/-! ### Basic facts about the specification functions -/

section Basic
variable [DecidableEq α]

@[simp] theorem tagsOf_nil (x : α) : tagsOf ([] : List (Elem α T)) x = [] := rfl

theorem tagsOf_cons (e : Elem α T) (l : List (Elem α T)) (x : α) :
    tagsOf (e :: l) x = if e.tuple = x then e.tag :: tagsOf l x else tagsOf l x := by
  unfold tagsOf
  by_cases h : e.tuple = x <;> simp [h]

theorem tagsOf_append (l m : List (Elem α T)) (x : α) : tagsOf (l ++ m) x = tagsOf l x ++ tagsOf m x := by
  simp [tagsOf]

theorem tagsOf_eq_nil {l : List (Elem α T)} {x : α} : tagsOf l x = [] ↔ ∀ e ∈ l, e.tuple ≠ x := by
  simp [tagsOf]

theorem mem_tuples_iff {l : List (Elem α T)} {x : α} : x ∈ tuples l ↔ tagsOf l x ≠ [] := by
  unfold tuples
  simp only [ne_eq, tagsOf_eq_nil, not_forall, not_not, exists_prop]
  rfl

end Basic

@[simp] theorem tuples_nil : tuples ([] : List (Elem α T)) = ∅ := by
  ext x; simp [tuples]

theorem tuples_cons (e : Elem α T) (l : List (Elem α T)) : tuples (e :: l) = {e.tuple} ∪ tuples l := by
  ext x; simp [tuples, eq_comm]

theorem tuples_append (l m : List (Elem α T)) : tuples (l ++ m) = tuples l ∪ tuples m := by
  ext x; simp only [tuples, List.mem_append, Set.mem_setOf_eq, Set.mem_union]
  constructor
  · rintro ⟨e, h | h, rfl⟩
    · exact Or.inl ⟨e, h, rfl⟩
    · exact Or.inr ⟨e, h, rfl⟩
  · rintro (⟨e, h, rfl⟩ | ⟨e, h, rfl⟩)
    · exact ⟨e, Or.inl h, rfl⟩
    · exact ⟨e, Or.inr h, rfl⟩

variable [LinearOrder α]

theorem sorted_cons {e : Elem α T} {l : List (Elem α T)} :
    Sorted (e :: l) ↔ (∀ a ∈ l, e.tuple < a.tuple) ∧ Sorted l := List.pairwise_cons

theorem sorted_append {l m : List (Elem α T)} :
    Sorted (l ++ m) ↔ Sorted l ∧ Sorted m ∧ ∀ a ∈ l, ∀ b ∈ m, a.tuple < b.tuple := List.pairwise_append

theorem tagsOf_sorted_cons {e : Elem α T} {l : List (Elem α T)} (h : Sorted (e :: l)) :
    tagsOf l e.tuple = [] := by
  rw [tagsOf_eq_nil]
  intro a ha
  exact ne_of_gt ((sorted_cons.mp h).1 a ha)

theorem sumTags_sorted (c : Prov T W) {l : List (Elem α T)} (h : Sorted l) (x : α) :
    (sumTags c (tagsOf l x)).toList = tagsOf l x := by
  induction l with
  | nil => rfl
  | cons e l ih =>
    rw [tagsOf_cons]
    split
    · rename_i hx
      subst hx
      rw [tagsOf_sorted_cons h]; rfl
    · exact ih (sorted_cons.mp h).2

/-! ### `from_vec` -/

theorem compactLoop_spec (c : Prov T W) : ∀ (rest dn junk : List (Elem α T)) (l : Elem α T),
    ∃ els k, compactLoop c rest.length (dn ++ l :: (junk ++ rest)) (dn.length + 1 + junk.length) dn.length (dn.length + 1)
      = some (els, k) ∧ els.take k = dn ++ runs c l rest := by
  intro rest
  induction rest with
  | nil =>
    intro dn junk l
    refine ⟨dn ++ l :: (junk ++ []), dn.length + 1, by simp [compactLoop], ?_⟩
    rw [List.take_append, List.take_of_length_le (by omega)]
    simp [runs]
  | cons e rest ih =>
    intro dn junk l
    have g1 : (dn ++ l :: (junk ++ e :: rest))[dn.length + 1 + junk.length]? = some e := by
      rw [List.getElem?_append_right (by omega), show dn.length + 1 + junk.length - dn.length = junk.length + 1 by omega]
      simp
    have g2 : (dn ++ l :: (junk ++ e :: rest))[dn.length]? = some l := by simp
    simp only [List.length_cons]
    unfold compactLoop
    rw [g1, g2]
    simp only
    by_cases he : e.tuple = l.tuple
    · rw [if_pos he]
      have s1 : (dn ++ l :: (junk ++ e :: rest)).set dn.length { l with tag := c.add l.tag e.tag }
          = dn ++ { l with tag := c.add l.tag e.tag } :: ((junk ++ [e]) ++ rest) := by
        rw [List.set_append_right _ _ (by omega)]; simp
      rw [s1]
      obtain ⟨els, k, h1, h2⟩ := ih dn (junk ++ [e]) { l with tag := c.add l.tag e.tag }
      refine ⟨els, k, ?_, ?_⟩
      · rw [← h1]; congr 1; simp; omega
      · rw [h2]; simp [runs, he]
    · rw [if_neg he]
      cases junk with
      | nil =>
        rw [if_neg (by simp)]
        obtain ⟨els, k, h1, h2⟩ := ih (dn ++ [l]) [] e
        refine ⟨els, k, ?_, ?_⟩
        · rw [← h1]; simp
        · rw [h2]; simp [runs, he]
      | cons j js =>
        rw [if_pos (by simp)]
        have g3 : (dn ++ l :: (j :: js ++ e :: rest))[dn.length + 1]? = some j := by
          rw [List.getElem?_append_right (by omega)]; simp
        have sw : swapAt (dn ++ l :: (j :: js ++ e :: rest)) (dn.length + 1) (dn.length + 1 + (j :: js).length)
            = some ((dn ++ [l]) ++ e :: ((js ++ [j]) ++ rest)) := by
          unfold swapAt
          rw [g1, g3]
          simp only
          congr 1
          rw [List.set_append_right _ _ (by omega), List.set_append_right _ _ (by omega)]
          rw [show dn.length + 1 - dn.length = 1 by omega,
            show dn.length + 1 + (j :: js).length - dn.length = js.length + 2 by simp; omega]
          simp [List.set_cons_succ]
        rw [sw]
        obtain ⟨els, k, h1, h2⟩ := ih (dn ++ [l]) (js ++ [j]) e
        refine ⟨els, k, ?_, ?_⟩
        · simp only
          rw [← h1]; congr 1 <;> simp; omega
        · rw [h2]; simp [runs, he]

/-- The in-place loop never panics and computes the functional form. -/
theorem fromVec?_eq (c : Prov T W) (v : List (Elem α T)) : fromVec? c v = some (fromVec c v) := by
  unfold fromVec? fromVec
  cases h : sortElems v with
  | nil => simp
  | cons a l =>
    cases l with
    | nil => simp [runs]
    | cons b l =>
      simp only
      rw [if_pos (by simp)]
      obtain ⟨els, k, h1, h2⟩ := compactLoop_spec c (b :: l) [] [] a
      simp only [List.nil_append, List.length_nil, Nat.zero_add, Nat.add_zero] at h1 h2
      rw [show (a :: b :: l).length - 1 = (b :: l).length by simp, h1]
      simp [h2]

theorem tagsOf_orderedInsert (e : Elem α T) (l : List (Elem α T)) (x : α) :
    tagsOf (l.orderedInsert (fun a b => a.tuple ≤ b.tuple) e) x = tagsOf (e :: l) x := by
  induction l with
  | nil => rfl
  | cons b l ih =>
    rw [List.orderedInsert]
    split
    · rfl
    · rename_i h
      rw [tagsOf_cons, ih, tagsOf_cons, tagsOf_cons, tagsOf_cons]
      by_cases h1 : b.tuple = x <;> by_cases h2 : e.tuple = x <;> simp [h1, h2]
      exact absurd (by rw [h1, h2]) h

theorem tagsOf_sortElems (v : List (Elem α T)) (x : α) : tagsOf (sortElems v) x = tagsOf v x := by
  induction v with
  | nil => rfl
  | cons e v ih =>
    unfold sortElems at *
    rw [List.insertionSort_cons, tagsOf_orderedInsert, tagsOf_cons, tagsOf_cons, ih]

theorem pairwise_orderedInsert (e : Elem α T) (l : List (Elem α T)) (h : l.Pairwise (fun a b => a.tuple ≤ b.tuple)) :
    (l.orderedInsert (fun a b => a.tuple ≤ b.tuple) e).Pairwise (fun a b => a.tuple ≤ b.tuple) := by
  induction l with
  | nil => simp
  | cons b l ih =>
    rw [List.orderedInsert]
    have hb := List.pairwise_cons.mp h
    split
    · rename_i h1
      refine List.pairwise_cons.mpr ⟨?_, h⟩
      intro a ha
      rcases List.mem_cons.mp ha with rfl | ha
      · exact h1
      · exact le_trans h1 (hb.1 a ha)
    · rename_i h1
      refine List.pairwise_cons.mpr ⟨?_, ih hb.2⟩
      intro a ha
      rcases (List.mem_orderedInsert _).mp ha with rfl | ha
      · exact le_of_lt (not_le.mp h1)
      · exact hb.1 a ha

theorem pairwise_sortElems (v : List (Elem α T)) : (sortElems v).Pairwise (fun a b => a.tuple ≤ b.tuple) := by
  induction v with
  | nil => exact List.Pairwise.nil
  | cons e v ih =>
    unfold sortElems at *
    rw [List.insertionSort_cons]
    exact pairwise_orderedInsert _ _ ih

theorem mem_runs (c : Prov T W) : ∀ (l : List (Elem α T)) (a e : Elem α T), e ∈ runs c a l →
    e.tuple = a.tuple ∨ ∃ b ∈ l, e.tuple = b.tuple := by
  intro l
  induction l with
  | nil => intro a e h; simp [runs] at h; left; rw [h]
  | cons b l ih =>
    intro a e h
    unfold runs at h
    split at h
    · rcases ih _ _ h with h | ⟨d, hd, h⟩
      · left; exact h
      · right; exact ⟨d, List.mem_cons_of_mem _ hd, h⟩
    · rcases List.mem_cons.mp h with h | h
      · left; rw [h]
      · right
        rcases ih _ _ h with h | ⟨d, hd, h⟩
        · exact ⟨b, by simp, h⟩
        · exact ⟨d, List.mem_cons_of_mem _ hd, h⟩

theorem runs_sorted (c : Prov T W) : ∀ (l : List (Elem α T)) (a : Elem α T),
    (a :: l).Pairwise (fun a b => a.tuple ≤ b.tuple) → Sorted (runs c a l) := by
  intro l
  induction l with
  | nil => intro a _; simp [runs, Sorted]
  | cons b l ih =>
    intro a h
    have h1 := List.pairwise_cons.mp h
    have h2 := List.pairwise_cons.mp h1.2
    unfold runs
    split
    · apply ih
      refine List.pairwise_cons.mpr ⟨?_, h2.2⟩
      intro d hd
      exact h1.1 d (List.mem_cons_of_mem _ hd)
    · rename_i hne
      refine sorted_cons.mpr ⟨?_, ih b h1.2⟩
      have hab : a.tuple < b.tuple := lt_of_le_of_ne (h1.1 b (by simp)) (fun h => hne h.symm)
      intro d hd
      rcases mem_runs c _ _ _ hd with h | ⟨d', hd', h⟩
      · rw [h]; exact hab
      · rw [h]; exact lt_of_lt_of_le hab (h2.1 d' hd')

theorem tagsOf_runs (c : Prov T W) (x : α) : ∀ (l : List (Elem α T)) (a : Elem α T),
    (a :: l).Pairwise (fun a b => a.tuple ≤ b.tuple) →
    tagsOf (runs c a l) x = (sumTags c (tagsOf (a :: l) x)).toList := by
  intro l
  induction l with
  | nil =>
    intro a _
    simp only [runs, tagsOf_cons, tagsOf_nil]
    split <;> rfl
  | cons b l ih =>
    intro a h
    have h1 := List.pairwise_cons.mp h
    have h2 := List.pairwise_cons.mp h1.2
    unfold runs
    split
    · rename_i hba
      rw [ih { a with tag := c.add a.tag b.tag } (List.pairwise_cons.mpr ⟨fun d hd => h1.1 d (List.mem_cons_of_mem _ hd), h2.2⟩)]
      rw [tagsOf_cons, tagsOf_cons, tagsOf_cons, hba]
      by_cases hx : a.tuple = x <;> simp [hx, sumTags]
    · rename_i hne
      have hab : a.tuple < b.tuple := lt_of_le_of_ne (h1.1 b (by simp)) (fun h => hne h.symm)
      rw [tagsOf_cons, ih b h1.2, tagsOf_cons (e := a)]
      by_cases hx : a.tuple = x
      · have : tagsOf (b :: l) x = [] := by
          rw [tagsOf_eq_nil]
          intro d hd
          subst hx
          rcases List.mem_cons.mp hd with rfl | hd
          · exact ne_of_gt hab
          · exact ne_of_gt (lt_of_lt_of_le hab (h2.1 d hd))
        simp [hx, this, sumTags]
      · simp [hx]

theorem fromVec_sorted (c : Prov T W) (v : List (Elem α T)) : Sorted (fromVec c v) := by
  unfold fromVec
  have := pairwise_sortElems v
  cases h : sortElems v with
  | nil => exact List.Pairwise.nil
  | cons a l => rw [h] at this; exact runs_sorted c l a this

theorem tagsOf_fromVec (c : Prov T W) (v : List (Elem α T)) (x : α) :
    tagsOf (fromVec c v) x = (sumTags c (tagsOf v x)).toList := by
  rw [← tagsOf_sortElems v]
  unfold fromVec
  have := pairwise_sortElems v
  cases h : sortElems v with
  | nil => rfl
  | cons a l => rw [h] at this; exact tagsOf_runs c x l a this

theorem sumTags_eq_nil {c : Prov T W} {l : List T} : (sumTags c l).toList = [] ↔ l = [] := by
  cases l <;> simp [sumTags]

theorem tuples_fromVec (c : Prov T W) (v : List (Elem α T)) : tuples (fromVec c v) = tuples v := by
  ext x
  rw [mem_tuples_iff, mem_tuples_iff, tagsOf_fromVec, ne_eq, ne_eq, sumTags_eq_nil]

/-! ### `retain` -/

theorem retainLoop_spec {β : Type*} (f : Nat → β → Bool) : ∀ (rest kept junk : List β),
    ∃ els k, retainLoop f rest.length (kept ++ (junk ++ rest)) (kept.length + junk.length) kept.length
        (if junk = [] then none else some kept.length) = some (els, k) ∧
      els.take k = kept ++ ((rest.zipIdx (kept.length + junk.length)).filter (fun p => f p.2 p.1)).map Prod.fst := by
  classical
  intro rest
  induction rest with
  | nil =>
    intro kept junk
    exact ⟨kept ++ (junk ++ []), kept.length, by simp [retainLoop], by simp⟩
  | cons e rest ih =>
    intro kept junk
    have g1 : (kept ++ (junk ++ e :: rest))[kept.length + junk.length]? = some e := by
      rw [List.getElem?_append_right (by omega), show kept.length + junk.length - kept.length = junk.length by omega]
      simp
    simp only [List.length_cons, List.zipIdx_cons]
    unfold retainLoop
    rw [g1]
    simp only
    by_cases hf : f (kept.length + junk.length) e = true
    · rw [if_pos hf]
      cases junk with
      | nil =>
        simp only [if_true]
        obtain ⟨els, k, h1, h2⟩ := ih (kept ++ [e]) []
        simp only [List.length_nil, Nat.add_zero] at hf
        refine ⟨els, k, ?_, ?_⟩
        · rw [← h1]; simp
        · rw [h2]; simp [hf]
      | cons j js =>
        have g2 : (kept ++ (j :: js ++ e :: rest))[kept.length]? = some j := by simp
        have sw : swapAt (kept ++ (j :: js ++ e :: rest)) (kept.length + (j :: js).length) kept.length
            = some ((kept ++ [e]) ++ ((js ++ [j]) ++ rest)) := by
          unfold swapAt
          rw [g1, g2]
          simp only
          congr 1
          rw [List.set_append_right _ _ (by omega), List.set_append_right _ _ (by omega)]
          rw [show kept.length - kept.length = 0 by omega,
            show kept.length + (j :: js).length - kept.length = js.length + 1 by simp]
          simp [List.set_cons_succ]
        simp only [reduceCtorEq, if_false]
        rw [sw]
        simp only
        obtain ⟨els, k, h1, h2⟩ := ih (kept ++ [e]) (js ++ [j])
        refine ⟨els, k, ?_, ?_⟩
        · rw [← h1]
          rw [if_neg (by simp)]
          congr 1 <;> simp <;> omega
        · rw [h2]
          have e1 : (kept ++ [e]).length + (js ++ [j]).length = kept.length + (j :: js).length + 1 := by simp; omega
          rw [e1]
          simp only [List.append_assoc, List.filter_cons, hf, if_true, List.map_cons, List.singleton_append]
    · rw [if_neg hf]
      obtain ⟨els, k, h1, h2⟩ := ih kept (junk ++ [e])
      rw [if_neg (by simp)] at h1
      simp only [List.append_assoc, List.singleton_append, List.length_append, List.length_cons, List.length_nil,
        Nat.zero_add] at h1 h2
      refine ⟨els, k, ?_, ?_⟩
      · rw [← h1]
        cases junk with
        | nil => simp
        | cons j js => simp; rfl
      · rw [h2]
        simp [hf, Nat.add_assoc]

theorem retain?_eq {β : Type*} (f : Nat → β → Bool) (els : List β) : retain? f els = some (retainIdx f els) := by
  obtain ⟨e, k, h1, h2⟩ := retainLoop_spec f els [] []
  simp only [List.nil_append, List.length_nil, Nat.add_zero, if_true] at h1 h2
  unfold retain? retainIdx
  rw [h1]
  simp [h2]

/-! ### `merge` -/

theorem takeWhile_lt_mem {e : Elem α T} {l : List (Elem α T)} {a : Elem α T}
    (h : a ∈ l.takeWhile (fun x => decide (x.tuple < e.tuple))) : a.tuple < e.tuple := by
  induction l with
  | nil => simp at h
  | cons b l ih =>
    rw [List.takeWhile_cons] at h
    split at h
    · rename_i hb
      rcases List.mem_cons.mp h with rfl | h
      · simpa using hb
      · exact ih h
    · simp at h

theorem mem_mergeLoop (c : Prov T W) : ∀ (l1 l2 : List (Elem α T)) (e : Elem α T), e ∈ mergeLoop c l1 l2 →
    (∃ a ∈ l1, a.tuple = e.tuple) ∨ (∃ a ∈ l2, a.tuple = e.tuple) := by
  intro l1
  induction l1 with
  | nil => intro l2 e h; exact Or.inr ⟨e, h, rfl⟩
  | cons b l1 ih =>
    intro l2 e h
    have hl2 := List.takeWhile_append_dropWhile (p := fun x : Elem α T => decide (x.tuple < b.tuple)) (l := l2)
    unfold mergeLoop at h
    simp only at h
    have key : ∀ (rest : List (Elem α T)), (∀ a ∈ rest, a ∈ l2) → ∀ b' : Elem α T, b'.tuple = b.tuple →
        e ∈ l2.takeWhile (fun x => decide (x.tuple < b.tuple)) ++ b' :: mergeLoop c l1 rest →
        (∃ a ∈ b :: l1, a.tuple = e.tuple) ∨ (∃ a ∈ l2, a.tuple = e.tuple) := by
      intro rest hr b' hb' h
      rcases List.mem_append.mp h with h | h
      · exact Or.inr ⟨e, (List.takeWhile_sublist _).subset h, rfl⟩
      · rcases List.mem_cons.mp h with h | h
        · left; exact ⟨b, by simp, by rw [h, hb']⟩
        · rcases ih _ _ h with ⟨a, ha, h⟩ | ⟨a, ha, h⟩
          · left; exact ⟨a, List.mem_cons_of_mem _ ha, h⟩
          · right; exact ⟨a, hr a ha, h⟩
    have hsub : ∀ a ∈ l2.dropWhile (fun x => decide (x.tuple < b.tuple)), a ∈ l2 :=
      fun a ha => (List.dropWhile_sublist _).subset ha
    split at h
    · exact key [] (by simp) b rfl h
    · rename_i x rest hd
      rw [hd] at hsub
      split at h
      · exact key rest (fun a ha => hsub a (List.mem_cons_of_mem _ ha)) { b with tag := c.add b.tag x.tag } rfl h
      · exact key (x :: rest) hsub b rfl h

theorem dropWhile_lt_ge {e : Elem α T} {l : List (Elem α T)} (h : Sorted l) :
    ∀ a ∈ l.dropWhile (fun x => decide (x.tuple < e.tuple)), e.tuple ≤ a.tuple := by
  induction l with
  | nil => simp
  | cons b l ih =>
    have hs := sorted_cons.mp h
    rw [List.dropWhile_cons]
    split
    · exact ih hs.2
    · rename_i hb
      have hb : e.tuple ≤ b.tuple := by simpa using hb
      intro a ha
      rcases List.mem_cons.mp ha with rfl | ha
      · exact hb
      · exact le_of_lt (lt_of_le_of_lt hb (hs.1 a ha))

/-- One turn of the merge loop, for the two ways it can go on. -/
theorem mergeLoop_step (c : Prov T W) (x : α) (e e' : Elem α T) (l1 lt rest2 l2 : List (Elem α T)) (M : List (Elem α T))
    (h1 : Sorted (e :: l1)) (hM : Sorted M) (hlt : Sorted lt)
    (hle : e'.tuple = e.tuple)
    (hlt' : ∀ a ∈ lt, a.tuple < e.tuple) (hrest : ∀ a ∈ rest2, e.tuple < a.tuple)
    (hmem : ∀ a ∈ M, (∃ b ∈ l1, b.tuple = a.tuple) ∨ (∃ b ∈ rest2, b.tuple = a.tuple))
    (htag : tagsOf M x = (sumTags c (tagsOf l1 x ++ tagsOf rest2 x)).toList)
    (hl2 : tagsOf l2 x = tagsOf lt x ++ (if e.tuple = x then tagsOf l2 x else []) ++ tagsOf rest2 x)
    (he' : e.tuple = x → [e'.tag] = (sumTags c (e.tag :: tagsOf l2 x)).toList) :
    Sorted (lt ++ e' :: M) ∧
      tagsOf (lt ++ e' :: M) x = (sumTags c (tagsOf (e :: l1) x ++ tagsOf l2 x)).toList := by
  have hs := sorted_cons.mp h1
  have hMgt : ∀ a ∈ M, e.tuple < a.tuple := by
    intro a ha
    rcases hmem a ha with ⟨b, hb, h⟩ | ⟨b, hb, h⟩
    · rw [← h]; exact hs.1 b hb
    · rw [← h]; exact hrest b hb
  constructor
  · refine sorted_append.mpr ⟨hlt, sorted_cons.mpr ⟨by rw [hle]; exact hMgt, hM⟩, ?_⟩
    intro a ha b hb
    rcases List.mem_cons.mp hb with rfl | hb
    · rw [hle]; exact hlt' a ha
    · exact lt_trans (hlt' a ha) (hMgt b hb)
  · rw [tagsOf_append, tagsOf_cons, tagsOf_cons, hle]
    by_cases hx : e.tuple = x
    · have t1 : tagsOf lt x = [] := by
        rw [tagsOf_eq_nil]; intro a ha; rw [← hx]; exact ne_of_lt (hlt' a ha)
      have t2 : tagsOf M x = [] := by
        rw [tagsOf_eq_nil]; intro a ha; rw [← hx]; exact ne_of_gt (hMgt a ha)
      have t3 : tagsOf l1 x = [] := by
        rw [tagsOf_eq_nil]; intro a ha; rw [← hx]; exact ne_of_gt (hs.1 a ha)
      rw [t1, t2, t3, if_pos hx, if_pos hx]
      simpa using he' hx
    · rw [if_neg hx] at hl2 ⊢
      rw [if_neg hx, hl2, htag]
      rcases lt_or_gt_of_ne hx with hx | hx
      · have t1 : tagsOf lt x = [] := by
          rw [tagsOf_eq_nil]; intro a ha; exact ne_of_lt (lt_trans (hlt' a ha) hx)
        rw [t1]; simp
      · have t2 : tagsOf l1 x = [] := by
          rw [tagsOf_eq_nil]; intro a ha; exact ne_of_gt (lt_trans hx (hs.1 a ha))
        have t3 : tagsOf rest2 x = [] := by
          rw [tagsOf_eq_nil]; intro a ha; exact ne_of_gt (lt_trans hx (hrest a ha))
        rw [t2, t3]
        simp only [List.append_nil, List.nil_append, sumTags_sorted c hlt]
        simp [sumTags]

theorem mergeLoop_spec (c : Prov T W) (x : α) : ∀ (l1 l2 : List (Elem α T)), Sorted l1 → Sorted l2 →
    Sorted (mergeLoop c l1 l2) ∧
      tagsOf (mergeLoop c l1 l2) x = (sumTags c (tagsOf l1 x ++ tagsOf l2 x)).toList := by
  intro l1
  induction l1 with
  | nil => intro l2 _ h2; exact ⟨h2, by simp [mergeLoop, sumTags_sorted c h2]⟩
  | cons e l1 ih =>
    intro l2 h1 h2
    have hs := sorted_cons.mp h1
    have hl2 := List.takeWhile_append_dropWhile (p := fun x : Elem α T => decide (x.tuple < e.tuple)) (l := l2)
    have hge := dropWhile_lt_ge (e := e) h2
    have hlt : ∀ a ∈ l2.takeWhile (fun x => decide (x.tuple < e.tuple)), a.tuple < e.tuple :=
      fun a ha => takeWhile_lt_mem ha
    have hsl : Sorted (l2.takeWhile (fun x => decide (x.tuple < e.tuple))) :=
      List.Pairwise.sublist (List.takeWhile_sublist _) h2
    have hsd : Sorted (l2.dropWhile (fun x => decide (x.tuple < e.tuple))) :=
      List.Pairwise.sublist (List.dropWhile_sublist _) h2
    unfold mergeLoop
    simp only
    generalize l2.takeWhile (fun x => decide (x.tuple < e.tuple)) = lt at *
    split
    · rename_i hd
      rw [hd] at hl2
      simp only [List.append_nil] at hl2
      subst hl2
      have hi := ih [] hs.2 List.Pairwise.nil
      refine mergeLoop_step c x e e l1 lt [] lt _ h1 hi.1 hsl rfl hlt (by simp) (mem_mergeLoop c _ _) hi.2 ?_ ?_
      · by_cases hx : e.tuple = x
        · have : tagsOf lt x = [] := by
            rw [tagsOf_eq_nil]; intro a ha; rw [← hx]; exact ne_of_lt (hlt a ha)
          simp [this]
        · simp [hx]
      · intro hx
        have : tagsOf lt x = [] := by
          rw [tagsOf_eq_nil]; intro a ha; rw [← hx]; exact ne_of_lt (hlt a ha)
        simp [this, sumTags]
    · rename_i b rest hd
      rw [hd] at hl2 hge hsd
      have hsb := sorted_cons.mp hsd
      split
      · rename_i hbe
        have hi := ih rest hs.2 hsb.2
        have hgt : ∀ a ∈ rest, e.tuple < a.tuple := fun a ha => by rw [← hbe]; exact hsb.1 a ha
        refine mergeLoop_step c x e { e with tag := c.add e.tag b.tag } l1 lt rest l2 _ h1 hi.1 hsl rfl hlt hgt (mem_mergeLoop c _ _) hi.2 ?_ ?_
        · rw [← hl2, tagsOf_append, tagsOf_cons, hbe]
          by_cases hx : e.tuple = x
          · have t1 : tagsOf lt x = [] := by
              rw [tagsOf_eq_nil]; intro a ha; rw [← hx]; exact ne_of_lt (hlt a ha)
            have t2 : tagsOf rest x = [] := by
              rw [tagsOf_eq_nil]; intro a ha; rw [← hx]; exact ne_of_gt (hgt a ha)
            simp [t1, t2]
          · simp [hx]
        · intro hx
          have t1 : tagsOf lt x = [] := by
            rw [tagsOf_eq_nil]; intro a ha; rw [← hx]; exact ne_of_lt (hlt a ha)
          have t2 : tagsOf rest x = [] := by
            rw [tagsOf_eq_nil]; intro a ha; rw [← hx]; exact ne_of_gt (hgt a ha)
          rw [← hl2, tagsOf_append, tagsOf_cons, hbe, if_pos hx, t1, t2]
          rfl
      · rename_i hbe
        have hi := ih (b :: rest) hs.2 hsd
        have hgt : ∀ a ∈ b :: rest, e.tuple < a.tuple := by
          intro a ha
          have hb : e.tuple < b.tuple := lt_of_le_of_ne (hge b (by simp)) (fun h => hbe h.symm)
          rcases List.mem_cons.mp ha with rfl | ha
          · exact hb
          · exact lt_trans hb (hsb.1 a ha)
        have t2 : e.tuple = x → tagsOf l2 x = [] := by
          intro hx
          rw [tagsOf_eq_nil, ← hl2]; intro a ha; rw [← hx]
          rcases List.mem_append.mp ha with ha | ha
          · exact ne_of_lt (hlt a ha)
          · exact ne_of_gt (hgt a ha)
        refine mergeLoop_step c x e e l1 lt (b :: rest) l2 _ h1 hi.1 hsl rfl hlt hgt (mem_mergeLoop c _ _) hi.2 ?_ ?_
        · by_cases hx : e.tuple = x
          · have := t2 hx
            rw [← hl2, tagsOf_append] at this
            rw [if_pos hx, ← hl2, tagsOf_append]
            simp at this
            simp [this]
          · rw [if_neg hx, ← hl2, tagsOf_append]; simp
        · intro hx
          rw [t2 hx]; rfl

theorem mergeOrdered_spec (c : Prov T W) (x : α) (a b : Elem α T) (l1 l2 : List (Elem α T))
    (h1 : Sorted (a :: l1)) (h2 : Sorted (b :: l2)) (hab : a.tuple ≤ b.tuple) :
    Sorted (mergeOrdered c a l1 b l2) ∧
      tagsOf (mergeOrdered c a l1 b l2) x = (sumTags c (tagsOf (a :: l1) x ++ tagsOf (b :: l2) x)).toList := by
  have s1 := sorted_cons.mp h1
  have s2 := sorted_cons.mp h2
  unfold mergeOrdered
  split
  · rename_i hlast
    have hall : ∀ e ∈ a :: l1, e.tuple < b.tuple := by
      intro e he
      refine lt_of_le_of_lt ?_ hlast
      have hl := List.dropLast_append_getLast (l := a :: l1) (by simp)
      rw [← hl] at he h1
      rcases List.mem_append.mp he with he | he
      · exact le_of_lt ((sorted_append.mp h1).2.2 e he _ (by simp))
      · simp at he; rw [he]
    have hs : Sorted ((a :: l1) ++ (b :: l2)) := by
      refine sorted_append.mpr ⟨h1, h2, ?_⟩
      intro e he d hd
      rcases List.mem_cons.mp hd with rfl | hd
      · exact hall e he
      · exact lt_trans (hall e he) (s2.1 d hd)
    exact ⟨hs, by rw [← tagsOf_append, sumTags_sorted c hs]⟩
  · split
    · rename_i hab
      have hi := mergeLoop_spec c x l1 l2 s1.2 s2.2
      have := mergeLoop_step c x a { a with tag := c.add a.tag b.tag } l1 [] l2 (b :: l2) _ h1 hi.1 List.Pairwise.nil rfl
        (by simp) (fun d hd => by rw [hab]; exact s2.1 d hd) (mem_mergeLoop c _ _) hi.2 ?_ ?_
      · simpa using this
      · rw [tagsOf_cons, hab]
        by_cases hx : b.tuple = x
        · subst hx; rw [tagsOf_sorted_cons h2]; simp
        · simp [hx]
      · intro hx
        rw [tagsOf_cons, ← hab, if_pos hx, ← hx, hab, tagsOf_sorted_cons h2]; rfl
    · rename_i hne
      have hlt : a.tuple < b.tuple := lt_of_le_of_ne hab hne
      have hi := mergeLoop_spec c x l1 (b :: l2) s1.2 h2
      have hgt : ∀ d ∈ b :: l2, a.tuple < d.tuple := by
        intro d hd
        rcases List.mem_cons.mp hd with rfl | hd
        · exact hlt
        · exact lt_trans hlt (s2.1 d hd)
      have t : a.tuple = x → tagsOf (b :: l2) x = [] := by
        intro hx; rw [tagsOf_eq_nil]; intro d hd; rw [← hx]; exact ne_of_gt (hgt d hd)
      have := mergeLoop_step c x a a l1 [] (b :: l2) (b :: l2) _ h1 hi.1 List.Pairwise.nil rfl
        (by simp) hgt (mem_mergeLoop c _ _) hi.2 ?_ ?_
      · simpa using this
      · by_cases hx : a.tuple = x
        · simp [t hx]
        · simp [hx]
      · intro hx; rw [t hx]; rfl

/-- Full description of `merge`; the tags are added in one of the two orders. -/
theorem merge_spec (c : Prov T W) (l1 l2 : List (Elem α T)) (h1 : Sorted l1) (h2 : Sorted l2) :
    Sorted (merge c l1 l2) ∧
      ((∀ x, tagsOf (merge c l1 l2) x = (sumTags c (tagsOf l1 x ++ tagsOf l2 x)).toList) ∨
       (∀ x, tagsOf (merge c l1 l2) x = (sumTags c (tagsOf l2 x ++ tagsOf l1 x)).toList)) := by
  cases l1 with
  | nil =>
    refine ⟨by simpa [merge] using h2, Or.inl ?_⟩
    intro x
    simp [merge, sumTags_sorted c h2]
  | cons a l1 =>
    cases l2 with
    | nil =>
      refine ⟨by simpa [merge] using h1, Or.inl ?_⟩
      intro x
      simp [merge, sumTags_sorted c h1]
    | cons b l2 =>
      simp only [merge]
      split
      · rename_i h
        exact ⟨(mergeOrdered_spec c a.tuple b a l2 l1 h2 h1 (le_of_lt h)).1,
          Or.inr (fun x => (mergeOrdered_spec c x b a l2 l1 h2 h1 (le_of_lt h)).2)⟩
      · rename_i h
        exact ⟨(mergeOrdered_spec c a.tuple a b l1 l2 h1 h2 (not_lt.mp h)).1,
          Or.inl (fun x => (mergeOrdered_spec c x a b l1 l2 h1 h2 (not_lt.mp h)).2)⟩

theorem merge_sorted (c : Prov T W) {l1 l2 : List (Elem α T)} (h1 : Sorted l1) (h2 : Sorted l2) :
    Sorted (merge c l1 l2) := (merge_spec c l1 l2 h1 h2).1

theorem tuples_merge (c : Prov T W) {l1 l2 : List (Elem α T)} (h1 : Sorted l1) (h2 : Sorted l2) :
    tuples (merge c l1 l2) = tuples l1 ∪ tuples l2 := by
  ext x
  rw [Set.mem_union, mem_tuples_iff, mem_tuples_iff, mem_tuples_iff]
  rcases (merge_spec c l1 l2 h1 h2).2 with h | h
  · rw [h, ne_eq, sumTags_eq_nil, List.append_eq_nil_iff]; tauto
  · rw [h, ne_eq, sumTags_eq_nil, List.append_eq_nil_iff]; tauto

end Scallop
