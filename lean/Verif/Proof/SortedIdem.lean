import Verif.Proof.Sorted

/-! # Making a collection again out of its own elements -/

namespace Scallop

variable {α T W : Type*} [LinearOrder α]

theorem sorted_ext {l l' : List (Elem α T)} (h : Sorted l) (h' : Sorted l') (ht : ∀ x, tagsOf l x = tagsOf l' x) : l = l' := by
  have hmem : ∀ {m : List (Elem α T)} {e : Elem α T}, e ∈ m ↔ e.tag ∈ tagsOf m e.tuple := by
    intro m e
    simp only [tagsOf, List.mem_map, List.mem_filter, decide_eq_true_eq]
    constructor
    · exact fun h => ⟨e, ⟨h, rfl⟩, rfl⟩
    · rintro ⟨⟨t, g⟩, ⟨h1, h2⟩, h3⟩
      cases e
      simp only at h2 h3
      subst h2 h3
      exact h1
  refine List.Perm.eq_of_pairwise (le := fun a b : Elem α T => a.tuple < b.tuple) ?_ h h' ((List.perm_ext_iff_of_nodup ?_ ?_).mpr ?_)
  · intro a b _ _ h1 h2
    exact absurd h1 (lt_asymm h2)
  · exact h.imp (fun hlt heq => by subst heq; exact lt_irrefl _ hlt)
  · exact h'.imp (fun hlt heq => by subst heq; exact lt_irrefl _ hlt)
  · intro e
    rw [hmem, hmem, ht]

theorem foldl_absorb (c : Prov T W) (ha : ∀ x y z, c.add (c.add x y) z = c.add x (c.add y z)) (hc : ∀ x y, c.add x y = c.add y x)
    (hi : ∀ x, c.add x x = x) : ∀ (l : List T) (t a : T), (a = t ∨ a ∈ l) → c.add a (l.foldl c.add t) = l.foldl c.add t := by
  intro l
  induction l with
  | nil =>
    intro t a h
    simp at h
    subst h
    exact hi a
  | cons y l ih =>
    intro t a h
    have hpush : ∀ (l : List T) (x u : T), c.add x (l.foldl c.add u) = l.foldl c.add (c.add x u) := by
      intro l
      induction l with
      | nil => intro x u; rfl
      | cons z l ih => intro x u; simp only [List.foldl_cons]; rw [ih, ha]
    simp only [List.foldl_cons]
    rcases h with rfl | h
    · rw [hpush, ← ha, hi]
    · rcases List.mem_cons.mp h with rfl | h
      · rw [hpush, hc t a, ← ha, hi]
      · exact ih _ _ (Or.inr h)

theorem sum_again (c : Prov T W) (ha : ∀ x y z, c.add (c.add x y) z = c.add x (c.add y z)) (hc : ∀ x y, c.add x y = c.add y x)
    (hi : ∀ x, c.add x x = x) (t : T) (l w : List T) (hw : ∀ a ∈ w, a = t ∨ a ∈ l) :
    sumTags c (w ++ [l.foldl c.add t]) = some (l.foldl c.add t) := by
  have : ∀ (w : List T) (u : T), (∀ a ∈ w, a = t ∨ a ∈ l) → c.add u (l.foldl c.add t) = l.foldl c.add t →
      (w ++ [l.foldl c.add t]).foldl c.add u = l.foldl c.add t := by
    intro w
    induction w with
    | nil => intro u _ hu; simpa using hu
    | cons a w ih =>
      intro u hw hu
      simp only [List.cons_append, List.foldl_cons]
      refine ih _ (fun x hx => hw x (List.mem_cons_of_mem _ hx)) ?_
      rw [ha, foldl_absorb c ha hc hi l t a (hw a (List.mem_cons_self ..)), hu]
  cases w with
  | nil => simp [sumTags]
  | cons a w =>
    simp only [List.cons_append, sumTags]
    rw [this w a (fun x hx => hw x (List.mem_cons_of_mem _ hx)) (foldl_absorb c ha hc hi l t a (hw a (List.mem_cons_self ..)))]

/-- Elements a collection was made of do not change it if they are added once more. -/
theorem fromVec_again (c : Prov T W) (ha : ∀ x y z, c.add (c.add x y) z = c.add x (c.add y z)) (hc : ∀ x y, c.add x y = c.add y x)
    (hi : ∀ x, c.add x x = x) (v w : List (Elem α T)) (hw : ∀ e ∈ w, e ∈ v) : fromVec c (w ++ fromVec c v) = fromVec c v := by
  refine sorted_ext (fromVec_sorted c _) (fromVec_sorted c _) (fun x => ?_)
  have hsub : ∀ a ∈ tagsOf w x, a ∈ tagsOf v x := by
    intro a ha
    simp only [tagsOf, List.mem_map, List.mem_filter] at ha ⊢
    obtain ⟨e, ⟨h1, h2⟩, h3⟩ := ha
    exact ⟨e, ⟨hw e h1, h2⟩, h3⟩
  rw [tagsOf_fromVec, tagsOf_append, tagsOf_fromVec]
  cases hv : tagsOf v x with
  | nil =>
    rw [hv] at hsub
    have : tagsOf w x = [] := List.eq_nil_iff_forall_not_mem.mpr (fun a ha => by simpa using hsub a ha)
    simp [this, sumTags]
  | cons t l =>
    rw [hv] at hsub
    have e : sumTags c (t :: l) = some (l.foldl c.add t) := rfl
    rw [e, Option.toList_some, sum_again c ha hc hi t l _ (fun a ha => by simpa using hsub a ha), Option.toList_some]

end Scallop
