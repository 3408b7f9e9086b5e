import Verif.Proof.Relation
import Verif.Props.Collections

namespace Scallop
variable {α T W : Type*} [LinearOrder α]

theorem reach_wf [LinearOrder W] {c : Prov T W} {s : Scheduler} {r : Relation α T} (h : Relation.Reach c s r) : r.Wf := by
  induction h with
  | new => exact ⟨by simp [Relation.new], List.Pairwise.nil, by simp [Relation.new]⟩
  | insertTagged data _ ih =>
    refine ⟨ih.stable, ih.recent, ?_⟩
    intro b hb
    rcases List.mem_append.mp hb with h | h
    · exact ih.toAdd b h
    · simp at h; rw [h]; exact fromVec_sorted c data
  | insertBatches ed bs _ ih =>
    refine ⟨ih.stable, ih.recent, ?_⟩
    intro b hb
    rcases List.mem_append.mp hb with h | h
    · exact ih.toAdd b h
    · obtain ⟨d, _, rfl⟩ := List.mem_map.mp h; exact fromVec_sorted c _
  | changed _ he ih =>
    obtain ⟨r', e, h, _⟩ := changed_spec c s _ ih
    rw [he] at e
    cases e
    exact h

theorem foldl_merge_tags (c : Prov T W) (hcomm : ∀ a b, c.add a b = c.add b a) (x : α) :
    ∀ (bs : List (List (Elem α T))) (b : List (Elem α T)), Sorted b → (∀ b ∈ bs, Sorted b) →
      tagsOf (bs.foldl (merge c) b) x = (sumTags c (tagsOf b x ++ tagsOfB bs x)).toList := by
  intro bs
  induction bs with
  | nil => intro b h _; simp [tagsOfB, sumTags_sorted c h]
  | cons d bs ih =>
    intro b h hb
    have hd := hb d (by simp)
    have hm := c02_merge c hcomm b d h hd
    rw [List.foldl_cons, ih _ hm.1 (fun d hd => hb d (List.mem_cons_of_mem _ hd)), hm.2]
    have e1 : tagsOfB (d :: bs) x = tagsOf d x ++ tagsOfB bs x := by simp [tagsOfB]
    rw [e1, ← List.append_assoc]
    generalize tagsOf b x ++ tagsOf d x = l
    cases l with
    | nil => rfl
    | cons t ts => simp [sumTags]

omit [LinearOrder α] in
theorem geometricRev_iff (bs : List (List (Elem α T))) :
    GeometricRev bs ↔ (∀ b ∈ bs, b ≠ []) ∧ bs.Pairwise (fun b d => 2 * b.length < d.length) := by
  induction bs with
  | nil => simp [GeometricRev]
  | cons b bs ih =>
    cases bs with
    | nil => simp [GeometricRev, List.length_pos_iff]
    | cons d bs =>
      rw [GeometricRev, ih, List.length_pos_iff, List.pairwise_cons (a := b)]
      constructor
      · rintro ⟨h1, h2, h3, h4⟩
        refine ⟨?_, ?_, h4⟩
        · intro e he
          rcases List.mem_cons.mp he with rfl | he
          · exact h1
          · exact h3 e he
        · intro e he
          rcases List.mem_cons.mp he with rfl | he
          · exact h2
          · have := (List.pairwise_cons.mp h4).1 e he
            omega
      · rintro ⟨h1, h2, h3⟩
        exact ⟨h1 b (by simp), h2 d (by simp), fun e he => h1 e (List.mem_cons_of_mem _ he), h3⟩

omit [LinearOrder α] in
theorem geometric_iff (bs : List (List (Elem α T))) : Geometric bs ↔ GeometricRev bs.reverse := by
  rw [geometricRev_iff, List.pairwise_reverse]
  simp [Geometric]

/-- With always-saturated tags the scan keeps every stable element. -/
theorem scanBatch_saturated (c : Prov T W) (hsat : ∀ a b, c.saturated a b = true)
    (seek : List (Elem α T) → Nat → α → Nat) : ∀ (batch : List (Elem α T)) (i : Nat) (st : Scan α T),
    (scanBatch c seek batch i st).1.map Elem.tuple = batch.map Elem.tuple := by
  intro batch
  induction batch with
  | nil => intro i st; rfl
  | cons s batch ih =>
    intro i st
    simp only [scanBatch, List.map_append, List.map_cons]
    rw [ih]
    generalize seek st.toAdd i s.tuple = i'
    have : ∃ s', (stableRetain c i' st s).1 = some s' ∧ s'.tuple = s.tuple := by
      unfold stableRetain
      split
      · exact ⟨s, rfl, rfl⟩
      · split
        · exact ⟨s, rfl, rfl⟩
        · simp [satUpdate, hsat]
    obtain ⟨s', h1, h2⟩ := this
    rw [h1]
    simp [h2]

theorem scanStable_saturated (c : Prov T W) (hsat : ∀ a b, c.saturated a b = true) :
    ∀ (bs : List (List (Elem α T))) (st : Scan α T),
    (scanStable c bs st).1.map (·.map Elem.tuple) = bs.map (·.map Elem.tuple) := by
  intro bs
  induction bs with
  | nil => intro st; rfl
  | cons b bs ih =>
    intro st
    simp only [scanStable, List.map_cons, ih]
    congr 1
    split <;> exact scanBatch_saturated c hsat _ _ _ _

theorem scheduleLfp_saturated (c : Prov T W) (hsat : ∀ a b, c.saturated a b = true) (toAdd : List (Elem α T))
    (bs : List (List (Elem α T))) : (scheduleLfp c toAdd bs).2.map (·.map Elem.tuple) = bs.map (·.map Elem.tuple) := by
  unfold scheduleLfp
  split
  · exact scanStable_saturated c hsat _ _
  · rfl

omit [LinearOrder α] in
theorem geometric_of_map {bs cs : List (List (Elem α T))} (h : bs.map (·.map Elem.tuple) = cs.map (·.map Elem.tuple))
    (hg : Geometric bs) : Geometric cs := by
  have hl : bs.map List.length = cs.map List.length := by
    have := congrArg (List.map List.length) h
    simpa [List.map_map, Function.comp_def] using this
  have key : ∀ ds : List (List (Elem α T)), Geometric ds ↔
      (∀ n ∈ ds.map List.length, 0 < n) ∧ (ds.map List.length).Pairwise (fun b d => 2 * d < b) := by
    intro ds
    rw [List.pairwise_map]
    simp [Geometric, List.length_pos_iff]
  rw [key, ← hl, ← key]; exact hg

end Scallop
