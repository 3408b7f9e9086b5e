import Verif.Proof.Iteration

namespace Scallop

variable {V T W ι κ : Type*} [LinearOrder V]

theorem DF.static_stratified : ∀ d : DF V ι κ, d.static → d.stratified := by
  intro d
  induction d with
  | input _ => exact fun _ => trivial
  | overwriteOne d ih | filter d p ih | find d k ih | project d f ih => exact ih
  | _ => exact fun h => absurd h (by simp [DF.static])

theorem tuples_elemsOf {B : List (Batch V T)} {b : Batch V T} (hb : b ∈ B) : tuples b.elems ⊆ tuples (elemsOf B) := by
  rintro _ ⟨e, he, rfl⟩
  exact ⟨e, List.mem_flatMap.mpr ⟨b, hb, he⟩, rfl⟩

/-- The stable batches of a dataflow hold only tuples of its set semantics. -/
theorem stable_sem (c : Prov T W) (hu : c.Uniform) {env : Env V T ι κ} (hw : env.Wf) : ∀ d : DF V ι κ, d.wellSorted → d.stratified →
    ∀ S, d.stable c env = some S → tuples (elemsOf S) ⊆ d.sem c env.input (fun i => (env.rel i).visible) := by
  intro d
  by_cases hf : env.first = true
  · intro _ _ S hS
    rw [elemsOf_nil_of_first hw hf hS]
    rintro _ ⟨e, he, _⟩; simp [elemsOf] at he
  · have hf' : env.first = false := by simpa using hf
    have hsrc : SrcSub (env.stableSrc c) env.input (fun i => (env.rel i).visible) := by
      refine ⟨?_, ?_, ?_, ?_⟩
      · rintro t _ ⟨e, he, rfl⟩; simp [Env.stableSrc, hf'] at he; subst he; rfl
      · rintro ts _ ⟨e, he, rfl⟩; simp [Env.stableSrc] at he
      · intro i; simp only [Env.stableSrc]; rw [tuples_flatten]; exact Set.subset_union_left
      · intro j; simp [Env.stableSrc, hf']
    have hpos : ∀ d : DF V ι κ, d.wellSorted → d.positive → ∀ S, d.stable c env = some S →
        tuples (elemsOf S) ⊆ d.sem c env.input (fun i => (env.rel i).visible) := by
      intro d hws hp S hS
      rintro _ ⟨e, he, rfl⟩
      exact bag_sub c hu hsrc d (d.positive_stratified hp) ⟨e, (DF.stable_positive c hw d hws hp S hS).subset he, rfl⟩
    induction d with
    | unit t => exact fun h _ => hpos _ h trivial
    | untagged ts => exact fun h _ => hpos _ h trivial
    | rel i => exact fun h _ => hpos _ h trivial
    | input j => exact fun h _ => hpos _ h trivial
    | listed js => exact fun h _ => hpos _ h trivial
    | once bs =>
      intro _ _ S hS
      cases hS
      rintro _ ⟨e, he, _⟩; simp [elemsOf] at he
    | expand d f ih =>
      intro h hp S hS
      simp only [DF.stable, Option.bind_eq_some_iff] at hS
      obtain ⟨B, hB, hS⟩ := hS
      rw [elemsOf_expand hS]
      rintro _ ⟨e, he, rfl⟩
      simp only [expandSpec, List.mem_flatMap] at he
      obtain ⟨x, hx, he⟩ := he
      split at he
      · simp at he
      · rename_i r hr
        obtain ⟨p, hp', he⟩ := List.mem_flatMap.mp he
        obtain ⟨y, hy, rfl⟩ := List.mem_map.mp he
        exact ⟨x.tuple, ih h hp B hB ⟨x, hx, rfl⟩, r, hr, p.2, hp', List.ne_nil_of_mem hy⟩
    | intersect d1 d2 _ _ | join d1 d2 _ _ | product d1 d2 _ _ => exact fun h hp => hpos _ h hp
    | overwriteOne d ih =>
      intro h hp S hS
      simp only [DF.stable, Option.map_eq_some_iff] at hS
      obtain ⟨B, hB, rfl⟩ := hS
      rintro _ ⟨e, he, rfl⟩
      obtain ⟨b, hb, he⟩ := List.mem_flatMap.mp he
      obtain ⟨b', hb', rfl⟩ := List.mem_map.mp hb
      obtain ⟨x, hx, rfl⟩ := List.mem_map.mp he
      exact ih h hp B hB (tuples_elemsOf hb' ⟨x, hx, rfl⟩)
    | sorted d ih =>
      intro h hp S hS
      simp only [DF.stable, Option.map_eq_some_iff] at hS
      obtain ⟨B, hB, rfl⟩ := hS
      rintro _ ⟨e, he, rfl⟩
      exact ih h hp B hB ⟨e, (elemsOf_sorted B).subset he, rfl⟩
    | filter d p ih =>
      intro h hp S hS
      simp only [DF.stable, Option.map_eq_some_iff] at hS
      obtain ⟨B, hB, rfl⟩ := hS
      rintro _ ⟨e, he, rfl⟩
      obtain ⟨b, hb, he⟩ := List.mem_flatMap.mp he
      obtain ⟨b', hb', rfl⟩ := List.mem_map.mp hb
      obtain ⟨hx, hpx⟩ := List.mem_filter.mp he
      exact ⟨ih h hp B hB (tuples_elemsOf hb' ⟨e, hx, rfl⟩), hpx⟩
    | find d k ih =>
      intro h hp S hS
      simp only [DF.stable, Option.bind_eq_some_iff] at hS
      obtain ⟨B, hB, hS⟩ := hS
      rw [elemsOf_find (fun b hb => ((DF.batches_sorted c hw d h.1).2 h.2) B (Or.inl hB) b hb) hS]
      rintro _ ⟨e, he, rfl⟩
      obtain ⟨hx, hpx⟩ := List.mem_filter.mp he
      exact ⟨ih h.1 hp B hB ⟨e, hx, rfl⟩, by simpa using hpx⟩
    | project d f ih =>
      intro h hp S hS
      simp only [DF.stable, Option.map_eq_some_iff] at hS
      obtain ⟨B, hB, rfl⟩ := hS
      rintro _ ⟨e, he, rfl⟩
      obtain ⟨b, hb, he⟩ := List.mem_flatMap.mp he
      obtain ⟨b', hb', rfl⟩ := List.mem_map.mp hb
      simp only [projectBatch, List.mem_filterMap, Option.map_eq_some_iff] at he
      obtain ⟨x, hx, t, ht, rfl⟩ := he
      exact ⟨x.tuple, ih h hp B hB (tuples_elemsOf hb' ⟨x, hx, rfl⟩), ht⟩
    | union d1 d2 ih1 ih2 =>
      intro h hp S hS
      simp only [DF.stable, Option.bind_eq_bind, Option.bind_eq_some_iff] at hS
      obtain ⟨B1, hB1, B2, hB2, hS⟩ := hS
      cases hS
      rw [elemsOf_append]
      rintro _ ⟨e, he, rfl⟩
      rcases List.mem_append.mp he with he | he
      · exact Or.inl (ih1 h.1 hp.1 B1 hB1 ⟨e, he, rfl⟩)
      · exact Or.inr (ih2 h.2 hp.2 B2 hB2 ⟨e, he, rfl⟩)
    | difference d1 d2 _ _ | antijoin d1 d2 _ _ =>
      intro _ _ S hS
      cases hS
      rintro _ ⟨e, he, _⟩; simp [elemsOf] at he

theorem binaryBatches_isSome {f : Batch V T → Batch V T → Option (Batch V T)} {B1 B2 : List (Batch V T)}
    (h : ∀ b1 ∈ B1, ∀ b2 ∈ B2, ∃ b, f b1 b2 = some b) : ∃ R, binaryBatches f B1 B2 = some R := by
  unfold binaryBatches
  obtain ⟨r, hr⟩ : ∃ r, B1.mapM (fun b1 => B2.mapM (f b1)) = some r :=
    mapM_isSome (fun b1 hb1 => mapM_isSome (fun b2 hb2 => h b1 hb1 b2 hb2))
  exact ⟨_, by rw [hr]; rfl⟩

theorem recentBinary_isSome {f : Batch V T → Batch V T → Option (Batch V T)} {S1 R1 S2 R2 : List (Batch V T)}
    (h : ∀ b1, b1 ∈ S1 ∨ b1 ∈ R1 → ∀ b2, b2 ∈ S2 ∨ b2 ∈ R2 → ∃ b, f b1 b2 = some b) :
    ∃ R, recentBinary f (some S1) (some R1) (some S2) (some R2) = some R := by
  obtain ⟨a, ha⟩ := binaryBatches_isSome (B1 := S1) (B2 := R2) (fun b1 h1 b2 h2 => h b1 (Or.inl h1) b2 (Or.inr h2))
  obtain ⟨b, hb⟩ := binaryBatches_isSome (B1 := R1) (B2 := S2) (fun b1 h1 b2 h2 => h b1 (Or.inr h1) b2 (Or.inl h2))
  obtain ⟨d, hd⟩ := binaryBatches_isSome (B1 := R1) (B2 := R2) (fun b1 h1 b2 h2 => h b1 (Or.inr h1) b2 (Or.inr h2))
  exact ⟨_, by simp only [recentBinary, Option.bind_eq_bind, Option.bind_some, ha, hb, hd]; rfl⟩

/-- A safe dataflow does not panic. -/
theorem batches_isSome (c : Prov T W) (hu : c.Uniform) {env : Env V T ι κ} (hw : env.Wf) {X : ι → Set (Tup V)} (hX : ∀ i, (env.rel i).visible ⊆ X i) :
    ∀ d : DF V ι κ, d.wellSorted → d.stratified → d.safe c env.input X →
      (∃ S, d.stable c env = some S) ∧ ∃ R, d.recent c env = some R := by
  have hin : ∀ d : DF V ι κ, d.wellSorted → d.stratified → ∀ B, (d.stable c env = some B ∨ d.recent c env = some B) →
      ∀ b ∈ B, ∀ e ∈ b.elems, e.tuple ∈ d.sem c env.input X := by
    intro d h1 h2 B hB b hb e he
    refine sem_mono c env.input hX d ?_
    rcases hB with hB | hB
    · exact stable_sem c hu hw d h1 h2 B hB (tuples_elemsOf hb ⟨e, he, rfl⟩)
    · exact (recent_sem c hu hw h1 h2 hB).1 (tuples_elemsOf hb ⟨e, he, rfl⟩)
  intro d
  induction d with
  | unit t => exact fun _ _ _ => ⟨⟨_, rfl⟩, _, rfl⟩
  | untagged ts => exact fun _ _ _ => ⟨⟨_, rfl⟩, _, rfl⟩
  | rel i => exact fun _ _ _ => ⟨⟨_, rfl⟩, _, rfl⟩
  | input j => exact fun _ _ _ => ⟨⟨_, rfl⟩, _, rfl⟩
  | once bs => exact fun _ _ _ => ⟨⟨_, rfl⟩, _, rfl⟩
  | listed js => exact fun _ _ _ => ⟨⟨_, rfl⟩, _, rfl⟩
  | expand d f ih =>
    intro h1 h2 h3
    obtain ⟨⟨S, hS⟩, R, hR⟩ := ih h1 h2 h3.1
    have key : ∀ B, (d.stable c env = some B ∨ d.recent c env = some B) → ∃ r, B.mapM (expandBatch c env f) = some r := by
      intro B hB
      apply mapM_isSome
      intro b hb
      obtain ⟨l, hl⟩ := mapM_isSome (l := b.elems) (f := fun e => (f e.tuple).map (fun r =>
          r.flatMap (fun p => (env.input p.2).map (fun x => (⟨p.1, c.mult e.tag x.tag⟩ : Elem (Tup V) T))))) (by
        intro e he
        obtain ⟨r, hr⟩ := Option.isSome_iff_exists.mp (h3.2 _ (hin d h1 h2 B hB b hb e he))
        exact ⟨_, by simp only [hr]; rfl⟩)
      exact ⟨_, by unfold expandBatch; rw [hl]; rfl⟩
    obtain ⟨r1, hr1⟩ := key S (Or.inl hS)
    obtain ⟨r2, hr2⟩ := key R (Or.inr hR)
    exact ⟨⟨r1, by simp only [DF.stable, hS, Option.bind_some]; exact hr1⟩, r2, by simp only [DF.recent, hR, Option.bind_some]; exact hr2⟩
  | overwriteOne d ih | sorted d ih | filter d p ih | project d f ih =>
    intro h1 h2 h3
    obtain ⟨⟨S, hS⟩, R, hR⟩ := ih h1 h2 h3
    exact ⟨⟨_, by simp only [DF.stable, hS]; rfl⟩, _, by simp only [DF.recent, hR]; rfl⟩
  | find d k ih =>
    intro h1 h2 h3
    obtain ⟨⟨S, hS⟩, R, hR⟩ := ih h1.1 h2 h3.1
    have key : ∀ B, (d.stable c env = some B ∨ d.recent c env = some B) →
        ∃ r, B.mapM (fun b => (findLoop k b.elems).map (fun l => (⟨l, false⟩ : Batch V T))) = some r := by
      intro B hB
      apply mapM_isSome
      intro b hb
      obtain ⟨o, ho⟩ := findLoop_isSome k b.elems
        (fun e he => Option.isSome_iff_exists.mp (h3.2 _ (hin d h1.1 h2 B hB b hb e he)))
      exact ⟨_, by rw [ho]; rfl⟩
    obtain ⟨r1, hr1⟩ := key S (Or.inl hS)
    obtain ⟨r2, hr2⟩ := key R (Or.inr hR)
    exact ⟨⟨r1, by simp only [DF.stable, hS, Option.bind_some]; exact hr1⟩, r2, by simp only [DF.recent, hR, Option.bind_some]; exact hr2⟩
  | union d1 d2 ih1 ih2 =>
    intro h1 h2 h3
    obtain ⟨⟨S1, hS1⟩, R1, hR1⟩ := ih1 h1.1 h2.1 h3.1
    obtain ⟨⟨S2, hS2⟩, R2, hR2⟩ := ih2 h1.2 h2.2 h3.2
    exact ⟨⟨_, by simp only [DF.stable, hS1, hS2]; rfl⟩, _, by simp only [DF.recent, hR1, hR2]; rfl⟩
  | intersect d1 d2 ih1 ih2 =>
    intro h1 h2 h3
    obtain ⟨⟨S1, hS1⟩, R1, hR1⟩ := ih1 h1.1 (d1.positive_stratified h2.1) h3.1
    obtain ⟨⟨S2, hS2⟩, R2, hR2⟩ := ih2 h1.2.1 (d2.positive_stratified h2.2) h3.2
    simp only [DF.stable, DF.recent, hS1, hS2, hR1, hR2]
    exact ⟨binaryBatches_isSome (fun _ _ _ _ => ⟨_, rfl⟩), recentBinary_isSome (fun _ _ _ _ => ⟨_, rfl⟩)⟩
  | product d1 d2 ih1 ih2 =>
    intro h1 h2 h3
    obtain ⟨⟨S1, hS1⟩, R1, hR1⟩ := ih1 h1.1 (d1.positive_stratified h2.1) h3.1
    obtain ⟨⟨S2, hS2⟩, R2, hR2⟩ := ih2 h1.2 (d2.positive_stratified h2.2) h3.2
    simp only [DF.stable, DF.recent, hS1, hS2, hR1, hR2]
    exact ⟨binaryBatches_isSome (fun _ _ _ _ => ⟨_, rfl⟩), recentBinary_isSome (fun _ _ _ _ => ⟨_, rfl⟩)⟩
  | join d1 d2 ih1 ih2 =>
    intro h1 h2 h3
    obtain ⟨⟨S1, hS1⟩, R1, hR1⟩ := ih1 h1.1 (d1.positive_stratified h2.1) h3.1
    obtain ⟨⟨S2, hS2⟩, R2, hR2⟩ := ih2 h1.2.1 (d2.positive_stratified h2.2) h3.2.1
    have hp : ∀ d : DF V ι κ, d.wellSorted → d.positive → (∀ t ∈ d.sem c env.input X, (t.at? 0).isSome ∧ (t.at? 1).isSome) →
        ∀ S R, d.stable c env = some S → d.recent c env = some R → ∀ b, b ∈ S ∨ b ∈ R → Pairs b.elems := by
      intro d hws hpos hs S R hS hR b hb e he
      have : e.tuple ∈ d.sem c env.input X := by
        rcases hb with hb | hb
        · exact hin d hws (d.positive_stratified hpos) S (Or.inl hS) b hb e he
        · exact hin d hws (d.positive_stratified hpos) R (Or.inr hR) b hb e he
      obtain ⟨k, hk⟩ := Option.isSome_iff_exists.mp (hs _ this).1
      obtain ⟨a, ha⟩ := Option.isSome_iff_exists.mp (hs _ this).2
      exact ⟨k, a, hk, ha⟩
    have hj : ∀ b1 b2 : Batch V T, Pairs b1.elems → Pairs b2.elems → ∃ b, joinBatch c b1 b2 = some b := by
      intro b1 b2 p1 p2
      obtain ⟨o, ho⟩ := joinLoop_isSome c (b1.elems.length + b2.elems.length) b1.elems b2.elems p1 p2
      exact ⟨_, by unfold joinBatch; rw [ho]; rfl⟩
    have q1 := hp d1 h1.1 h2.1 h3.2.2.1 S1 R1 hS1 hR1
    have q2 := hp d2 h1.2.1 h2.2 h3.2.2.2 S2 R2 hS2 hR2
    simp only [DF.stable, DF.recent, hS1, hS2, hR1, hR2]
    exact ⟨binaryBatches_isSome (fun b1 hb1 b2 hb2 => hj b1 b2 (q1 b1 (Or.inl hb1)) (q2 b2 (Or.inl hb2))),
      recentBinary_isSome (fun b1 hb1 b2 hb2 => hj b1 b2 (q1 b1 hb1) (q2 b2 hb2))⟩
  | difference d1 d2 ih1 ih2 =>
    intro h1 h2 h3
    obtain ⟨⟨S1, hS1⟩, R1, hR1⟩ := ih1 h1.1 h2.1 h3.1
    obtain ⟨⟨S2, hS2⟩, R2, hR2⟩ := ih2 h1.2.1 (d2.static_stratified h2.2) h3.2
    simp only [DF.stable, DF.recent, hS1, hS2, hR1, hR2]
    exact ⟨⟨_, rfl⟩, recentBinary_isSome (fun _ _ _ _ => ⟨_, rfl⟩)⟩
  | antijoin d1 d2 ih1 ih2 =>
    intro h1 h2 h3
    obtain ⟨⟨S1, hS1⟩, R1, hR1⟩ := ih1 h1.1 h2.1 h3.1
    obtain ⟨⟨S2, hS2⟩, R2, hR2⟩ := ih2 h1.2.1 (d2.static_stratified h2.2) h3.2.1
    simp only [DF.stable, DF.recent, hS1, hS2, hR1, hR2]
    refine ⟨⟨_, rfl⟩, recentBinary_isSome (fun b1 hb1 b2 hb2 => ?_)⟩
    obtain ⟨o, ho⟩ := antijoinLoop_isSome c b2.gallop (b1.elems.length + b2.elems.length) b1.elems b2.elems (by
      intro e he
      refine Option.isSome_iff_exists.mp (h3.2.2 _ ?_)
      rcases hb1 with hb | hb
      · exact hin d1 h1.1 h2.1 S1 (Or.inl hS1) b1 hb e he
      · exact hin d1 h1.1 h2.1 R1 (Or.inr hR1) b1 hb e he)
    exact ⟨_, by unfold antijoinBatch; rw [ho]; rfl⟩

variable [LinearOrder W] [Fintype ι] [DecidableEq ι]

theorem foldUpdates_isSome (c : Prov T W) (p : Stratum V T ι κ) (hok : p.Ok c) (hsafe : ∀ u ∈ p.updates, u.2.safe c p.input (p.lfp c))
    {s : IterState V T ι} (hm : Mid c p s) :
    ∀ (us : List (ι × DF V ι κ)), (∀ u ∈ us, u ∈ p.updates) → ∀ (rel : ι → Relation (Tup V) T), (∀ i, Grown (s.rel i) (rel i)) →
    (∀ i, (rel i).Wf) → (∀ i, (rel i).known ⊆ p.lfp c i) → ∃ rel', us.foldlM (applyUpdate c p (s.num == 0)) rel = some rel' := by
  intro us
  induction us with
  | nil => intro _ rel _ _ _; exact ⟨rel, rfl⟩
  | cons u us ih =>
    intro hus rel hg hwf hsd
    have henv : (⟨rel, p.input, s.num == 0⟩ : Env V T ι κ).Wf := by
      refine ⟨hwf, hok.input, ?_⟩
      intro hf i
      rw [(hg i).stable]
      exact hm.stable0 (by simpa using hf) i
    have hu := hus u (by simp)
    obtain ⟨R, hR⟩ := (batches_isSome c hok.minus henv (X := p.lfp c) (fun i x hx => hsd i (Or.inl (Or.inl hx))) u.2 (hok.sorted u hu)
      (hok.stratified u hu) (hsafe u hu)).2
    obtain ⟨rel1, h1⟩ : ∃ rel1, applyUpdate c p (s.num == 0) rel u = some rel1 := ⟨_, by unfold applyUpdate; rw [hR]; rfl⟩
    obtain ⟨a1, a2, a3, _⟩ := applyUpdate_spec c p hok hm hg hwf hsd hu h1
    obtain ⟨rel', h⟩ := ih (fun v hv => hus v (by simp [hv])) rel1 (fun i => (hg i).trans (a1 i)) a2 a3
    exact ⟨rel', by simp only [List.foldlM_cons, h1, Option.bind_eq_bind, Option.bind_some]; exact h⟩

/-- No run of a safe stratum panics. -/
theorem runLoop_noPanic (c : Prov T W) (p : Stratum V T ι κ) (hok : p.Ok c) (hsafe : ∀ u ∈ p.updates, u.2.safe c p.input (p.lfp c)) :
    ∀ (fuel : Nat) (s : IterState V T ι), Inv c p s → runLoop c p fuel s ≠ .panic := by
  intro fuel
  induction fuel with
  | zero => intro s _ h; cases h
  | succ fuel ih =>
    intro s hi
    obtain ⟨s1, b, he, hnum, hkn, ht, hf⟩ := needToIterate_spec c p hi
    unfold runLoop
    rw [he]
    cases b with
    | false => intro h; cases h
    | true =>
      obtain ⟨hm, _, _⟩ := ht rfl
      obtain ⟨rel', hr⟩ := foldUpdates_isSome c p hok hsafe hm p.updates (fun _ h => h) s1.rel (fun i => ⟨rfl, rfl, rfl, fun _ h => h⟩)
        hm.wf hm.sound
      have hb : iterBody c p s1 = some ⟨s1.num + 1, rel'⟩ := by unfold iterBody; rw [hr]; rfl
      simp only [hb]
      exact ih _ (iterBody_spec c p hok hm hb).1

end Scallop
