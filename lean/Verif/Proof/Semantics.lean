import Verif.Proof.Dataflow
import Verif.Spec.Fixpoint

namespace Scallop

variable {V T W ι κ : Type*} [LinearOrder V]

/-! Tuples of the bag semantics against the set semantics. -/

theorem minusBy_isSome (c : Prov T W) (hu : c.Uniform) (B : List (Elem (Tup V) T)) (k : Option (Tup V)) (x : Elem (Tup V) T) :
    (minusBy c B k x).isSome ↔ survives c B k := by
  unfold minusBy survives
  cases h : B.find? (fun y => some y.tuple = k) with
  | none => simp
  | some y => simpa using hu x.tag c.one y.tag

theorem bag_static (c : Prov T W) (inp : κ → List (Elem (Tup V) T)) (src : Leaf V ι κ → List (Elem (Tup V) T))
    (hi : ∀ j, src (.input j) = inp j) : ∀ d : DF V ι κ, d.static → d.bag c src = d.bag c (inputSrc inp) := by
  intro d
  induction d with
  | input j => intro _; simp only [DF.bag, inputSrc, hi]
  | overwriteOne d ih | filter d p ih | find d k ih | project d f ih =>
    intro h; simp only [DF.bag]; rw [ih h]
  | _ => intro h; exact absurd h (by simp [DF.static])

theorem mem_tuples_minus (c : Prov T W) (hu : c.Uniform) (B : List (Elem (Tup V) T)) (k : Tup V → Option (Tup V)) (A : List (Elem (Tup V) T)) (t : Tup V) :
    t ∈ tuples (A.filterMap (fun x => minusBy c B (k x.tuple) x)) ↔ t ∈ tuples A ∧ survives c B (k t) := by
  constructor
  · rintro ⟨e, he, rfl⟩
    obtain ⟨x, hx, hm⟩ := List.mem_filterMap.mp he
    rw [minusBy_tuple c _ _ _ _ hm]
    exact ⟨⟨x, hx, rfl⟩, (minusBy_isSome c hu B _ x).mp (by rw [hm]; rfl)⟩
  · rintro ⟨⟨x, hx, rfl⟩, hs⟩
    obtain ⟨y, hy⟩ := Option.isSome_iff_exists.mp ((minusBy_isSome c hu B (k x.tuple) x).mpr hs)
    exact ⟨y, List.mem_filterMap.mpr ⟨x, hx, hy⟩, minusBy_tuple c _ _ _ _ hy⟩

/-- Leaves hold at most these sets, and exactly the input collections. -/
structure SrcSub (src : Leaf V ι κ → List (Elem (Tup V) T)) (inp : κ → List (Elem (Tup V) T)) (X : ι → Set (Tup V)) : Prop where
  unit : ∀ t, tuples (src (.unit t)) ⊆ {t}
  untagged : ∀ ts, tuples (src (.untagged ts)) ⊆ {t | t ∈ ts}
  rel : ∀ i, tuples (src (.rel i)) ⊆ X i
  input : ∀ j, src (.input j) = inp j

/-- Leaves hold at least these sets, and exactly the input collections. -/
structure SrcSup (src : Leaf V ι κ → List (Elem (Tup V) T)) (inp : κ → List (Elem (Tup V) T)) (X : ι → Set (Tup V)) : Prop where
  unit : ∀ t, {t} ⊆ tuples (src (.unit t))
  untagged : ∀ ts, {t | t ∈ ts} ⊆ tuples (src (.untagged ts))
  rel : ∀ i, X i ⊆ tuples (src (.rel i))
  input : ∀ j, src (.input j) = inp j

theorem DF.positive_stratified : ∀ d : DF V ι κ, d.positive → d.stratified := by
  intro d
  induction d with
  | unit _ | untagged _ | rel _ | input _ | listed _ => exact fun h => h
  | once _ => exact fun h => h.elim
  | overwriteOne d ih | filter d p ih | find d k ih | project d f ih | sorted d ih | expand d f ih => exact ih
  | union d1 d2 ih1 ih2 => exact fun h => ⟨ih1 h.1, ih2 h.2⟩
  | intersect d1 d2 _ _ | join d1 d2 _ _ | product d1 d2 _ _ => exact fun h => h
  | difference _ _ _ _ | antijoin _ _ _ _ => exact fun h => h.elim

theorem joinPair_some {c : Prov T W} {x y z : Elem (Tup V) T} (h : joinPair c x y = some z) :
    ∃ k a b, x.tuple.at? 0 = some k ∧ x.tuple.at? 1 = some a ∧ y.tuple.at? 0 = some k ∧ y.tuple.at? 1 = some b ∧
      z = ⟨.tup [k, a, b], c.mult x.tag y.tag⟩ := by
  unfold joinPair at h
  split at h
  · rename_i k a k' b h1 h2 h3 h4
    split at h
    · rename_i hk
      subst hk
      exact ⟨k, a, b, h1, h2, h3, h4, (Option.some.inj h).symm⟩
    · cases h
  · cases h

theorem bag_sub (c : Prov T W) (hu : c.Uniform) {src : Leaf V ι κ → List (Elem (Tup V) T)} {inp : κ → List (Elem (Tup V) T)} {X : ι → Set (Tup V)}
    (hs : SrcSub src inp X) : ∀ d : DF V ι κ, d.stratified → tuples (d.bag c src) ⊆ d.sem c inp X := by
  intro d
  induction d with
  | unit t => intro _; exact hs.unit t
  | untagged ts => intro _; exact hs.untagged ts
  | rel i => intro _; exact hs.rel i
  | input j => intro _; simp only [DF.bag, DF.sem, hs.input]; exact fun _ h => h
  | overwriteOne d ih =>
    rintro h _ ⟨e, he, rfl⟩
    simp only [DF.bag, List.mem_map] at he
    obtain ⟨x, hx, rfl⟩ := he
    exact ih h ⟨x, hx, rfl⟩
  | sorted d ih => exact ih
  | filter d p ih =>
    rintro h _ ⟨e, he, rfl⟩
    simp only [DF.bag, List.mem_filter] at he
    exact ⟨ih h ⟨e, he.1, rfl⟩, he.2⟩
  | find d k ih =>
    rintro h _ ⟨e, he, rfl⟩
    simp only [DF.bag, findSpec, List.mem_filter, decide_eq_true_eq] at he
    exact ⟨ih h ⟨e, he.1, rfl⟩, he.2⟩
  | project d f ih =>
    rintro h _ ⟨e, he, rfl⟩
    simp only [DF.bag, List.mem_filterMap, Option.map_eq_some_iff] at he
    obtain ⟨x, hx, t, ht, rfl⟩ := he
    exact ⟨x.tuple, ih h ⟨x, hx, rfl⟩, ht⟩
  | union d1 d2 ih1 ih2 =>
    rintro h _ ⟨e, he, rfl⟩
    simp only [DF.bag, List.mem_append] at he
    rcases he with he | he
    · exact Or.inl (ih1 h.1 ⟨e, he, rfl⟩)
    · exact Or.inr (ih2 h.2 ⟨e, he, rfl⟩)
  | intersect d1 d2 ih1 ih2 =>
    rintro h _ ⟨e, he, rfl⟩
    simp only [DF.bag, intersectSpec, List.mem_flatMap, List.mem_filterMap] at he
    obtain ⟨x, hx, y, hy, he⟩ := he
    split at he
    · rename_i hxy
      cases he
      exact ⟨ih1 (d1.positive_stratified h.1) ⟨x, hx, rfl⟩, ih2 (d2.positive_stratified h.2) ⟨y, hy, hxy.symm⟩⟩
    · cases he
  | join d1 d2 ih1 ih2 =>
    rintro h _ ⟨e, he, rfl⟩
    simp only [DF.bag, joinSpec, List.mem_flatMap, List.mem_filterMap] at he
    obtain ⟨x, hx, y, hy, he⟩ := he
    obtain ⟨k, a, b, h1, h2, h3, h4, rfl⟩ := joinPair_some he
    exact ⟨k, a, b, rfl, ⟨x.tuple, ih1 (d1.positive_stratified h.1) ⟨x, hx, rfl⟩, h1, h2⟩,
      ⟨y.tuple, ih2 (d2.positive_stratified h.2) ⟨y, hy, rfl⟩, h3, h4⟩⟩
  | product d1 d2 ih1 ih2 =>
    rintro h _ ⟨e, he, rfl⟩
    simp only [DF.bag, productSpec, List.mem_flatMap, List.mem_map] at he
    obtain ⟨x, hx, y, hy, rfl⟩ := he
    exact ⟨x.tuple, ih1 (d1.positive_stratified h.1) ⟨x, hx, rfl⟩, y.tuple, ih2 (d2.positive_stratified h.2) ⟨y, hy, rfl⟩, rfl⟩
  | difference d1 d2 ih1 ih2 =>
    intro h t ht
    simp only [DF.bag, differenceSpec] at ht
    rw [mem_tuples_minus c hu _ some, bag_static c inp src hs.input d2 h.2] at ht
    exact ⟨ih1 h.1 ht.1, ht.2⟩
  | antijoin d1 d2 ih1 ih2 =>
    intro h t ht
    simp only [DF.bag, antijoinSpec] at ht
    rw [mem_tuples_minus c hu _ (fun t => t.at? 0), bag_static c inp src hs.input d2 h.2] at ht
    exact ⟨ih1 h.1 ht.1, ht.2⟩
  | once bs =>
    rintro _ _ ⟨e, he, rfl⟩
    simp only [DF.bag, hs.input, List.mem_flatMap, List.mem_flatten] at he
    obtain ⟨j, ⟨js, hjs, hj⟩, he⟩ := he
    exact ⟨js, hjs, j, hj, e, he, rfl⟩
  | listed js =>
    rintro _ _ ⟨e, he, rfl⟩
    simp only [DF.bag, hs.input, List.mem_flatMap] at he
    obtain ⟨j, hj, he⟩ := he
    exact ⟨j, hj, e, he, rfl⟩
  | expand d f ih =>
    rintro h _ ⟨e, he, rfl⟩
    simp only [DF.bag, expandSpec, hs.input, List.mem_flatMap] at he
    obtain ⟨x, hx, he⟩ := he
    split at he
    · simp at he
    · rename_i r hr
      obtain ⟨p, hp, he⟩ := List.mem_flatMap.mp he
      obtain ⟨y, hy, rfl⟩ := List.mem_map.mp he
      exact ⟨x.tuple, ih h ⟨x, hx, rfl⟩, r, hr, p.2, hp, List.ne_nil_of_mem hy⟩

theorem sem_sub_bag (c : Prov T W) (hu : c.Uniform) {src : Leaf V ι κ → List (Elem (Tup V) T)} {inp : κ → List (Elem (Tup V) T)} {X : ι → Set (Tup V)}
    (hs : SrcSup src inp X) : ∀ d : DF V ι κ, d.stratified → d.sem c inp X ⊆ tuples (d.bag c src) := by
  intro d
  induction d with
  | unit t => intro _; exact hs.unit t
  | untagged ts => intro _; exact hs.untagged ts
  | rel i => intro _; exact hs.rel i
  | input j => intro _; simp only [DF.bag, DF.sem, hs.input]; exact fun _ h => h
  | overwriteOne d ih =>
    intro h t ht
    obtain ⟨x, hx, rfl⟩ := ih h ht
    exact ⟨⟨x.tuple, c.one⟩, List.mem_map.mpr ⟨x, hx, rfl⟩, rfl⟩
  | sorted d ih => exact ih
  | filter d p ih =>
    rintro h t ⟨ht, hp⟩
    obtain ⟨x, hx, rfl⟩ := ih h ht
    exact ⟨x, List.mem_filter.mpr ⟨hx, hp⟩, rfl⟩
  | find d k ih =>
    rintro h t ⟨ht, hp⟩
    obtain ⟨x, hx, rfl⟩ := ih h ht
    exact ⟨x, List.mem_filter.mpr ⟨hx, by simpa using hp⟩, rfl⟩
  | project d f ih =>
    rintro h t ⟨u, hu, hf⟩
    obtain ⟨x, hx, rfl⟩ := ih h hu
    exact ⟨⟨t, x.tag⟩, List.mem_filterMap.mpr ⟨x, hx, by rw [hf]; rfl⟩, rfl⟩
  | union d1 d2 ih1 ih2 =>
    rintro h t (ht | ht)
    · obtain ⟨x, hx, rfl⟩ := ih1 h.1 ht
      exact ⟨x, List.mem_append_left _ hx, rfl⟩
    · obtain ⟨x, hx, rfl⟩ := ih2 h.2 ht
      exact ⟨x, List.mem_append_right _ hx, rfl⟩
  | intersect d1 d2 ih1 ih2 =>
    rintro h t ⟨h1, h2⟩
    obtain ⟨x, hx, rfl⟩ := ih1 (d1.positive_stratified h.1) h1
    obtain ⟨y, hy, hxy⟩ := ih2 (d2.positive_stratified h.2) h2
    exact ⟨⟨x.tuple, c.mult x.tag y.tag⟩, List.mem_flatMap.mpr ⟨x, hx, List.mem_filterMap.mpr ⟨y, hy, if_pos hxy.symm⟩⟩, rfl⟩
  | join d1 d2 ih1 ih2 =>
    rintro h _ ⟨k, a, b, rfl, ⟨u, hu, hu0, hu1⟩, v, hv, hv0, hv1⟩
    obtain ⟨x, hx, rfl⟩ := ih1 (d1.positive_stratified h.1) hu
    obtain ⟨y, hy, rfl⟩ := ih2 (d2.positive_stratified h.2) hv
    refine ⟨⟨.tup [k, a, b], c.mult x.tag y.tag⟩, List.mem_flatMap.mpr ⟨x, hx, List.mem_filterMap.mpr ⟨y, hy, ?_⟩⟩, rfl⟩
    simp [joinPair, hu0, hu1, hv0, hv1]
  | product d1 d2 ih1 ih2 =>
    rintro h _ ⟨u, hu, v, hv, rfl⟩
    obtain ⟨x, hx, rfl⟩ := ih1 (d1.positive_stratified h.1) hu
    obtain ⟨y, hy, rfl⟩ := ih2 (d2.positive_stratified h.2) hv
    exact ⟨⟨.tup [x.tuple, y.tuple], c.mult x.tag y.tag⟩, List.mem_flatMap.mpr ⟨x, hx, List.mem_map.mpr ⟨y, hy, rfl⟩⟩, rfl⟩
  | difference d1 d2 ih1 ih2 =>
    rintro h t ⟨h1, h2⟩
    simp only [DF.bag, differenceSpec]
    rw [mem_tuples_minus c hu _ some, bag_static c inp src hs.input d2 h.2]
    exact ⟨ih1 h.1 h1, h2⟩
  | antijoin d1 d2 ih1 ih2 =>
    rintro h t ⟨h1, h2⟩
    simp only [DF.bag, antijoinSpec]
    rw [mem_tuples_minus c hu _ (fun t => t.at? 0), bag_static c inp src hs.input d2 h.2]
    exact ⟨ih1 h.1 h1, h2⟩
  | once bs =>
    rintro _ _ ⟨js, hjs, j, hj, e, he, rfl⟩
    refine ⟨e, ?_, rfl⟩
    simp only [DF.bag, hs.input, List.mem_flatMap, List.mem_flatten]
    exact ⟨j, ⟨js, hjs, hj⟩, he⟩
  | listed js =>
    rintro _ _ ⟨j, hj, e, he, rfl⟩
    refine ⟨e, ?_, rfl⟩
    simp only [DF.bag, hs.input, List.mem_flatMap]
    exact ⟨j, hj, he⟩
  | expand d f ih =>
    rintro h t ⟨u, hu, r, hr, j, hj, hne⟩
    obtain ⟨x, hx, rfl⟩ := ih h hu
    obtain ⟨y, hy⟩ := List.exists_mem_of_ne_nil _ hne
    refine ⟨⟨t, c.mult x.tag y.tag⟩, ?_, rfl⟩
    simp only [DF.bag, expandSpec, hs.input, List.mem_flatMap]
    refine ⟨x, hx, ?_⟩
    rw [hr]
    exact List.mem_flatMap.mpr ⟨(t, j), hj, List.mem_map.mpr ⟨y, hy, rfl⟩⟩

theorem sem_mono (c : Prov T W) (inp : κ → List (Elem (Tup V) T)) {X Y : ι → Set (Tup V)} (h : ∀ i, X i ⊆ Y i) :
    ∀ d : DF V ι κ, d.sem c inp X ⊆ d.sem c inp Y := by
  intro d
  induction d with
  | unit t | untagged ts | input j | once bs | listed js => exact fun _ h => h
  | expand d f ih => rintro t ⟨u, hu, h⟩; exact ⟨u, ih hu, h⟩
  | rel i => exact h i
  | overwriteOne d ih | sorted d ih => exact ih
  | filter d p ih | find d k ih => exact fun t ht => ⟨ih ht.1, ht.2⟩
  | project d f ih => rintro t ⟨u, hu, hf⟩; exact ⟨u, ih hu, hf⟩
  | union d1 d2 ih1 ih2 => exact Set.union_subset_union ih1 ih2
  | intersect d1 d2 ih1 ih2 => exact Set.inter_subset_inter ih1 ih2
  | join d1 d2 ih1 ih2 =>
    rintro t ⟨k, a, b, rfl, ⟨u, hu, hu'⟩, v, hv, hv'⟩
    exact ⟨k, a, b, rfl, ⟨u, ih1 hu, hu'⟩, v, ih2 hv, hv'⟩
  | product d1 d2 ih1 ih2 => rintro t ⟨u, hu, v, hv, rfl⟩; exact ⟨u, ih1 hu, v, ih2 hv, rfl⟩
  | difference d1 d2 ih1 ih2 | antijoin d1 d2 ih1 ih2 => exact fun t ht => ⟨ih1 ht.1, ht.2⟩

theorem tuples_flatten (bs : List (List (Elem (Tup V) T))) : tuples bs.flatten = tuplesB bs := by
  ext x
  constructor
  · rintro ⟨e, he, rfl⟩
    obtain ⟨b, hb, he⟩ := List.mem_flatten.mp he
    exact ⟨b, hb, e, he, rfl⟩
  · rintro ⟨b, hb, e, he, rfl⟩
    exact ⟨e, List.mem_flatten.mpr ⟨b, hb, he⟩, rfl⟩

/-- What one update produces from the visible relations: sound, and complete except for what the stable parts already gave. -/
theorem recent_sem (c : Prov T W) (hu : c.Uniform) {env : Env V T ι κ} (hw : env.Wf) {d : DF V ι κ} (h1 : d.wellSorted) (h2 : d.stratified)
    {R : List (Batch V T)} (h : d.recent c env = some R) :
    tuples (elemsOf R) ⊆ d.sem c env.input (fun i => (env.rel i).visible) ∧
    d.sem c env.input (fun i => (env.rel i).visible) ⊆
      (if env.first then ∅ else d.sem c env.input (fun i => tuplesB (env.rel i).stable)) ∪ tuples (elemsOf R) := by
  have hp := DF.recent_stratified c hw d h1 h2 R h
  have hall : ∀ i, tuples ((env.rel i).stable.flatten ++ (env.rel i).recent) = (env.rel i).visible := by
    intro i
    unfold Relation.visible
    rw [← tuples_flatten]
    ext x; simp only [tuples, List.mem_append, Set.mem_setOf_eq, Set.mem_union]
    constructor
    · rintro ⟨e, he | he, rfl⟩
      · exact Or.inl ⟨e, he, rfl⟩
      · exact Or.inr ⟨e, he, rfl⟩
    · rintro (⟨e, he, rfl⟩ | ⟨e, he, rfl⟩)
      · exact ⟨e, Or.inl he, rfl⟩
      · exact ⟨e, Or.inr he, rfl⟩
  have hsub : SrcSub (env.allSrc c) env.input (fun i => (env.rel i).visible) :=
    ⟨by rintro t _ ⟨e, he, rfl⟩; simp [Env.allSrc] at he; subst he; rfl,
     by rintro ts _ ⟨e, he, rfl⟩; simp only [Env.allSrc, List.mem_map] at he; obtain ⟨t, ht, rfl⟩ := he; exact ht,
     fun i => (hall i).subset, fun _ => rfl⟩
  have hsup : SrcSup (env.allSrc c) env.input (fun i => (env.rel i).visible) :=
    ⟨by intro t u hu; exact ⟨⟨t, c.one⟩, by simp [Env.allSrc], hu.symm⟩,
     by intro ts t ht; exact ⟨⟨t, c.one⟩, List.mem_map.mpr ⟨t, ht, rfl⟩, rfl⟩,
     fun i => (hall i).superset, fun _ => rfl⟩
  constructor
  · rintro _ ⟨e, he, rfl⟩
    exact bag_sub c hu hsub d h2 ⟨e, hp.subset (List.mem_append_right _ he), rfl⟩
  · intro t ht
    obtain ⟨e, he, rfl⟩ := sem_sub_bag c hu hsup d h2 ht
    rcases List.mem_append.mp (hp.symm.subset he) with he | he
    · left
      cases hf : env.first with
      | true => rw [hf] at he; simp at he
      | false =>
        rw [hf] at he
        simp only [Bool.false_eq_true, if_false] at he ⊢
        refine bag_sub c hu (src := env.stableSrc c) ⟨?_, ?_, ?_, ?_⟩ d h2 ⟨e, he, rfl⟩
        · rintro t _ ⟨e, he, rfl⟩; simp [Env.stableSrc, hf] at he; subst he; rfl
        · rintro ts _ ⟨e, he, rfl⟩; simp [Env.stableSrc] at he
        · intro i; simp only [Env.stableSrc]; rw [tuples_flatten]
        · intro j; simp [Env.stableSrc, hf]
    · exact Or.inr ⟨e, he, rfl⟩

end Scallop
