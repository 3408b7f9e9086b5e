import Verif.Proof.WorldRel
import Verif.Proof.Semantics

/-!
# Rules in a world
-/

namespace Scallop

variable {V T W ι κ : Type*}

theorem mem_inWorld {α : Type*} {v : T → Prop} {l : List (Elem α T)} {e : Elem α Unit} :
    e ∈ inWorld v l ↔ ∃ x ∈ l, v x.tag ∧ x.tuple = e.tuple := by
  simp only [inWorld, List.mem_map, List.mem_filter, decide_eq_true_eq]
  constructor
  · rintro ⟨x, ⟨hx, hv⟩, rfl⟩; exact ⟨x, hx, hv, rfl⟩
  · rintro ⟨x, hx, hv, he⟩; exact ⟨x, ⟨hx, hv⟩, by cases e; simp at he ⊢; exact he⟩

theorem tuples_inWorld {α : Type*} (v : T → Prop) (l : List (Elem α T)) : tuples (inWorld v l) = worldOf v l := by
  ext x
  constructor
  · rintro ⟨e, he, rfl⟩
    obtain ⟨y, hy, hv, h⟩ := mem_inWorld.mp he
    exact ⟨y, hy, h, hv⟩
  · rintro ⟨e, he, rfl, hv⟩
    exact ⟨⟨e.tuple, ()⟩, mem_inWorld.mpr ⟨e, he, hv, rfl⟩, rfl⟩

theorem DF.readsOnly_all {Q : κ → Prop} (h : ∀ j, Q j) : ∀ d : DF V ι κ, d.readsOnly Q := by
  intro d
  induction d with
  | unit _ | untagged _ | rel _ => trivial
  | input j => exact h j
  | once bs => exact fun _ _ j _ => h j
  | listed js => exact fun j _ => h j
  | overwriteOne d ih | filter d p ih | find d k ih | project d f ih | sorted d ih => exact ih
  | expand d f ih => exact ⟨ih, fun _ _ _ q _ => h q.2⟩
  | union d1 d2 ih1 ih2 | intersect d1 d2 ih1 ih2 | join d1 d2 ih1 ih2 | product d1 d2 ih1 ih2 | difference d1 d2 ih1 ih2 | antijoin d1 d2 ih1 ih2 =>
    exact ⟨ih1, ih2⟩

theorem Stratum.inputsIn_all {P : T → Prop} {p : Stratum V T ι κ} (h : ∀ j, AllTags P (p.input j)) : p.InputsIn P := fun u _ => u.2.readsOnly_all h

variable [LinearOrder V] {v P : T → Prop}

theorem bag_listing (c : Prov T W) (inp : κ → List (Elem (Tup V) T)) : ∀ d : DF V ι κ, d.static →
    (d.bag c (inputSrc inp)).map Elem.tuple = d.listing inp := by
  intro d
  induction d with
  | input j => intro _; rfl
  | overwriteOne d ih =>
    intro h
    simp only [DF.bag, DF.listing, ← ih h, List.map_map]
    rfl
  | filter d p ih =>
    intro h
    simp only [DF.bag, DF.listing, ← ih h, List.filter_map]
    rfl
  | find d k ih =>
    intro h
    simp only [DF.bag, findSpec, DF.listing, ← ih h, List.filter_map]
    rfl
  | project d f ih =>
    intro h
    simp only [DF.bag, DF.listing, ← ih h, List.map_filterMap, List.filterMap_map]
    refine List.filterMap_congr fun e _ => ?_
    simp [Option.map_map, Function.comp_def]
  | _ => intro h; exact h.elim


/-- What is subtracted in the world. -/
theorem static_world (c : Prov T W) (inp : κ → List (Elem (Tup V) T)) : ∀ d : DF V ι κ, d.static → d.keepsTags →
    tuples (d.bag unitProv (inputSrc (fun j => inWorld v (inp j)))) = worldOf v (d.bag c (inputSrc inp)) := by
  intro d
  induction d with
  | input j => intro _ _; exact tuples_inWorld v (inp j)
  | overwriteOne d ih => intro _ h; exact h.elim
  | filter d p ih =>
    intro h1 h2
    have := ih h1 h2
    ext x
    have hx : x ∈ tuples (d.bag unitProv (inputSrc (fun j => inWorld v (inp j)))) ↔ x ∈ worldOf v (d.bag c (inputSrc inp)) := by rw [this]
    simp only [tuples, worldOf, Set.mem_setOf_eq, DF.bag, List.mem_filter] at hx ⊢
    constructor
    · rintro ⟨e, ⟨he, hp⟩, rfl⟩
      obtain ⟨y, hy, hye, hv⟩ := hx.mp ⟨e, he, rfl⟩
      exact ⟨y, ⟨hy, by rw [hye]; exact hp⟩, hye, hv⟩
    · rintro ⟨e, ⟨he, hp⟩, rfl, hv⟩
      obtain ⟨y, hy, hye⟩ := hx.mpr ⟨e, he, rfl, hv⟩
      exact ⟨y, ⟨hy, by rw [hye]; exact hp⟩, hye⟩
  | find d k ih =>
    intro h1 h2
    have := ih h1 h2
    ext x
    have hx : x ∈ tuples (d.bag unitProv (inputSrc (fun j => inWorld v (inp j)))) ↔ x ∈ worldOf v (d.bag c (inputSrc inp)) := by rw [this]
    simp only [tuples, worldOf, Set.mem_setOf_eq, DF.bag, findSpec, List.mem_filter] at hx ⊢
    constructor
    · rintro ⟨e, ⟨he, hp⟩, rfl⟩
      obtain ⟨y, hy, hye, hv⟩ := hx.mp ⟨e, he, rfl⟩
      exact ⟨y, ⟨hy, by rw [hye]; exact hp⟩, hye, hv⟩
    · rintro ⟨e, ⟨he, hp⟩, rfl, hv⟩
      obtain ⟨y, hy, hye⟩ := hx.mpr ⟨e, he, rfl, hv⟩
      exact ⟨y, ⟨hy, by rw [hye]; exact hp⟩, hye⟩
  | project d f ih =>
    intro h1 h2
    have := ih h1 h2
    ext x
    simp only [tuples, worldOf, Set.mem_setOf_eq, DF.bag, List.mem_filterMap, Option.map_eq_some_iff]
    constructor
    · rintro ⟨e, ⟨a, ha, t, ht, rfl⟩, rfl⟩
      obtain ⟨y, hy, hye, hv⟩ := this.subset ⟨a, ha, rfl⟩
      exact ⟨⟨t, y.tag⟩, ⟨y, hy, t, by rw [hye]; exact ht, rfl⟩, rfl, hv⟩
    · rintro ⟨e, ⟨a, ha, t, ht, rfl⟩, rfl, hv⟩
      obtain ⟨y, hy, hye⟩ := this.superset ⟨a, ha, rfl, hv⟩
      exact ⟨⟨t, y.tag⟩, ⟨y, hy, t, by rw [hye]; exact ht, rfl⟩, rfl⟩
  | _ => intro h; exact absurd h (by simp [DF.static])

omit [LinearOrder V] in
theorem survives_unit [DecidableEq (Tup V)] (B : List (Elem (Tup V) Unit)) (k : Option (Tup V)) :
    (∀ y, B.find? (fun y => some y.tuple = k) = some y → (unitProv.minus unitProv.one y.tag).isSome) ↔ ∀ t, k = some t → t ∉ tuples B := by
  constructor
  · rintro h t rfl ⟨e, he, rfl⟩
    cases hf : B.find? (fun y => decide (some y.tuple = some e.tuple)) with
    | none =>
      have := List.find?_eq_none.mp hf e he
      simp at this
    | some y => exact absurd (h y hf) (by simp [Prov.minus, unitProv])
  · intro h y hy
    have h1 := List.find?_some hy
    have h2 := List.mem_of_find?_eq_some hy
    simp only [decide_eq_true_eq] at h1
    exact absurd ⟨y, h2, rfl⟩ (h y.tuple h1.symm)

/-- Leaves hold at most these sets in the world. -/
structure SrcIn (v : T → Prop) (src : Leaf V ι κ → List (Elem (Tup V) T)) (inp : κ → List (Elem (Tup V) T)) (X : ι → Set (Tup V)) : Prop where
  unit : ∀ t, tuples (src (.unit t)) ⊆ {t}
  untagged : ∀ ts, tuples (src (.untagged ts)) ⊆ {t | t ∈ ts}
  rel : ∀ i, worldOf v (src (.rel i)) ⊆ X i
  input : ∀ j, src (.input j) = inp j

/-- Leaves hold at least these sets in the world. -/
structure SrcOf (v : T → Prop) (src : Leaf V ι κ → List (Elem (Tup V) T)) (inp : κ → List (Elem (Tup V) T)) (X : ι → Set (Tup V)) : Prop where
  unit : ∀ t, {t} ⊆ worldOf v (src (.unit t))
  untagged : ∀ ts, {t | t ∈ ts} ⊆ worldOf v (src (.untagged ts))
  rel : ∀ i, X i ⊆ worldOf v (src (.rel i))
  input : ∀ j, src (.input j) = inp j

omit [LinearOrder V] in
theorem nodup_elem_eq {l : List (Elem (Tup V) T)} (h : (l.map Elem.tuple).Nodup) {a b : Elem (Tup V) T} (ha : a ∈ l) (hb : b ∈ l) (hab : a.tuple = b.tuple) :
    a = b := List.inj_on_of_nodup_map h ha hb hab

theorem minus_world_sound (c : Prov T W) (hn : c.NegSoundAt v) {B : List (Elem (Tup V) T)} (hB : (B.map Elem.tuple).Nodup) {B' : List (Elem (Tup V) Unit)}
    (hBB : tuples B' = worldOf v B) (k : Option (Tup V)) {x e : Elem (Tup V) T} (h : minusBy c B k x = some e) (hv : v e.tag) :
    e.tuple = x.tuple ∧ v x.tag ∧ survives unitProv B' k := by
  refine ⟨minusBy_tuple c _ _ _ _ h, ?_⟩
  unfold minusBy at h
  unfold survives
  rw [survives_unit, hBB]
  split at h
  · rename_i hf
    cases h
    refine ⟨hv, ?_⟩
    rintro t rfl ⟨y, hy, rfl, _⟩
    have := List.find?_eq_none.mp hf y hy
    simp at this
  · rename_i y hf
    rw [Option.map_eq_some_iff] at h
    obtain ⟨t, ht, rfl⟩ := h
    obtain ⟨h1, h2⟩ := hn _ _ _ ht hv
    refine ⟨h1, ?_⟩
    rintro k rfl ⟨z, hz, hzk, hvz⟩
    have e1 := List.find?_some hf
    simp only [decide_eq_true_eq, Option.some.injEq] at e1
    have := nodup_elem_eq hB hz (List.mem_of_find?_eq_some hf) (hzk.trans e1.symm)
    exact h2 (this ▸ hvz)

theorem minus_world_exact (c : Prov T W) (hn : c.NegExactAt P v) {B : List (Elem (Tup V) T)} {B' : List (Elem (Tup V) Unit)}
    (hBB : tuples B' = worldOf v B) (hPB : AllTags P B) (k : Option (Tup V)) {x : Elem (Tup V) T} (hPx : P x.tag) (hv : v x.tag) (hs : survives unitProv B' k) :
    ∃ e, minusBy c B k x = some e ∧ e.tuple = x.tuple ∧ v e.tag := by
  unfold survives at hs
  rw [survives_unit, hBB] at hs
  unfold minusBy
  split
  · exact ⟨x, rfl, rfl, hv⟩
  · rename_i y hf
    have e1 := List.find?_some hf
    simp only [decide_eq_true_eq] at e1
    have : ¬ v y.tag := fun h => hs y.tuple e1.symm ⟨y, List.mem_of_find?_eq_some hf, rfl, h⟩
    obtain ⟨t, ht, hvt⟩ := hn.minus _ _ hPx (hPB y (List.mem_of_find?_eq_some hf)) hv this
    exact ⟨⟨x.tuple, t⟩, by rw [ht]; rfl, rfl, hvt⟩

omit [LinearOrder V] in
theorem DF.positive_noMinus : ∀ d : DF V ι κ, d.positive → d.noMinus := by
  intro d
  induction d with
  | unit _ | untagged _ | rel _ | input _ | listed _ => exact fun h => h
  | once _ => exact fun h => h.elim
  | overwriteOne d ih | filter d p ih | find d k ih | project d f ih | sorted d ih | expand d f ih => exact ih
  | union d1 d2 ih1 ih2 | intersect d1 d2 ih1 ih2 | join d1 d2 ih1 ih2 | product d1 d2 ih1 ih2 => exact fun h => ⟨ih1 h.1, ih2 h.2⟩
  | difference _ _ _ _ | antijoin _ _ _ _ => exact fun h => h.elim

theorem DF.noMinus.sharp : ∀ {d : DF V ι κ}, d.noMinus → ∀ {inp : κ → List (Elem (Tup V) T)}, d.sharp inp := by
  intro d
  induction d with
  | unit _ | untagged _ | rel _ | input _ | listed _ | once _ => exact fun h => h
  | overwriteOne d ih | filter d p ih | find d k ih | project d f ih | sorted d ih | expand d f ih => exact ih
  | union d1 d2 ih1 ih2 | intersect d1 d2 ih1 ih2 | join d1 d2 ih1 ih2 | product d1 d2 ih1 ih2 => exact fun h => ⟨ih1 h.1, ih2 h.2⟩
  | difference _ _ _ _ | antijoin _ _ _ _ => exact fun h => h.elim

theorem DF.positive_sharp : ∀ d : DF V ι κ, d.positive → ∀ {inp : κ → List (Elem (Tup V) T)}, d.sharp inp := by
  intro d
  induction d with
  | unit _ | untagged _ | rel _ | input _ | listed _ => exact fun h => h
  | once _ => exact fun h => h.elim
  | overwriteOne d ih | filter d p ih | find d k ih | project d f ih | sorted d ih | expand d f ih => exact ih
  | union d1 d2 ih1 ih2 | intersect d1 d2 ih1 ih2 | join d1 d2 ih1 ih2 | product d1 d2 ih1 ih2 => exact fun h => ⟨ih1 h.1, ih2 h.2⟩
  | difference _ _ _ _ | antijoin _ _ _ _ => exact fun h => h.elim

theorem bag_world_sound (c : Prov T W) (hc : c.SoundAt v) {src : Leaf V ι κ → List (Elem (Tup V) T)} {inp : κ → List (Elem (Tup V) T)}
    {X : ι → Set (Tup V)} (hs : SrcIn v src inp X) : ∀ d : DF V ι κ, d.stratified → d.keepsTags → d.sharp inp →
    (c.NegSoundAt v ∨ d.noMinus) → worldOf v (d.bag c src) ⊆ d.sem unitProv (fun j => inWorld v (inp j)) X := by
  intro d
  induction d with
  | unit t => intro _ _ _ _; exact (worldOf_tuples _).trans (hs.unit t)
  | untagged ts => intro _ _ _ _; exact (worldOf_tuples _).trans (hs.untagged ts)
  | rel i => intro _ _ _ _; exact hs.rel i
  | input j => intro _ _ _ _; simp only [DF.bag, DF.sem, hs.input, tuples_inWorld]; exact subset_rfl
  | overwriteOne d ih => intro _ h; exact h.elim
  | sorted d ih => exact ih
  | filter d p ih =>
    rintro h1 h2 h3 h4 _ ⟨e, he, rfl, hv⟩
    simp only [DF.bag, List.mem_filter] at he
    exact ⟨ih h1 h2 h3 h4 ⟨e, he.1, rfl, hv⟩, he.2⟩
  | find d k ih =>
    rintro h1 h2 h3 h4 _ ⟨e, he, rfl, hv⟩
    simp only [DF.bag, findSpec, List.mem_filter, decide_eq_true_eq] at he
    exact ⟨ih h1 h2 h3 h4 ⟨e, he.1, rfl, hv⟩, he.2⟩
  | project d f ih =>
    rintro h1 h2 h3 h4 _ ⟨e, he, rfl, hv⟩
    simp only [DF.bag, List.mem_filterMap, Option.map_eq_some_iff] at he
    obtain ⟨x, hx, t, ht, rfl⟩ := he
    exact ⟨x.tuple, ih h1 h2 h3 h4 ⟨x, hx, rfl, hv⟩, ht⟩
  | union d1 d2 ih1 ih2 =>
    rintro h1 h2 h3 h4 _ ⟨e, he, rfl, hv⟩
    simp only [DF.bag, List.mem_append] at he
    rcases he with he | he
    · exact Or.inl (ih1 h1.1 h2.1 h3.1 (h4.imp_right And.left) ⟨e, he, rfl, hv⟩)
    · exact Or.inr (ih2 h1.2 h2.2 h3.2 (h4.imp_right And.right) ⟨e, he, rfl, hv⟩)
  | intersect d1 d2 ih1 ih2 =>
    rintro h1 h2 h3 h4 _ ⟨e, he, rfl, hv⟩
    simp only [DF.bag, intersectSpec, List.mem_flatMap, List.mem_filterMap] at he
    obtain ⟨x, hx, y, hy, he⟩ := he
    split at he
    · rename_i hxy
      cases he
      obtain ⟨v1, v2⟩ := hc.mult _ _ hv
      exact ⟨ih1 (d1.positive_stratified h1.1) h2.1 h3.1 (h4.imp_right And.left) ⟨x, hx, rfl, v1⟩,
        ih2 (d2.positive_stratified h1.2) h2.2 h3.2 (h4.imp_right And.right) ⟨y, hy, hxy.symm, v2⟩⟩
    · cases he
  | join d1 d2 ih1 ih2 =>
    rintro h1 h2 h3 h4 _ ⟨e, he, rfl, hv⟩
    simp only [DF.bag, joinSpec, List.mem_flatMap, List.mem_filterMap] at he
    obtain ⟨x, hx, y, hy, he⟩ := he
    obtain ⟨k, a, b, g1, g2, g3, g4, rfl⟩ := joinPair_some he
    obtain ⟨v1, v2⟩ := hc.mult _ _ hv
    exact ⟨k, a, b, rfl, ⟨x.tuple, ih1 (d1.positive_stratified h1.1) h2.1 h3.1 (h4.imp_right And.left) ⟨x, hx, rfl, v1⟩, g1, g2⟩,
      ⟨y.tuple, ih2 (d2.positive_stratified h1.2) h2.2 h3.2 (h4.imp_right And.right) ⟨y, hy, rfl, v2⟩, g3, g4⟩⟩
  | product d1 d2 ih1 ih2 =>
    rintro h1 h2 h3 h4 _ ⟨e, he, rfl, hv⟩
    simp only [DF.bag, productSpec, List.mem_flatMap, List.mem_map] at he
    obtain ⟨x, hx, y, hy, rfl⟩ := he
    obtain ⟨v1, v2⟩ := hc.mult _ _ hv
    exact ⟨x.tuple, ih1 (d1.positive_stratified h1.1) h2.1 h3.1 (h4.imp_right And.left) ⟨x, hx, rfl, v1⟩,
      y.tuple, ih2 (d2.positive_stratified h1.2) h2.2 h3.2 (h4.imp_right And.right) ⟨y, hy, rfl, v2⟩, rfl⟩
  | difference d1 d2 ih1 ih2 =>
    rintro h1 h2 h3 h4 _ ⟨e, he, rfl, hv⟩
    rcases h4 with h4 | h4
    · simp only [DF.bag, differenceSpec, List.mem_filterMap] at he
      obtain ⟨x, hx, he⟩ := he
      rw [bag_static c inp src hs.input d2 h1.2] at he
      obtain ⟨g1, g2, g3⟩ := minus_world_sound c h4 (bag_listing c inp d2 h1.2 ▸ h3.2) (static_world c inp d2 h1.2 h2.2) _ he hv
      rw [g1]
      exact ⟨ih1 h1.1 h2.1 h3.1 (.inl h4) ⟨x, hx, rfl, g2⟩, g3⟩
    · exact h4.elim
  | antijoin d1 d2 ih1 ih2 =>
    rintro h1 h2 h3 h4 _ ⟨e, he, rfl, hv⟩
    rcases h4 with h4 | h4
    · simp only [DF.bag, antijoinSpec, List.mem_filterMap] at he
      obtain ⟨x, hx, he⟩ := he
      rw [bag_static c inp src hs.input d2 h1.2] at he
      obtain ⟨g1, g2, g3⟩ := minus_world_sound c h4 (bag_listing c inp d2 h1.2 ▸ h3.2) (static_world c inp d2 h1.2 h2.2) _ he hv
      rw [g1]
      exact ⟨ih1 h1.1 h2.1 h3.1 (.inl h4) ⟨x, hx, rfl, g2⟩, g3⟩
    · exact h4.elim
  | once bs =>
    rintro _ _ _ _ _ ⟨e, he, rfl, hv⟩
    simp only [DF.bag, hs.input, List.mem_flatMap, List.mem_flatten] at he
    obtain ⟨j, ⟨js, hjs, hj⟩, he⟩ := he
    exact ⟨js, hjs, j, hj, by rw [tuples_inWorld]; exact ⟨e, he, rfl, hv⟩⟩
  | listed js =>
    rintro _ _ _ _ _ ⟨e, he, rfl, hv⟩
    simp only [DF.bag, hs.input, List.mem_flatMap] at he
    obtain ⟨j, hj, he⟩ := he
    exact ⟨j, hj, by rw [tuples_inWorld]; exact ⟨e, he, rfl, hv⟩⟩
  | expand d f ih =>
    rintro h1 h2 h3 h4 _ ⟨e, he, rfl, hv⟩
    simp only [DF.bag, expandSpec, hs.input, List.mem_flatMap] at he
    obtain ⟨x, hx, he⟩ := he
    split at he
    · simp at he
    · rename_i r hr
      obtain ⟨p, hp, he⟩ := List.mem_flatMap.mp he
      obtain ⟨y, hy, rfl⟩ := List.mem_map.mp he
      obtain ⟨v1, v2⟩ := hc.mult _ _ hv
      exact ⟨x.tuple, ih h1 h2 h3 h4 ⟨x, hx, rfl, v1⟩, r, hr, p.2, hp,
        List.ne_nil_of_mem (mem_inWorld (e := ⟨y.tuple, ()⟩) |>.mpr ⟨y, hy, v2, rfl⟩)⟩

theorem bag_static_allTags (c : Prov T W) {src : Leaf V ι κ → List (Elem (Tup V) T)} {Q : κ → Prop} (hP : ∀ l, (∀ j, l = .input j → Q j) → AllTags P (src l)) :
    ∀ d : DF V ι κ, d.readsOnly Q → d.static → d.keepsTags → AllTags P (d.bag c src) := by
  intro d
  induction d with
  | input j => intro h0 _ _; exact hP _ (by intro j' h; cases h; exact h0)
  | overwriteOne d ih => intro _ _ h; exact h.elim
  | filter d p ih | find d k ih => intro h0 h1 h2 e he; exact ih h0 h1 h2 e (List.mem_filter.mp he).1
  | project d f ih =>
    intro h0 h1 h2 e he
    simp only [DF.bag, List.mem_filterMap, Option.map_eq_some_iff] at he
    obtain ⟨x, hx, t, ht, rfl⟩ := he
    exact ih h0 h1 h2 x hx
  | _ => intro _ h; exact absurd h (by simp [DF.static])

theorem minusBy_allTags {c : Prov T W} (hn : c.NegExactAt P v) {B : List (Elem (Tup V) T)} (hPB : AllTags P B) {k : Option (Tup V)}
    {x e : Elem (Tup V) T} (hPx : P x.tag) (h : minusBy c B k x = some e) : P e.tag := by
  unfold minusBy at h
  split at h
  · cases h; exact hPx
  · rename_i y hf
    rw [Option.map_eq_some_iff] at h
    obtain ⟨t, ht, rfl⟩ := h
    exact hn.minusIn _ _ _ hPx (hPB y (List.mem_of_find?_eq_some hf)) ht

theorem bag_allTags (c : Prov T W) (hc : c.ExactAt P v) {src : Leaf V ι κ → List (Elem (Tup V) T)} {Q : κ → Prop}
    (hP : ∀ l, (∀ j, l = .input j → Q j) → AllTags P (src l)) : ∀ d : DF V ι κ, d.readsOnly Q → d.stratified → d.keepsTags → (c.NegExactAt P v ∨ d.noMinus) → AllTags P (d.bag c src) := by
  intro d
  induction d with
  | unit t | untagged ts | rel i => intro _ _ _ _; exact hP _ (fun _ h => by cases h)
  | input j => intro h0 _ _ _; exact hP _ (by intro j' h; cases h; exact h0)
  | overwriteOne d ih => intro _ _ h; exact h.elim
  | sorted d ih => exact ih
  | filter d p ih | find d k ih => intro h0 h1 h2 h3 e he; exact ih h0 h1 h2 h3 e (List.mem_filter.mp he).1
  | project d f ih =>
    intro h0 h1 h2 h3 e he
    simp only [DF.bag, List.mem_filterMap, Option.map_eq_some_iff] at he
    obtain ⟨x, hx, t, ht, rfl⟩ := he
    exact ih h0 h1 h2 h3 x hx
  | union d1 d2 ih1 ih2 =>
    intro h0 h1 h2 h3 e he
    rcases List.mem_append.mp he with he | he
    · exact ih1 h0.1 h1.1 h2.1 (h3.imp_right And.left) e he
    · exact ih2 h0.2 h1.2 h2.2 (h3.imp_right And.right) e he
  | intersect d1 d2 ih1 ih2 =>
    intro h0 h1 h2 h3 e he
    simp only [DF.bag, intersectSpec, List.mem_flatMap, List.mem_filterMap] at he
    obtain ⟨x, hx, y, hy, he⟩ := he
    split at he
    · cases he
      exact hc.multIn _ _ (ih1 h0.1 (d1.positive_stratified h1.1) h2.1 (h3.imp_right And.left) x hx)
        (ih2 h0.2 (d2.positive_stratified h1.2) h2.2 (h3.imp_right And.right) y hy)
    · cases he
  | join d1 d2 ih1 ih2 =>
    intro h0 h1 h2 h3 e he
    simp only [DF.bag, joinSpec, List.mem_flatMap, List.mem_filterMap] at he
    obtain ⟨x, hx, y, hy, he⟩ := he
    obtain ⟨k, a, b, g1, g2, g3, g4, rfl⟩ := joinPair_some he
    exact hc.multIn _ _ (ih1 h0.1 (d1.positive_stratified h1.1) h2.1 (h3.imp_right And.left) x hx)
      (ih2 h0.2 (d2.positive_stratified h1.2) h2.2 (h3.imp_right And.right) y hy)
  | product d1 d2 ih1 ih2 =>
    intro h0 h1 h2 h3 e he
    simp only [DF.bag, productSpec, List.mem_flatMap, List.mem_map] at he
    obtain ⟨x, hx, y, hy, rfl⟩ := he
    exact hc.multIn _ _ (ih1 h0.1 (d1.positive_stratified h1.1) h2.1 (h3.imp_right And.left) x hx)
      (ih2 h0.2 (d2.positive_stratified h1.2) h2.2 (h3.imp_right And.right) y hy)
  | difference d1 d2 ih1 ih2 | antijoin d1 d2 ih1 ih2 =>
    intro h0 h1 h2 h3 e he
    rcases h3 with h3 | h3
    · obtain ⟨x, hx, he⟩ := List.mem_filterMap.mp he
      exact minusBy_allTags h3 (bag_static_allTags c hP d2 h0.2 h1.2 h2.2) (ih1 h0.1 h1.1 h2.1 (.inl h3) x hx) he
    · exact h3.elim
  | once bs =>
    intro h0 _ _ _ e he
    obtain ⟨j, hj, he⟩ := List.mem_flatMap.mp he
    obtain ⟨b, hb, hj⟩ := List.mem_flatten.mp hj
    exact hP _ (by intro j' h; cases h; exact h0 b hb _ hj) e he
  | listed js =>
    intro h0 _ _ _ e he
    obtain ⟨j, hj, he⟩ := List.mem_flatMap.mp he
    exact hP _ (by intro j' h; cases h; exact h0 _ hj) e he
  | expand d f ih =>
    intro h0 h1 h2 h3 e he
    simp only [DF.bag, expandSpec, List.mem_flatMap] at he
    obtain ⟨x, hx, he⟩ := he
    split at he
    · simp at he
    · rename_i r hr
      obtain ⟨p, hp, he⟩ := List.mem_flatMap.mp he
      obtain ⟨y, hy, rfl⟩ := List.mem_map.mp he
      exact hc.multIn _ _ (ih h0.1 h1 h2 h3 x hx) (hP _ (by intro j' h; cases h; exact h0.2 _ r hr p hp) y hy)

theorem bag_world_exact (c : Prov T W) (hc : c.ExactAt P v) {src : Leaf V ι κ → List (Elem (Tup V) T)} {inp : κ → List (Elem (Tup V) T)}
    {X : ι → Set (Tup V)} (hs : SrcOf v src inp X) {Q : κ → Prop} (hP : ∀ l, (∀ j, l = .input j → Q j) → AllTags P (src l)) :
    ∀ d : DF V ι κ, d.readsOnly Q → d.stratified → d.keepsTags →
    (c.NegExactAt P v ∨ d.noMinus) → d.sem unitProv (fun j => inWorld v (inp j)) X ⊆ worldOf v (d.bag c src) := by
  intro d
  induction d with
  | unit t => intro _ _ _ _; exact hs.unit t
  | untagged ts => intro _ _ _ _; exact hs.untagged ts
  | rel i => intro _ _ _ _; exact hs.rel i
  | input j => intro _ _ _ _; simp only [DF.bag, DF.sem, hs.input, tuples_inWorld]; exact subset_rfl
  | overwriteOne d ih => intro _ _ h; exact h.elim
  | sorted d ih => exact ih
  | filter d p ih =>
    rintro h0 h1 h2 h4 t ⟨ht, hp⟩
    obtain ⟨x, hx, rfl, hv⟩ := ih h0 h1 h2 h4 ht
    exact ⟨x, List.mem_filter.mpr ⟨hx, hp⟩, rfl, hv⟩
  | find d k ih =>
    rintro h0 h1 h2 h4 t ⟨ht, hp⟩
    obtain ⟨x, hx, rfl, hv⟩ := ih h0 h1 h2 h4 ht
    exact ⟨x, List.mem_filter.mpr ⟨hx, by simpa using hp⟩, rfl, hv⟩
  | project d f ih =>
    rintro h0 h1 h2 h4 t ⟨u, hu, hf⟩
    obtain ⟨x, hx, rfl, hv⟩ := ih h0 h1 h2 h4 hu
    exact ⟨⟨t, x.tag⟩, List.mem_filterMap.mpr ⟨x, hx, by rw [hf]; rfl⟩, rfl, hv⟩
  | union d1 d2 ih1 ih2 =>
    rintro h0 h1 h2 h4 t (ht | ht)
    · obtain ⟨x, hx, rfl, hv⟩ := ih1 h0.1 h1.1 h2.1 (h4.imp_right And.left) ht
      exact ⟨x, List.mem_append_left _ hx, rfl, hv⟩
    · obtain ⟨x, hx, rfl, hv⟩ := ih2 h0.2 h1.2 h2.2 (h4.imp_right And.right) ht
      exact ⟨x, List.mem_append_right _ hx, rfl, hv⟩
  | intersect d1 d2 ih1 ih2 =>
    rintro h0 h1 h2 h4 t ⟨t1, t2⟩
    obtain ⟨x, hx, rfl, v1⟩ := ih1 h0.1 (d1.positive_stratified h1.1) h2.1 (h4.imp_right And.left) t1
    obtain ⟨y, hy, hxy, v2⟩ := ih2 h0.2 (d2.positive_stratified h1.2) h2.2 (h4.imp_right And.right) t2
    exact ⟨⟨x.tuple, c.mult x.tag y.tag⟩, List.mem_flatMap.mpr ⟨x, hx, List.mem_filterMap.mpr ⟨y, hy, if_pos hxy.symm⟩⟩, rfl, hc.mult' _ _ (bag_allTags c hc hP d1 h0.1 (d1.positive_stratified h1.1) h2.1 (h4.imp_right And.left) x hx)
      (bag_allTags c hc hP d2 h0.2 (d2.positive_stratified h1.2) h2.2 (h4.imp_right And.right) y hy) v1 v2⟩
  | join d1 d2 ih1 ih2 =>
    rintro h0 h1 h2 h4 _ ⟨k, a, b, rfl, ⟨u, hu, hu0, hu1⟩, z, hz, hz0, hz1⟩
    obtain ⟨x, hx, rfl, v1⟩ := ih1 h0.1 (d1.positive_stratified h1.1) h2.1 (h4.imp_right And.left) hu
    obtain ⟨y, hy, rfl, v2⟩ := ih2 h0.2 (d2.positive_stratified h1.2) h2.2 (h4.imp_right And.right) hz
    refine ⟨⟨.tup [k, a, b], c.mult x.tag y.tag⟩, List.mem_flatMap.mpr ⟨x, hx, List.mem_filterMap.mpr ⟨y, hy, ?_⟩⟩, rfl, hc.mult' _ _ (bag_allTags c hc hP d1 h0.1 (d1.positive_stratified h1.1) h2.1 (h4.imp_right And.left) x hx)
      (bag_allTags c hc hP d2 h0.2 (d2.positive_stratified h1.2) h2.2 (h4.imp_right And.right) y hy) v1 v2⟩
    simp [joinPair, hu0, hu1, hz0, hz1]
  | product d1 d2 ih1 ih2 =>
    rintro h0 h1 h2 h4 _ ⟨u, hu, z, hz, rfl⟩
    obtain ⟨x, hx, rfl, v1⟩ := ih1 h0.1 (d1.positive_stratified h1.1) h2.1 (h4.imp_right And.left) hu
    obtain ⟨y, hy, rfl, v2⟩ := ih2 h0.2 (d2.positive_stratified h1.2) h2.2 (h4.imp_right And.right) hz
    exact ⟨⟨.tup [x.tuple, y.tuple], c.mult x.tag y.tag⟩, List.mem_flatMap.mpr ⟨x, hx, List.mem_map.mpr ⟨y, hy, rfl⟩⟩, rfl, hc.mult' _ _ (bag_allTags c hc hP d1 h0.1 (d1.positive_stratified h1.1) h2.1 (h4.imp_right And.left) x hx)
      (bag_allTags c hc hP d2 h0.2 (d2.positive_stratified h1.2) h2.2 (h4.imp_right And.right) y hy) v1 v2⟩
  | difference d1 d2 ih1 ih2 =>
    rintro h0 h1 h2 h4 t ⟨g1, g2⟩
    rcases h4 with h4 | h4
    · obtain ⟨x, hx, rfl, hv⟩ := ih1 h0.1 h1.1 h2.1 (.inl h4) g1
      obtain ⟨e, he, het, hve⟩ := minus_world_exact c h4 (static_world c inp d2 h1.2 h2.2)
        (bag_static c inp src hs.input d2 h1.2 ▸ bag_static_allTags c hP d2 h0.2 h1.2 h2.2) _ (bag_allTags c hc hP d1 h0.1 h1.1 h2.1 (.inl h4) x hx) hv g2
      refine ⟨e, ?_, het, hve⟩
      simp only [DF.bag, differenceSpec]
      rw [bag_static c inp src hs.input d2 h1.2]
      exact List.mem_filterMap.mpr ⟨x, hx, he⟩
    · exact h4.elim
  | antijoin d1 d2 ih1 ih2 =>
    rintro h0 h1 h2 h4 t ⟨g1, g2⟩
    rcases h4 with h4 | h4
    · obtain ⟨x, hx, rfl, hv⟩ := ih1 h0.1 h1.1 h2.1 (.inl h4) g1
      obtain ⟨e, he, het, hve⟩ := minus_world_exact c h4 (static_world c inp d2 h1.2 h2.2)
        (bag_static c inp src hs.input d2 h1.2 ▸ bag_static_allTags c hP d2 h0.2 h1.2 h2.2) _ (bag_allTags c hc hP d1 h0.1 h1.1 h2.1 (.inl h4) x hx) hv g2
      refine ⟨e, ?_, het, hve⟩
      simp only [DF.bag, antijoinSpec]
      rw [bag_static c inp src hs.input d2 h1.2]
      exact List.mem_filterMap.mpr ⟨x, hx, he⟩
    · exact h4.elim
  | once bs =>
    rintro _ _ _ _ t ⟨js, hjs, j, hj, ht⟩
    rw [tuples_inWorld] at ht
    obtain ⟨e, he, rfl, hv⟩ := ht
    refine ⟨e, ?_, rfl, hv⟩
    simp only [DF.bag, hs.input, List.mem_flatMap, List.mem_flatten]
    exact ⟨j, ⟨js, hjs, hj⟩, he⟩
  | listed js =>
    rintro _ _ _ _ t ⟨j, hj, ht⟩
    rw [tuples_inWorld] at ht
    obtain ⟨e, he, rfl, hv⟩ := ht
    refine ⟨e, ?_, rfl, hv⟩
    simp only [DF.bag, hs.input, List.mem_flatMap]
    exact ⟨j, hj, he⟩
  | expand d f ih =>
    rintro h0 h1 h2 h4 t ⟨u, hu, r, hr, j, hj, hne⟩
    obtain ⟨x, hx, rfl, v1⟩ := ih h0.1 h1 h2 h4 hu
    obtain ⟨y', hy'⟩ := List.exists_mem_of_ne_nil _ hne
    obtain ⟨y, hy, v2, _⟩ := mem_inWorld.mp hy'
    refine ⟨⟨t, c.mult x.tag y.tag⟩, ?_, rfl, hc.mult' _ _ (bag_allTags c hc hP d h0.1 h1 h2 h4 x hx) (hP (.input j) (by intro j' h; cases h; exact h0.2 _ r hr _ hj) y (by rw [hs.input j]; exact hy)) v1 v2⟩
    simp only [DF.bag, expandSpec, hs.input, List.mem_flatMap]
    refine ⟨x, hx, ?_⟩
    rw [hr]
    exact List.mem_flatMap.mpr ⟨(t, j), hj, List.mem_map.mpr ⟨y, hy, rfl⟩⟩

omit [LinearOrder V] in
theorem all_worldOf (r : Relation (Tup V) T) : worldOf v (r.stable.flatten ++ r.recent) = r.visibleIn v := by
  rw [worldOf_append, worldOfB_flatten]; rfl

theorem recent_world_sound (c : Prov T W) (hc : c.SoundAt v) {env : Env V T ι κ} (hw : env.Wf) {d : DF V ι κ} (h1 : d.wellSorted)
    (h2 : d.stratified) (h3 : d.keepsTags) (h4 : d.sharp env.input) (h5 : c.NegSoundAt v ∨ d.noMinus) {R : List (Batch V T)} (h : d.recent c env = some R) :
    worldOf v (elemsOf R) ⊆ d.sem unitProv (fun j => inWorld v (env.input j)) (fun i => (env.rel i).visibleIn v) := by
  have hp := DF.recent_stratified c hw d h1 h2 R h
  have hsub : SrcIn v (env.allSrc c) env.input (fun i => (env.rel i).visibleIn v) :=
    ⟨by rintro t _ ⟨e, he, rfl⟩; simp [Env.allSrc] at he; subst he; rfl,
     by rintro ts _ ⟨e, he, rfl⟩; simp only [Env.allSrc, List.mem_map] at he; obtain ⟨t, ht, rfl⟩ := he; exact ht,
     fun i => (all_worldOf _).subset, fun _ => rfl⟩
  rintro _ ⟨e, he, rfl, hv⟩
  exact bag_world_sound c hc hsub d h2 h3 h4 h5 ⟨e, hp.subset (List.mem_append_right _ he), rfl, hv⟩

omit [LinearOrder V] in
theorem allSrc_allTags {c : Prov T W} (hc : c.ExactAt P v) {env : Env V T ι κ} (hPr : ∀ i, (env.rel i).TagsIn P)
    {Q : κ → Prop} (hPi : ∀ j, Q j → AllTags P (env.input j)) :
    ∀ l, (∀ j, l = .input j → Q j) → AllTags P (env.allSrc c l) := by
  intro l hl
  cases l with
  | unit t => intro e he; simp only [Env.allSrc, List.mem_singleton] at he; subst he; exact hc.oneIn
  | untagged ts => intro e he; obtain ⟨t, _, rfl⟩ := List.mem_map.mp he; exact hc.oneIn
  | rel i =>
    intro e he
    obtain ⟨h1, h2, _⟩ := Relation.tagsIn_iff.mp (hPr i)
    rcases List.mem_append.mp he with he | he
    · obtain ⟨b, hb, he⟩ := List.mem_flatten.mp he
      exact h1 b hb e he
    · exact h2 e he
  | input j => exact hPi j (hl j rfl)

theorem recent_allTags (c : Prov T W) (hc : c.ExactAt P v) {env : Env V T ι κ} (hw : env.Wf) (hPr : ∀ i, (env.rel i).TagsIn P)
    {d : DF V ι κ} (h0 : d.readsOnly (fun j => AllTags P (env.input j))) (h1 : d.wellSorted) (h2 : d.stratified) (h3 : d.keepsTags)
    (h5 : c.NegExactAt P v ∨ d.noMinus) {R : List (Batch V T)} (h : d.recent c env = some R) : AllTags P (elemsOf R) := by
  have hp := DF.recent_stratified c hw d h1 h2 R h
  intro e he
  exact bag_allTags c hc (allSrc_allTags hc hPr (fun _ h => h)) d h0 h2 h3 h5 e (hp.subset (List.mem_append_right _ he))

theorem recent_world_exact (c : Prov T W) (hc : c.ExactAt P v) {env : Env V T ι κ} (hw : env.Wf) (hPr : ∀ i, (env.rel i).TagsIn P)
    {d : DF V ι κ} (h0 : d.readsOnly (fun j => AllTags P (env.input j))) (h1 : d.wellSorted)
    (h2 : d.stratified) (h3 : d.keepsTags) (h4 : d.sharp env.input) (h5 : c.NegSoundAt v ∧ c.NegExactAt P v ∨ d.noMinus) {R : List (Batch V T)}
    (h : d.recent c env = some R) :
    d.sem unitProv (fun j => inWorld v (env.input j)) (fun i => (env.rel i).visibleIn v) ⊆
      (if env.first then ∅ else d.sem unitProv (fun j => inWorld v (env.input j)) (fun i => worldOfB v (env.rel i).stable)) ∪ worldOf v (elemsOf R) := by
  have hp := DF.recent_stratified c hw d h1 h2 R h
  have hsup : SrcOf v (env.allSrc c) env.input (fun i => (env.rel i).visibleIn v) :=
    ⟨by intro t u hu; exact ⟨⟨t, c.one⟩, by simp [Env.allSrc], hu.symm, hc.one⟩,
     by intro ts t ht; exact ⟨⟨t, c.one⟩, List.mem_map.mpr ⟨t, ht, rfl⟩, rfl, hc.one⟩,
     fun i => (all_worldOf _).superset, fun _ => rfl⟩
  intro t ht
  obtain ⟨e, he, rfl, hv⟩ := bag_world_exact c hc hsup (allSrc_allTags hc hPr (fun _ h => h)) d h0 h2 h3 (h5.imp_left And.right) ht
  rcases List.mem_append.mp (hp.symm.subset he) with he | he
  · left
    cases hf : env.first with
    | true => rw [hf] at he; simp at he
    | false =>
      rw [hf] at he
      simp only [Bool.false_eq_true, if_false] at he ⊢
      refine bag_world_sound c hc.toSoundAt (src := env.stableSrc c) ⟨?_, ?_, ?_, ?_⟩ d h2 h3 h4 (h5.imp_left And.left) ⟨e, he, rfl, hv⟩
      · rintro t _ ⟨e, he, rfl⟩; simp [Env.stableSrc, hf] at he; subst he; rfl
      · rintro ts _ ⟨e, he, rfl⟩; simp [Env.stableSrc] at he
      · intro i; simp only [Env.stableSrc]; rw [worldOfB_flatten]
      · intro j; simp [Env.stableSrc, hf]
  · exact Or.inr ⟨e, he, rfl, hv⟩

end Scallop
