import Verif.Model.Group
import Verif.Spec.Dataflow

/-!
# Aggregations over collections with the same tuples
-/

namespace Scallop.Exec

variable {V T W : Type}

/-- The tuples of a list of elements. -/
abbrev tups {α : Type} (l : List (Elem α T)) : List α := l.map Elem.tuple

theorem mem_tups {α : Type} {l : List (Elem α T)} {t : α} : t ∈ tups l ↔ t ∈ tuples l := by
  simp [tups, tuples]

variable [LinearOrder V]

/-- Strictly ascending lists with the same tuples are equal up to tags. -/
theorem contents_unique {l l' : List (Elem (Tup V) T)} {S : Tup V → Prop} (h : Sorted l ∧ ∀ t, t ∈ tuples l ↔ S t) (h' : Sorted l' ∧ ∀ t, t ∈ tuples l' ↔ S t) :
    tups l = tups l' := by
  have s1 : (tups l).Pairwise (· < ·) := List.pairwise_map.mpr h.1
  have s2 : (tups l').Pairwise (· < ·) := List.pairwise_map.mpr h'.1
  refine List.Perm.eq_of_pairwise' s1 s2 ?_
  rw [List.perm_ext_iff_of_nodup (s1.imp (fun h => ne_of_lt h)) (s2.imp (fun h => ne_of_lt h))]
  intro t
  rw [mem_tups, mem_tups, h.2, h'.2]

/-- The aggregate gives the same tuples for the same tuples. -/
def Blind (agg : Agg.Aggregator V T) : Prop :=
  ∀ l l' : List (Elem (Tup V) T), tups l = tups l' → (agg l).map tups = (agg l').map tups

theorem map_eq_cases {α β : Type} {f : α → β} {o o' : Option α} (h : o.map f = o'.map f) : (o = none ∧ o' = none) ∨ ∃ a a', o = some a ∧ o' = some a' ∧ f a = f a' := by
  cases o <;> cases o' <;> simp_all

/-- The tuples of split elements. -/
abbrev ktups (l : List (Tup V × Elem (Tup V) T)) : List (Tup V × Tup V) := l.map (fun p => (p.1, p.2.tuple))

theorem splitKeys_congr : ∀ {l l' : List (Elem (Tup V) T)}, tups l = tups l' → (l.mapM Agg.splitKey).map ktups = (l'.mapM Agg.splitKey).map ktups
  | [], [], _ => rfl
  | e :: l, e' :: l', h => by
    simp only [tups, List.map_cons, List.cons.injEq] at h
    have ih := splitKeys_congr h.2
    rw [List.mapM_cons, List.mapM_cons]
    unfold Agg.splitKey at ih ⊢
    rw [h.1]
    cases e'.tuple.at? 0 with
    | none => rfl
    | some k =>
      cases e'.tuple.at? 1 with
      | none => rfl
      | some v =>
        rcases map_eq_cases ih with ⟨h1, h2⟩ | ⟨a, a', h1, h2, h3⟩
        · simp [h1, h2]
        · simp [h1, h2, h3]

theorem consolidate_congr {agg : Agg.Aggregator V T} (hb : Blind agg) {k : Tup V} {g g' : List (Elem (Tup V) T)} (h : tups g = tups g') :
    (Agg.consolidate agg k g).map tups = (Agg.consolidate agg k g').map tups := by
  unfold Agg.consolidate
  rcases map_eq_cases (hb _ _ h) with ⟨h1, h2⟩ | ⟨a, a', h1, h2, h3⟩
  · simp [h1, h2]
  · rw [h1, h2]
    simp only [Option.map_some, List.map_map, Option.some.injEq]
    have : ∀ x : List (Elem (Tup V) T), List.map (Elem.tuple ∘ fun r => (⟨.tup [k, r.tuple], r.tag⟩ : Elem (Tup V) T)) x = (tups x).map (fun t => .tup [k, t]) := by
      intro x; simp [tups]
    rw [this, this, h3]

theorem implicitLoop_congr {agg : Agg.Aggregator V T} (hb : Blind agg) : ∀ {l l' : List (Tup V × Elem (Tup V) T)} {k : Tup V}
    {g g' : List (Elem (Tup V) T)}, tups g = tups g' → ktups l = ktups l' → (Agg.implicitLoop agg k g l).map tups = (Agg.implicitLoop agg k g' l').map tups
  | [], [], k, g, g', hg, _ => consolidate_congr hb hg
  | (q, e) :: l, (q', e') :: l', k, g, g', hg, h => by
    simp only [ktups, List.map_cons, List.cons.injEq, Prod.mk.injEq] at h
    obtain ⟨⟨rfl, he⟩, h⟩ := h
    unfold Agg.implicitLoop
    split
    · exact implicitLoop_congr hb (by simp [tups] at hg ⊢; simp [hg, he]) h
    · have i1 := consolidate_congr hb (k := k) hg
      have i2 := implicitLoop_congr hb (k := q) (g := [e]) (g' := [e']) (by simp [tups, he]) h
      rcases map_eq_cases i1 with ⟨h1, h2⟩ | ⟨a, a', h1, h2, h3⟩
      · simp [h1, h2]
      · rcases map_eq_cases i2 with ⟨j1, j2⟩ | ⟨b, b', j1, j2, j3⟩
        · simp [h1, h2, j1, j2]
        · simp only [tups] at h3 j3
          simp [h1, h2, j1, j2, h3, j3]

/-- Groups up to tags. -/
abbrev gtups (gs : List (Agg.JGroup V T)) : List (Tup V × List (Tup V) × List (Tup V)) := gs.map (fun g => (g.1, tups g.2.1, tups g.2.2))

theorem ktups_dropWhile {k : Tup V} : ∀ {l l' : List (Tup V × Elem (Tup V) T)}, ktups l = ktups l' →
    ktups (l.dropWhile (fun p => p.1 = k)) = ktups (l'.dropWhile (fun p => p.1 = k)) ∧
    tups ((l.takeWhile (fun p => p.1 = k)).map Prod.snd) = tups ((l'.takeWhile (fun p => p.1 = k)).map Prod.snd)
  | [], [], _ => ⟨rfl, rfl⟩
  | (q, e) :: l, (q', e') :: l', h => by
    have h0 := h
    simp only [ktups, List.map_cons, List.cons.injEq, Prod.mk.injEq] at h
    obtain ⟨⟨rfl, he⟩, h⟩ := h
    have ih := ktups_dropWhile (k := k) h
    by_cases hk : q = k
    · simp only [List.dropWhile_cons, List.takeWhile_cons, hk, decide_true, if_true]
      exact ⟨ih.1, by simp only [tups, List.map_cons, he] at ih ⊢; rw [ih.2]⟩
    · simp only [List.dropWhile_cons, List.takeWhile_cons, hk, decide_false, Bool.false_eq_true, if_false]
      exact ⟨h0, trivial⟩

theorem collectGroups_congr : ∀ (n : Nat) {l l' m m' : List (Tup V × Elem (Tup V) T)}, ktups l = ktups l' → ktups m = ktups m' →
    (Agg.collectGroups n l m).map gtups = (Agg.collectGroups n l' m').map gtups
  | 0, _, _, _, _, _, _ => rfl
  | n + 1, [], [], _, _, _, _ => by simp [Agg.collectGroups]
  | n + 1, (k, a) :: l, (k', a') :: l', [], [], h, _ => by
    simp only [ktups, List.map_cons, List.cons.injEq, Prod.mk.injEq] at h
    obtain ⟨⟨rfl, he⟩, h⟩ := h
    have ih := collectGroups_congr n (m := []) (m' := []) h rfl
    simp only [Agg.collectGroups]
    rcases map_eq_cases ih with ⟨h1, h2⟩ | ⟨b, b', h1, h2, h3⟩
    · simp [h1, h2]
    · simp only [gtups] at h3
      simp [h1, h2, h3, he]
  | n + 1, (k, a) :: l, (k', a') :: l', (q, b) :: m, (q', b') :: m', h, hm => by
    have h0 := h
    have hm0 := hm
    simp only [ktups, List.map_cons, List.cons.injEq, Prod.mk.injEq] at h hm
    obtain ⟨⟨rfl, he⟩, h⟩ := h
    obtain ⟨⟨rfl, he'⟩, hm⟩ := hm
    simp only [Agg.collectGroups]
    split
    · obtain ⟨d1, t1⟩ := ktups_dropWhile (k := k) h
      obtain ⟨d2, t2⟩ := ktups_dropWhile (k := k) hm
      have ih := collectGroups_congr n d1 d2
      rcases map_eq_cases ih with ⟨h1, h2⟩ | ⟨x, x', h1, h2, h3⟩
      · simp [h1, h2]
      · simp only [gtups, tups] at h3 t1 t2
        simp [h1, h2, h3, he, he', t1, t2]
    · split
      · have ih := collectGroups_congr n h hm0
        rcases map_eq_cases ih with ⟨h1, h2⟩ | ⟨x, x', h1, h2, h3⟩
        · simp [h1, h2]
        · simp only [gtups] at h3
          simp [h1, h2, h3, he]
      · exact collectGroups_congr n h0 hm

omit [LinearOrder V] in
theorem joinGroupResult_congr (c : Prov T W) {agg : Agg.Aggregator V T} (hb : Blind agg) {g g' : Agg.JGroup V T}
    (h : (g.1, tups g.2.1, tups g.2.2) = (g'.1, tups g'.2.1, tups g'.2.2)) : (Agg.joinGroupResult c agg g).map tups = (Agg.joinGroupResult c agg g').map tups := by
  simp only [Prod.mk.injEq] at h
  obtain ⟨h1, h2, h3⟩ := h
  unfold Agg.joinGroupResult
  rcases map_eq_cases (hb _ _ h3) with ⟨e1, e2⟩ | ⟨a, a', e1, e2, e3⟩
  · simp [e1, e2]
  · rw [e1, e2]
    simp only [Option.map_some, Option.some.injEq]
    have : ∀ (q : Tup V) (x y : List (Elem (Tup V) T)),
        tups (x.flatMap (fun a => y.map (fun r => (⟨.tup [q, a.tuple, r.tuple], c.mult a.tag r.tag⟩ : Elem (Tup V) T)))) =
        (tups x).flatMap (fun a => (tups y).map (fun r => .tup [q, a, r])) := by
      intro q x y
      simp only [tups, List.map_flatMap, List.flatMap_map, List.map_map]
      rfl
    rw [this, this, h1, h2, e3]

theorem mapM_congr {α β γ δ : Type} {f g : α → Option β} {k : β → γ} {s : α → δ} : ∀ {l l' : List α}, (∀ a a', s a = s a' → (f a).map k = (g a').map k) → l.map s = l'.map s →
    (l.mapM f).map (List.map k) = (l'.mapM g).map (List.map k)
  | [], [], _, _ => rfl
  | a :: l, a' :: l', hf, h => by
    simp only [List.map_cons, List.cons.injEq] at h
    have ih := mapM_congr hf h.2
    rw [List.mapM_cons, List.mapM_cons]
    rcases map_eq_cases (hf a a' h.1) with ⟨h1, h2⟩ | ⟨x, x', h1, h2, h3⟩
    · simp [h1, h2]
    · rcases map_eq_cases ih with ⟨j1, j2⟩ | ⟨y, y', j1, j2, j3⟩
      · simp [h1, h2, j1, j2]
      · simp [h1, h2, j1, j2, h3, j3]

omit [LinearOrder V] in
theorem singleGroup_congr {agg : Agg.Aggregator V T} (hb : Blind agg) {l l' : List (Elem (Tup V) T)} (h : tups l = tups l') :
    (Agg.singleGroup agg [l]).map (List.map tups) = (Agg.singleGroup agg [l']).map (List.map tups) := by
  unfold Agg.singleGroup
  rcases map_eq_cases (hb _ _ h) with ⟨h1, h2⟩ | ⟨a, a', h1, h2, h3⟩
  · simp [h1, h2]
  · simp [h1, h2, h3]

theorem implicitGroup_congr {agg : Agg.Aggregator V T} (hb : Blind agg) {l l' : List (Elem (Tup V) T)} (h : tups l = tups l') :
    (Agg.implicitGroup agg [l]).map (List.map tups) = (Agg.implicitGroup agg [l']).map (List.map tups) := by
  unfold Agg.implicitGroup
  rcases map_eq_cases (splitKeys_congr h) with ⟨h1, h2⟩ | ⟨a, a', h1, h2, h3⟩
  · simp [h1, h2]
  · simp only [h1, h2, Option.bind_some]
    cases a with
    | nil =>
      cases a' with
      | nil => rfl
      | cons _ _ => simp [ktups] at h3
    | cons x a =>
      cases a' with
      | nil => simp [ktups] at h3
      | cons x' a' =>
        obtain ⟨k, e⟩ := x
        obtain ⟨k', e'⟩ := x'
        simp only [ktups, List.map_cons, List.cons.injEq, Prod.mk.injEq] at h3
        obtain ⟨⟨rfl, he⟩, h3⟩ := h3
        have := implicitLoop_congr hb (k := k) (g := [e]) (g' := [e']) (by simp [tups, he]) h3
        rcases map_eq_cases this with ⟨j1, j2⟩ | ⟨b, b', j1, j2, j3⟩
        · simp [j1, j2]
        · simp [j1, j2, j3]

theorem joinGroup_congr (c : Prov T W) {agg : Agg.Aggregator V T} (hb : Blind agg) {l l' m m' : List (Elem (Tup V) T)} (h : tups l = tups l') (hm : tups m = tups m') :
    (Agg.joinGroup c agg [l] [m]).map (List.map tups) = (Agg.joinGroup c agg [l'] [m']).map (List.map tups) := by
  unfold Agg.joinGroup
  rcases map_eq_cases (splitKeys_congr h) with ⟨h1, h2⟩ | ⟨a, a', h1, h2, h3⟩
  · simp [h1, h2]
  · rcases map_eq_cases (splitKeys_congr hm) with ⟨j1, j2⟩ | ⟨b, b', j1, j2, j3⟩
    · simp [h1, h2, j1, j2]
    · simp only [h1, h2, j1, j2, Option.bind_some]
      have l1 : a.length = a'.length := by simpa using congrArg List.length h3
      have l2 : b.length = b'.length := by simpa using congrArg List.length j3
      rw [l1, l2]
      rcases map_eq_cases (collectGroups_congr (a'.length + b'.length + 1) h3 j3) with ⟨k1, k2⟩ | ⟨x, x', k1, k2, k3⟩
      · simp [k1, k2]
      · simp only [k1, k2, Option.bind_some]
        have := mapM_congr (k := tups) (fun g g' hg => joinGroupResult_congr c hb (g := g) (g' := g') hg) k3
        rcases map_eq_cases this with ⟨q1, q2⟩ | ⟨y, y', q1, q2, q3⟩
        · simp [q1, q2]
        · simp only [q1, q2, Option.map_some, List.map_cons, List.map_nil, Option.some.injEq, List.cons.injEq, and_true]
          simp only [tups, List.map_flatten] at q3 ⊢
          rw [q3]

end Scallop.Exec
