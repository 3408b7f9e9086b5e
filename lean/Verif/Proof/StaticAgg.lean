import Verif.Spec.StaticAgg
import Mathlib.Order.Monotone.Basic

/-! # Lemmas about aggregations of compiled programs -/

namespace Scallop.SAgg

open Scallop

variable {V T W K A B O : Type}

theorem mapM_statElem (enc : O → Tup V) (dec : Tup V → Option O) (hdec : ∀ t b, dec t = some b → enc b = t) :
    ∀ (rs : List (Elem (Tup V) T)) (out : List (Elem O T)), rs.mapM (statElem dec) = some out → rs = out.map (dynElem enc)
  | [], out, h => by simp at h; subst h; rfl
  | r :: rs, out, h => by
    simp only [List.mapM_cons, Option.bind_eq_bind, Option.pure_def, Option.bind_eq_some_iff, Option.some.injEq] at h
    obtain ⟨b, hb, bs, hbs, rfl⟩ := h
    rw [List.map_cons, ← mapM_statElem enc dec hdec rs bs hbs]
    simp only [statElem, Option.map_eq_some_iff] at hb
    obtain ⟨x, hx, rfl⟩ := hb
    simp [dynElem, hdec _ _ hx]

theorem viaDyn_eq (ea : A → Tup V) (eo : O → Tup V) (dec : Tup V → Option O) (hdec : ∀ t b, dec t = some b → eo b = t)
    (agg : Agg.Aggregator V T) (l : List (Elem A T)) (out : List (Elem O T)) (h : viaDyn ea dec agg l = some out) :
    agg (l.map (dynElem ea)) = some (out.map (dynElem eo)) := by
  simp only [viaDyn, Option.bind_eq_some_iff] at h
  obtain ⟨rs, h1, h2⟩ := h
  rw [h1, mapM_statElem eo dec hdec rs out h2]

theorem mapM_statElem_total (dec : Tup V → Option O) : ∀ (rs : List (Elem (Tup V) T)), (∀ r ∈ rs, (dec r.tuple).isSome) → ∃ out, rs.mapM (statElem dec) = some out
  | [], _ => ⟨[], by simp⟩
  | r :: rs, h => by
    obtain ⟨out, ho⟩ := mapM_statElem_total dec rs (fun x hx => h x (by simp [hx]))
    obtain ⟨b, hb⟩ := Option.isSome_iff_exists.mp (h r (by simp))
    exact ⟨⟨b, r.tag⟩ :: out, by simp [List.mapM_cons, ho, statElem, hb]⟩

/-- `agg` refines `dyn`: what it returns is what `dyn` returns. -/
def Refines (ea : A → Tup V) (eo : O → Tup V) (agg : TAgg A O T) (dyn : Agg.Aggregator V T) : Prop :=
  ∀ l out, agg l = some out → dyn (l.map (dynElem ea)) = some (out.map (dynElem eo))

/-- `agg` returns whenever `dyn` does. -/
def Returns (ea : A → Tup V) (agg : TAgg A O T) (dyn : Agg.Aggregator V T) : Prop :=
  ∀ l, (dyn (l.map (dynElem ea))).isSome → (agg l).isSome

theorem viaDyn_returns (ea : A → Tup V) (dec : Tup V → Option O) (agg : Agg.Aggregator V T)
    (h : ∀ (l : List (Elem A T)) rs, agg (l.map (dynElem ea)) = some rs → ∀ r ∈ rs, (dec r.tuple).isSome) : Returns ea (viaDyn ea dec agg) agg := by
  intro l hl
  obtain ⟨rs, hrs⟩ := Option.isSome_iff_exists.mp hl
  obtain ⟨out, ho⟩ := mapM_statElem_total dec rs (h l rs hrs)
  simp [viaDyn, hrs, ho]

theorem singleGroup_eq (ea : A → Tup V) (eo : O → Tup V) (agg : TAgg A O T) (dyn : Agg.Aggregator V T) (hr : Refines ea eo agg dyn)
    (d : List (List (Elem A T))) (out : List (List (Elem O T))) (h : singleGroup agg d = some out) :
    Agg.singleGroup dyn (d.map (List.map (dynElem ea))) = some (out.map (List.map (dynElem eo))) := by
  cases d with
  | nil => simp [singleGroup] at h; subst h; rfl
  | cons b d =>
    simp only [singleGroup, Option.map_eq_some_iff] at h
    obtain ⟨r, hb, rfl⟩ := h
    simp [Agg.singleGroup, hr b r hb]

theorem singleGroup_isSome (ea : A → Tup V) (agg : TAgg A O T) (dyn : Agg.Aggregator V T) (hr : Returns ea agg dyn)
    (d : List (List (Elem A T))) (h : (Agg.singleGroup dyn (d.map (List.map (dynElem ea)))).isSome) : (singleGroup agg d).isSome := by
  cases d with
  | nil => simp [singleGroup]
  | cons b d => simpa [singleGroup] using hr b (by simpa [Agg.singleGroup] using h)

section ordered
variable [LinearOrder V]

/-- The key and the element without it. -/
def keyed (ek : K → Tup V) (ea : A → Tup V) (e : Elem (K × A) T) : Tup V × Elem (Tup V) T := (ek e.tuple.1, dynElem ea (unkeyed e))

theorem splitKey_eq (ek : K → Tup V) (ea : A → Tup V) (e : Elem (K × A) T) : Agg.splitKey (dynElem (pairTup ek ea) e) = some (keyed ek ea e) := by
  simp [Agg.splitKey, dynElem, pairTup, Tup.at?, keyed, unkeyed]

theorem mapM_splitKey (ek : K → Tup V) (ea : A → Tup V) : ∀ l : List (Elem (K × A) T),
    (l.map (dynElem (pairTup ek ea))).mapM Agg.splitKey = some (l.map (keyed ek ea))
  | [] => by simp
  | e :: l => by simp [List.mapM_cons, splitKey_eq, mapM_splitKey ek ea l]

theorem consolidate_eq (ek : K → Tup V) (ea : A → Tup V) (eo : O → Tup V) (agg : TAgg A O T) (dyn : Agg.Aggregator V T) (hr : Refines ea eo agg dyn)
    (k : K) (g : List (Elem A T)) (out : List (Elem (K × O) T)) (h : consolidate agg k g = some out) :
    Agg.consolidate dyn (ek k) (g.map (dynElem ea)) = some (out.map (dynElem (pairTup ek eo))) := by
  simp only [consolidate, Option.map_eq_some_iff] at h
  obtain ⟨r, hg, rfl⟩ := h
  simp [Agg.consolidate, hr g r hg, dynElem, pairTup]

theorem implicitLoop_eq [DecidableEq K] (ek : K → Tup V) (hk : Function.Injective ek) (ea : A → Tup V) (eo : O → Tup V) (agg : TAgg A O T)
    (dyn : Agg.Aggregator V T) (hr : Refines ea eo agg dyn) : ∀ (l : List (Elem (K × A) T)) (k : K) (g : List (Elem A T)) (out : List (Elem (K × O) T)),
    implicitLoop agg k g l = some out →
    Agg.implicitLoop dyn (ek k) (g.map (dynElem ea)) (l.map (keyed ek ea)) = some (out.map (dynElem (pairTup ek eo)))
  | [], k, g, out, h => by
    simpa [Agg.implicitLoop] using consolidate_eq ek ea eo agg dyn hr k g out (by simpa [implicitLoop] using h)
  | e :: l, k, g, out, h => by
    simp only [implicitLoop] at h
    simp only [List.map_cons, keyed, Agg.implicitLoop]
    split at h
    · rename_i hek
      rw [if_pos (by rw [hek])]
      have := implicitLoop_eq ek hk ea eo agg dyn hr l k _ out h
      simpa [keyed] using this
    · rename_i hek
      rw [if_neg (fun hc => hek (hk hc))]
      simp only [Option.bind_eq_some_iff, Option.map_eq_some_iff] at h
      obtain ⟨r, h1, s, h2, rfl⟩ := h
      rw [consolidate_eq ek ea eo agg dyn hr k g r h1]
      have := implicitLoop_eq ek hk ea eo agg dyn hr l e.tuple.1 [unkeyed e] s h2
      simp only [List.map_cons, List.map_nil] at this
      simp only [Option.bind_some]
      rw [this]
      simp

theorem implicitGroup_eq [DecidableEq K] (ek : K → Tup V) (hk : Function.Injective ek) (ea : A → Tup V) (eo : O → Tup V) (agg : TAgg A O T)
    (dyn : Agg.Aggregator V T) (hr : Refines ea eo agg dyn) (d : List (List (Elem (K × A) T))) (out : List (List (Elem (K × O) T)))
    (h : implicitGroup agg d = some out) :
    Agg.implicitGroup dyn (d.map (List.map (dynElem (pairTup ek ea)))) = some (out.map (List.map (dynElem (pairTup ek eo)))) := by
  match d with
  | [] => simp [implicitGroup] at h; subst h; rfl
  | [] :: d => simp [implicitGroup] at h; subst h; simp [Agg.implicitGroup]
  | (e :: rest) :: d =>
    simp only [implicitGroup, Option.map_eq_some_iff] at h
    obtain ⟨r, h1, rfl⟩ := h
    have := implicitLoop_eq ek hk ea eo agg dyn hr rest _ _ r h1
    simp only [List.map_cons, Agg.implicitGroup]
    have hm := mapM_splitKey ek ea (e :: rest)
    simp only [List.map_cons] at hm
    rw [hm]
    simp only [Option.bind_some, keyed]
    simp only [List.map_cons, List.map_nil] at this
    rw [this]
    rfl

theorem consolidate_isSome (ek : K → Tup V) (ea : A → Tup V) (agg : TAgg A O T) (dyn : Agg.Aggregator V T) (hr : Returns ea agg dyn)
    (k : K) (g : List (Elem A T)) (h : (Agg.consolidate dyn (ek k) (g.map (dynElem ea))).isSome) : (consolidate agg k g).isSome := by
  simpa [consolidate] using hr g (by simpa [Agg.consolidate] using h)

theorem implicitLoop_isSome [DecidableEq K] (ek : K → Tup V) (hk : Function.Injective ek) (ea : A → Tup V) (agg : TAgg A O T)
    (dyn : Agg.Aggregator V T) (hr : Returns ea agg dyn) : ∀ (l : List (Elem (K × A) T)) (k : K) (g : List (Elem A T)),
    (Agg.implicitLoop dyn (ek k) (g.map (dynElem ea)) (l.map (keyed ek ea))).isSome → (implicitLoop agg k g l).isSome
  | [], k, g, h => by
    simp only [implicitLoop]
    exact consolidate_isSome ek ea agg dyn hr k g (by simpa [Agg.implicitLoop] using h)
  | e :: l, k, g, h => by
    simp only [List.map_cons, keyed, Agg.implicitLoop] at h
    simp only [implicitLoop]
    split
    · rename_i hek
      rw [if_pos (by rw [hek])] at h
      exact implicitLoop_isSome ek hk ea agg dyn hr l k _ (by simpa [keyed] using h)
    · rename_i hek
      rw [if_neg (fun hc => hek (hk hc))] at h
      obtain ⟨x, hx⟩ := Option.isSome_iff_exists.mp h
      simp only [Option.bind_eq_some_iff, Option.map_eq_some_iff] at hx
      obtain ⟨r, h1, s, h2, rfl⟩ := hx
      obtain ⟨r', hr'⟩ := Option.isSome_iff_exists.mp (consolidate_isSome ek ea agg dyn hr k g (by rw [h1]; rfl))
      obtain ⟨s', hs'⟩ := Option.isSome_iff_exists.mp (implicitLoop_isSome ek hk ea agg dyn hr l e.tuple.1 [unkeyed e]
        (Option.isSome_iff_exists.mpr ⟨s, h2⟩))
      simp [hr', hs']

theorem implicitGroup_isSome [DecidableEq K] (ek : K → Tup V) (hk : Function.Injective ek) (ea : A → Tup V) (agg : TAgg A O T)
    (dyn : Agg.Aggregator V T) (hr : Returns ea agg dyn) (d : List (List (Elem (K × A) T)))
    (h : (Agg.implicitGroup dyn (d.map (List.map (dynElem (pairTup ek ea))))).isSome) : (implicitGroup agg d).isSome := by
  match d with
  | [] => simp [implicitGroup]
  | [] :: d => simp [implicitGroup]
  | (e :: rest) :: d =>
    simp only [List.map_cons, Agg.implicitGroup] at h
    have hm := mapM_splitKey ek ea (e :: rest)
    simp only [List.map_cons] at hm
    rw [hm] at h
    simp only [Option.bind_some, keyed, Option.isSome_map] at h
    simp only [implicitGroup, Option.isSome_map]
    exact implicitLoop_isSome ek hk ea agg dyn hr rest _ [unkeyed e] h

/-- A group as a group of the interpreter. -/
def encGroup (ek : K → Tup V) (eb : B → Tup V) (ea : A → Tup V) (g : K × List (Elem B T) × List (Elem A T)) : Agg.JGroup V T :=
  (ek g.1, g.2.1.map (dynElem eb), g.2.2.map (dynElem ea))

theorem takeWhile_keyed [LinearOrder K] (ek : K → Tup V) (hk : StrictMono ek) (ea : A → Tup V) (k : K) : ∀ l : List (Elem (K × A) T),
    (l.map (keyed ek ea)).takeWhile (fun p => p.1 = ek k) = (l.takeWhile (fun e => e.tuple.1 = k)).map (keyed ek ea) := by
  intro l
  rw [List.takeWhile_map]
  congr 1
  congr 1
  funext e
  simp [keyed, hk.injective.eq_iff]

theorem dropWhile_keyed [LinearOrder K] (ek : K → Tup V) (hk : StrictMono ek) (ea : A → Tup V) (k : K) : ∀ l : List (Elem (K × A) T),
    (l.map (keyed ek ea)).dropWhile (fun p => p.1 = ek k) = (l.dropWhile (fun e => e.tuple.1 = k)).map (keyed ek ea) := by
  intro l
  rw [List.dropWhile_map]
  congr 1
  congr 1
  funext e
  simp [keyed, hk.injective.eq_iff]

theorem collectGroups_eq [LinearOrder K] (ek : K → Tup V) (hk : StrictMono ek) (eb : B → Tup V) (ea : A → Tup V) :
    ∀ (fuel : Nat) (i : List (Elem (K × B) T)) (j : List (Elem (K × A) T)),
    Agg.collectGroups fuel (i.map (keyed ek eb)) (j.map (keyed ek ea)) = (collectGroups fuel i j).map (List.map (encGroup ek eb ea))
  | 0, _, _ => by simp [Agg.collectGroups, collectGroups]
  | fuel + 1, [], _ => by simp [Agg.collectGroups, collectGroups]
  | fuel + 1, a :: i, [] => by
    have := collectGroups_eq ek hk eb ea fuel i []
    simp only [List.map_nil] at this
    simp only [List.map_cons, List.map_nil, Agg.collectGroups, collectGroups, keyed]
    rw [this]
    simp [Option.map_map, Function.comp_def, encGroup]
  | fuel + 1, a :: i, b :: j => by
    have h1 := fun i' j' => collectGroups_eq ek hk eb ea fuel i' j'
    simp only [List.map_cons, Agg.collectGroups, collectGroups, keyed]
    simp only [hk.injective.eq_iff, hk.lt_iff_lt]
    split
    · rw [dropWhile_keyed ek hk, dropWhile_keyed ek hk, takeWhile_keyed ek hk, takeWhile_keyed ek hk, h1]
      simp [Option.map_map, Function.comp_def, encGroup, keyed]
    · split
      · have := h1 i (b :: j)
        simp only [List.map_cons, keyed] at this
        rw [this]
        simp [Option.map_map, Function.comp_def, encGroup]
      · have := h1 (a :: i) j
        simp only [List.map_cons, keyed] at this
        exact this

theorem joinGroupResult_eq (c : Prov T W) (ek : K → Tup V) (eb : B → Tup V) (ea : A → Tup V) (eo : O → Tup V) (agg : TAgg A O T)
    (dyn : Agg.Aggregator V T) (hr : Refines ea eo agg dyn) (g : K × List (Elem B T) × List (Elem A T)) (out : List (Elem (K × B × O) T))
    (h : joinGroupResult c agg g = some out) :
    Agg.joinGroupResult c dyn (encGroup ek eb ea g) = some (out.map (dynElem (tripleTup ek eb eo))) := by
  simp only [joinGroupResult, Option.map_eq_some_iff] at h
  obtain ⟨r, hg, rfl⟩ := h
  simp [Agg.joinGroupResult, encGroup, hr _ r hg, dynElem, tripleTup, List.map_flatMap, List.flatMap_map, Function.comp_def]

theorem mapM_joinGroup (c : Prov T W) (ek : K → Tup V) (eb : B → Tup V) (ea : A → Tup V) (eo : O → Tup V) (agg : TAgg A O T)
    (dyn : Agg.Aggregator V T) (hr : Refines ea eo agg dyn) : ∀ (gs : List (K × List (Elem B T) × List (Elem A T))) (out : List (List (Elem (K × B × O) T))),
    gs.mapM (joinGroupResult c agg) = some out →
    (gs.map (encGroup ek eb ea)).mapM (Agg.joinGroupResult c dyn) = some (out.map (List.map (dynElem (tripleTup ek eb eo))))
  | [], out, h => by simp at h; subst h; simp
  | g :: gs, out, h => by
    simp only [List.mapM_cons, Option.bind_eq_bind, Option.pure_def, Option.bind_eq_some_iff, Option.some.injEq] at h
    obtain ⟨b, hb, bs, hbs, rfl⟩ := h
    simp [List.mapM_cons, joinGroupResult_eq c ek eb ea eo agg dyn hr g b hb, mapM_joinGroup c ek eb ea eo agg dyn hr gs bs hbs]

theorem joinGroup_eq [LinearOrder K] (c : Prov T W) (ek : K → Tup V) (hk : StrictMono ek) (eb : B → Tup V) (ea : A → Tup V) (eo : O → Tup V)
    (agg : TAgg A O T) (dyn : Agg.Aggregator V T) (hr : Refines ea eo agg dyn) (d1 : List (List (Elem (K × B) T))) (d2 : List (List (Elem (K × A) T)))
    (out : List (List (Elem (K × B × O) T))) (h : joinGroup c agg d1 d2 = some out) :
    Agg.joinGroup c dyn (d1.map (List.map (dynElem (pairTup ek eb)))) (d2.map (List.map (dynElem (pairTup ek ea)))) =
      some (out.map (List.map (dynElem (tripleTup ek eb eo)))) := by
  match d1, d2 with
  | [], _ => simp [joinGroup] at h; subst h; simp [Agg.joinGroup]
  | _ :: _, [] => simp [joinGroup] at h; subst h; simp [Agg.joinGroup]
  | i :: _, j :: _ =>
    simp only [joinGroup, Option.bind_eq_some_iff, Option.map_eq_some_iff] at h
    obtain ⟨gs, h1, r, h2, rfl⟩ := h
    simp only [List.map_cons, Agg.joinGroup, mapM_splitKey, Option.bind_some, List.length_map, collectGroups_eq ek hk eb ea, h1, Option.map_some,
      mapM_joinGroup c ek eb ea eo agg dyn hr gs r h2]
    simp [List.map_flatten]

theorem mapM_joinGroup_isSome (c : Prov T W) (ek : K → Tup V) (eb : B → Tup V) (ea : A → Tup V) (agg : TAgg A O T)
    (dyn : Agg.Aggregator V T) (hr : Returns ea agg dyn) : ∀ (gs : List (K × List (Elem B T) × List (Elem A T))),
    ((gs.map (encGroup ek eb ea)).mapM (Agg.joinGroupResult c dyn)).isSome → (gs.mapM (joinGroupResult c agg)).isSome
  | [], _ => by simp
  | g :: gs, h => by
    obtain ⟨x, hx⟩ := Option.isSome_iff_exists.mp h
    simp only [List.map_cons, List.mapM_cons, Option.bind_eq_bind, Option.pure_def, Option.bind_eq_some_iff, Option.some.injEq] at hx
    obtain ⟨b, hb, bs, hbs, rfl⟩ := hx
    obtain ⟨r', hr'⟩ := Option.isSome_iff_exists.mp (mapM_joinGroup_isSome c ek eb ea agg dyn hr gs (by rw [hbs]; rfl))
    have hg : (joinGroupResult c agg g).isSome := by
      simp only [joinGroupResult, Option.isSome_map]
      refine hr _ ?_
      simp only [Agg.joinGroupResult, encGroup, Option.map_eq_some_iff] at hb
      obtain ⟨y, hy, _⟩ := hb
      rw [hy]; rfl
    obtain ⟨s', hs'⟩ := Option.isSome_iff_exists.mp hg
    simp [List.mapM_cons, hr', hs']

theorem joinGroup_isSome [LinearOrder K] (c : Prov T W) (ek : K → Tup V) (hk : StrictMono ek) (eb : B → Tup V) (ea : A → Tup V)
    (agg : TAgg A O T) (dyn : Agg.Aggregator V T) (hr : Returns ea agg dyn) (d1 : List (List (Elem (K × B) T))) (d2 : List (List (Elem (K × A) T)))
    (h : (Agg.joinGroup c dyn (d1.map (List.map (dynElem (pairTup ek eb)))) (d2.map (List.map (dynElem (pairTup ek ea))))).isSome) :
    (joinGroup c agg d1 d2).isSome := by
  match d1, d2 with
  | [], _ => simp [joinGroup]
  | _ :: _, [] => simp [joinGroup]
  | i :: _, j :: _ =>
    simp only [List.map_cons, Agg.joinGroup, mapM_splitKey, Option.bind_some, List.length_map, collectGroups_eq ek hk eb ea] at h
    simp only [joinGroup]
    cases hc : collectGroups (i.length + j.length + 1) i j with
    | none => simp [hc] at h
    | some gs =>
      rw [hc] at h
      simp only [Option.map_some, Option.bind_some, Option.isSome_map] at h ⊢
      exact mapM_joinGroup_isSome c ek eb ea agg dyn hr gs h

end ordered

/-! ### top -/

theorem mapM_getElem (ea : A → Tup V) (l : List (Elem A T)) : ∀ ids : List Nat,
    ids.mapM (fun i => (l.map (dynElem ea))[i]?) = (ids.mapM (fun i => l[i]?)).map (List.map (dynElem ea))
  | [] => by simp
  | i :: ids => by
    have ih := mapM_getElem ea l ids
    simp only [List.getElem?_map] at ih
    simp only [List.mapM_cons, List.getElem?_map, Option.bind_eq_bind, Option.pure_def, ih]
    cases l[i]? with
    | none => simp
    | some x => cases ids.mapM (fun i => l[i]?) <;> simp

theorem top_eq {Q : Type} [LinearOrder Q] (pop : List (Agg.TopElem Q) → Option (Agg.TopElem Q × List (Agg.TopElem Q))) (c : Prov T Q) (k : Nat)
    (ea : A → Tup V) (l : List (Elem A T)) : Agg.topKAggregate pop c k (l.map (dynElem ea)) = (top pop c k l).map (List.map (dynElem ea)) := by
  simp only [Agg.topKAggregate, top, List.length_map, List.getElem?_map, Option.map_map]
  rw [show ((fun e : Elem (Tup V) T => c.weight e.tag) ∘ dynElem ea) = (fun e : Elem A T => c.weight e.tag) from rfl]
  cases Agg.topK pop l.length k (fun i => (l[i]?).map (fun e => c.weight e.tag)) with
  | none => rfl
  | some ids =>
    have := mapM_getElem ea l ids
    simp only [List.getElem?_map] at this
    simpa using this

/-! ### Order of tuples -/

section order
variable [LinearOrder V]

theorem val_strictMono : StrictMono (Tup.val : V → Tup V) := by
  intro a b h
  show Tup.cmp (Tup.val a) (Tup.val b) = .lt
  simpa [Tup.cmp, compare_lt_iff_lt] using h

theorem pairTup_lt {K A : Type} [LinearOrder K] [LinearOrder A] (ek : K → Tup V) (hk : StrictMono ek) (ea : A → Tup V) (ha : StrictMono ea) (p q : K × A)
    (h : p.1 < q.1 ∨ p.1 = q.1 ∧ p.2 < q.2) : pairTup ek ea p < pairTup ek ea q := by
  show Tup.cmp _ _ = .lt
  simp only [pairTup, Tup.cmp, Tup.cmpList]
  rcases h with h | ⟨h, h'⟩
  · have : Tup.cmp (ek p.1) (ek q.1) = .lt := hk h
    rw [this]; rfl
  · have : Tup.cmp (ea p.2) (ea q.2) = .lt := ha h'
    rw [h, (Tup.cmp_eq _ _).mpr rfl, this]; rfl

end order

end Scallop.SAgg
