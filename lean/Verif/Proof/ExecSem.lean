import Verif.Proof.ExecBuild
import Verif.Proof.ExecStatic

/-!
# The meaning of built dataflows
-/

namespace Scallop.Exec

open Scallop.Ram Scallop.Plan

variable {F T W : Type} [LinearOrder (Val F)]

section
variable {c : Prov T W} {R : Runtime F T} {inp : Db F T} {D own : List String} {J : Interp (Tup (Val F))} {X : {r // r ∈ D} → Set (Tup (Val F))}

omit [LinearOrder (Val F)] in
theorem inputOf_inr (e : Elem (Tup (Val F)) T) : inputOf inp (.inr e) = [e] := rfl

theorem rel_sem (hi : InputsOk inp J) (hX : ∀ r (h : r ∈ D), inp r = none → ∀ t, t ∈ X ⟨r, h⟩ ↔ J r t) {r : String} {d'}
    (h : build c R inp D (.leaf (.rel r)) = some d') (t) : t ∈ d'.sem c (inputOf inp) X ↔ J r t := by
  simp only [build] at h
  split at h
  · rename_i hs
    cases h
    obtain ⟨a, ha⟩ := Option.isSome_iff_exists.mp hs
    obtain ⟨l, rfl, hl⟩ := hi r a ha
    simp only [DF.sem, inputOf, ha, Coll.elems]
    exact hl.2 t
  · rename_i hs
    split at h
    · rename_i hr
      cases h
      exact hX r hr (by simpa using hs) t
    · cases h

theorem build_sem_static (hi : InputsOk inp J) (hX : ∀ r (h : r ∈ D), inp r = none → ∀ t, t ∈ X ⟨r, h⟩ ↔ J r t) :
    ∀ {d : Ram.Dataflow F} {d'}, Static own d → build c R inp D d = some d' → ∀ t, t ∈ d'.sem c (inputOf inp) X ↔ Den ((R.setting c).world J) d t := by
  intro d
  induction d with
  | leaf l =>
    intro d' hs h t
    cases l <;> simp only [Static] at hs
    exact rel_sem hi hX h t
  | un o d ih =>
    intro d' hs h t
    obtain ⟨e, he⟩ := build_un h
    cases o <;> simp only [Static] at hs <;> simp only [build, he, Option.map_some, Option.some.injEq] at h <;> subst h <;> simp only [DF.sem, Den, Set.mem_setOf_eq]
    · rw [ih hs he t, holds_iff]; rfl
    · rw [ih hs he t]
    · exact ih hs he t
  | bin o d1 d2 _ _ => intro d' hs; cases o <;> simp [Static] at hs
  | project d e ih =>
    intro d' hs h t
    simp only [build] at h
    obtain ⟨x, hx, rfl⟩ := Option.map_eq_some_iff.mp h
    simp only [DF.sem, Den, Set.mem_setOf_eq, evalTo_some]
    exact exists_congr fun u => and_congr_left' (ih hs hx u)

/-- The dataflow that is built yields, as a set, what the dataflow of the program means. -/
theorem build_sem (hi : InputsOk inp J) (hD : ∀ r ∈ D, r ∈ own)
    (hX : ∀ r (h : r ∈ D), inp r = none → ∀ t, t ∈ X ⟨r, h⟩ ↔ J r t) :
    ∀ {d : Ram.Dataflow F} {d'}, Stratified own d → ForeignOk R d → Discrete c R d → build c R inp D d = some d' →
      ∀ t, t ∈ d'.sem c (inputOf inp) X ↔ Den ((R.setting c).world J) d t := by
  intro d
  induction d with
  | leaf l =>
    intro d' hs hf hq h t
    cases l
    · simp only [build] at h; cases h; rfl
    · simp only [build] at h; cases h; rfl
    · exact rel_sem hi hX h t
    · rename_i a p g
      simp only [build] at h
      obtain ⟨agg, ha, h⟩ := Option.bind_eq_some_iff.mp h
      obtain ⟨bs, hb, rfl⟩ := Option.map_eq_some_iff.mp h
      show _ ↔ (R.setting c).red J a p g t
      rw [← reduce_sem c hq hi ha hb t]
      simp only [DF.sem, tuples, List.mem_map, Set.mem_setOf_eq, List.mem_flatten]
      constructor
      · rintro ⟨_, ⟨b, hb, rfl⟩, j, hj, e', he', rfl⟩
        obtain ⟨e, he, rfl⟩ := List.mem_map.mp hj
        simp only [inputOf, List.mem_singleton] at he'
        subst he'
        exact ⟨e', ⟨b, hb, he⟩, rfl⟩
      · rintro ⟨e, ⟨b, hb, he⟩, rfl⟩
        exact ⟨_, ⟨b, hb, rfl⟩, .inr e, List.mem_map.mpr ⟨e, he, rfl⟩, e, by simp [inputOf], rfl⟩
    · rename_i n vs
      simp only [build] at h
      obtain ⟨f, hf, rfl⟩ := Option.map_eq_some_iff.mp h
      simp only [DF.sem, Den, Set.mem_setOf_eq, Setting.world, Runtime.setting, hf]
      constructor
      · rintro ⟨j, hj, e, he, rfl⟩
        obtain ⟨r, hr, rfl⟩ := List.mem_map.mp hj
        simp only [inputOf, List.mem_singleton] at he
        subst he
        exact ⟨r.2, ⟨f, rfl, r.1, hr⟩, rfl⟩
      · rintro ⟨ws, ⟨f', h1, tag, h2⟩, rfl⟩
        cases h1
        exact ⟨_, List.mem_map.mpr ⟨_, h2, rfl⟩, _, List.mem_singleton.mpr rfl, rfl⟩
  | un o d ih =>
    intro d' hs hf hq h t
    obtain ⟨e, he⟩ := build_un h
    cases o <;> simp only [build, he, Option.map_some, Option.bind_some, Option.some.injEq] at h <;> simp only [ForeignOk] at hf
    case filter p =>
      subst h; simp only [DF.sem, Den, Set.mem_setOf_eq]
      rw [ih hs hf hq he t, holds_iff]; rfl
    case find k =>
      subst h; simp only [DF.sem, Den, Set.mem_setOf_eq]
      rw [ih hs hf hq he t]
    case sorted => subst h; exact ih hs hf hq he t
    case overwriteOne => subst h; exact ih hs hf hq he t
    case joinIndexedVec r =>
      split at h
      · rename_i hr
        obtain ⟨l, hl, _⟩ := hi r _ hr
        cases hl
      · cases h
    case exclusion ts =>
      subst h; simp only [DF.sem, Den, Set.mem_setOf_eq]
      constructor
      · rintro ⟨u, hu, r, hr, j, hj, _⟩
        cases hr
        obtain ⟨v, hv, hv'⟩ := List.mem_map.mp hj
        cases hv'
        exact ⟨u, v, (ih hs hf hq he u).mp hu, hv, rfl⟩
      · rintro ⟨u, v, hu, hv, rfl⟩
        exact ⟨u, (ih hs hf hq he u).mpr hu, _, rfl, _, List.mem_map.mpr ⟨v, hv, rfl⟩, by simp [inputOf]⟩
    case foreignConstraint n es =>
      obtain ⟨f, hfn, h⟩ := Option.bind_eq_some_iff.mp h
      simp only [Option.some.injEq] at h
      subst h
      obtain ⟨hf1, hf2, hf3⟩ := hf
      simp only [DF.sem, Den, Set.mem_setOf_eq]
      constructor
      · rintro ⟨u, hu, r, hr, j, hj, _⟩
        unfold fpCheck at hr
        obtain ⟨vs, hvs, hr⟩ := Option.bind_eq_some_iff.mp hr
        split at hr
        · cases hr; cases hj
        · rename_i x hx
          cases hr
          have hj := List.mem_singleton.mp hj
          cases hj
          have hnil : x.2 = [] := (hf3 f hfn vs).2 x (by rw [hx]; simp)
          exact ⟨(ih hs hf1 hq he t).mp hu, vs, (fpArgs_iff hf2).mp hvs, f, hfn, x.1, by rw [hx, ← hnil]; simp⟩
        · cases hr
      · rintro ⟨hu, vs, hvs, f', hf', tag, ht⟩
        have e' : f' = f := Option.some.inj (hf'.symm.trans hfn)
        subst e'
        refine ⟨t, (ih hs hf1 hq he t).mpr hu, ?_⟩
        have hlen := (hf3 f' hfn vs).1
        unfold fpCheck
        rw [(fpArgs_iff (X := R.X) hf2).mpr hvs]
        simp only [Option.bind_some]
        cases hfv : f' vs with
        | nil => rw [hfv] at ht; cases ht
        | cons x xs =>
          cases xs with
          | nil => exact ⟨_, rfl, _, List.mem_singleton.mpr rfl, by simp [inputOf]⟩
          | cons y ys => rw [hfv] at hlen; simp at hlen
    case foreignJoin n es =>
      obtain ⟨f, hfn, h⟩ := Option.bind_eq_some_iff.mp h
      simp only [Option.some.injEq] at h
      subst h
      obtain ⟨hf1, hf2⟩ := hf
      simp only [DF.sem, Den, Set.mem_setOf_eq]
      constructor
      · rintro ⟨u, hu, r, hr, j, hj, _⟩
        unfold fpResults at hr
        obtain ⟨vs, hvs, rfl⟩ := Option.map_eq_some_iff.mp hr
        obtain ⟨x, hx, hx'⟩ := List.mem_map.mp hj
        cases hx'
        exact ⟨u, vs, x.2, (ih hs hf1 hq he u).mp hu, (fpArgs_iff hf2).mp hvs, ⟨f, hfn, x.1, hx⟩, rfl⟩
      · rintro ⟨u, vs, ws, hu, hvs, ⟨f', hf', tag, ht⟩, rfl⟩
        have e' : f' = f := Option.some.inj (hf'.symm.trans hfn)
        subst e'
        refine ⟨u, (ih hs hf1 hq he u).mpr hu, _, by unfold fpResults; rw [(fpArgs_iff (X := R.X) hf2).mpr hvs]; rfl, _, List.mem_map.mpr ⟨_, ht, rfl⟩, by simp [inputOf]⟩
  | bin o d1 d2 ih1 ih2 =>
    intro d' hs hf hq h t
    simp only [build] at h
    obtain ⟨e1, h1, h⟩ := Option.bind_eq_some_iff.mp h
    obtain ⟨e2, h2, rfl⟩ := Option.map_eq_some_iff.mp h
    cases o <;> simp only [Stratified] at hs <;> simp only [DF.sem, Den, Set.mem_setOf_eq]
    · exact or_congr (ih1 hs.1 hf.1 hq.1 h1 t) (ih2 hs.2 hf.2 hq.2 h2 t)
    · constructor
      · rintro ⟨k, a, b, rfl, ⟨x, hx, hx'⟩, y, hy, hy'⟩
        exact ⟨k, a, b, ⟨x, (ih1 hs.1.stratified hf.1 hq.1 h1 x).mp hx, hx'⟩, ⟨y, (ih2 hs.2.stratified hf.2 hq.2 h2 y).mp hy, hy'⟩, rfl⟩
      · rintro ⟨k, a, b, ⟨x, hx, hx'⟩, ⟨y, hy, hy'⟩, rfl⟩
        exact ⟨k, a, b, rfl, ⟨x, (ih1 hs.1.stratified hf.1 hq.1 h1 x).mpr hx, hx'⟩, y, (ih2 hs.2.stratified hf.2 hq.2 h2 y).mpr hy, hy'⟩
    · exact and_congr (ih1 hs.1.stratified hf.1 hq.1 h1 t) (ih2 hs.2.stratified hf.2 hq.2 h2 t)
    · constructor
      · rintro ⟨x, hx, y, hy, rfl⟩
        exact ⟨x, y, (ih1 hs.1.stratified hf.1 hq.1 h1 x).mp hx, (ih2 hs.2.stratified hf.2 hq.2 h2 y).mp hy, rfl⟩
      · rintro ⟨x, y, hx, hy, rfl⟩
        exact ⟨x, (ih1 hs.1.stratified hf.1 hq.1 h1 x).mpr hx, y, (ih2 hs.2.stratified hf.2 hq.2 h2 y).mpr hy, rfl⟩
    · rw [ih1 hs.1 hf.1 hq.2 h1 t, survives_none hq.1]
      refine and_congr_right' (forall_congr' fun k => imp_congr_right fun _ => not_congr ?_)
      rw [static_sem c (inputOf inp) X (build_static hD hs.2 h2) k]
      exact build_sem_static hi hX hs.2 h2 k
    · rw [ih1 hs.1 hf.1 hq.2 h1 t, survives_none hq.1]
      refine and_congr_right' ?_
      simp only [Option.some.injEq, forall_eq']
      rw [static_sem c (inputOf inp) X (build_static hD hs.2 h2) t]
      exact not_congr (build_sem_static hi hX hs.2 h2 t)
  | project d e ih =>
    intro d' hs hf hq h t
    simp only [build] at h
    obtain ⟨x, hx, rfl⟩ := Option.map_eq_some_iff.mp h
    simp only [DF.sem, Den, Set.mem_setOf_eq, evalTo_some]
    exact exists_congr fun u => and_congr_left' (ih hs hf hq hx u)

end

end Scallop.Exec
