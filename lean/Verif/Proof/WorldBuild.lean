import Verif.Spec.WorldExec
import Verif.Proof.ExecSem
import Verif.Proof.WorldSem

/-!
# The meaning of built dataflows in possible worlds
-/

namespace Scallop.Exec

open Scallop.Ram Scallop.Plan

variable {F T W : Type} [LinearOrder (Val F)] {c : Prov T W} {R : Runtime F T} {inp : Db F T} {D own : List String}

theorem settingIn_local (v : T → Prop) (R : Runtime F T) : (R.settingIn v).Local := fun _ _ _ _ _ _ _ _ => Iff.rfl

omit [LinearOrder (Val F)] in
theorem KeepsTags.keeps {K : String → String → GroupBy → Prop} : ∀ {d : Ram.Dataflow F}, KeepsTags d → KeepsWith K d := by
  intro d
  induction d with
  | leaf l => intro h; cases l <;> first | trivial | exact h.elim
  | un o d ih => intro h; cases o <;> first | exact h.elim | exact ih h
  | bin o d1 d2 ih1 ih2 => exact fun h => ⟨ih1 h.1, ih2 h.2⟩
  | project d e ih => exact fun h => ih h

variable {K : String → String → GroupBy → Prop}

/-! ## Conditions carry over -/

theorem build_keepsTags : ∀ {d : Ram.Dataflow F} {d'}, KeepsWith K d → build c R inp D d = some d' → d'.keepsTags := by
  intro d
  induction d with
  | leaf l =>
    intro d' hs h
    cases l <;> simp only [KeepsWith] at hs <;> simp only [build] at h
    · cases h; trivial
    · cases h; trivial
    · split at h
      · cases h; trivial
      · split at h
        · cases h; trivial
        · cases h
    · obtain ⟨x, hx, h⟩ := Option.bind_eq_some_iff.mp h
      obtain ⟨y, hy, rfl⟩ := Option.map_eq_some_iff.mp h
      trivial
    · obtain ⟨x, hx, rfl⟩ := Option.map_eq_some_iff.mp h
      trivial
  | un o d ih =>
    intro d' hs h
    obtain ⟨e, he⟩ := build_un h
    cases o <;> simp only [KeepsWith] at hs <;> have := ih hs he <;>
      simp only [build, he, Option.map_some, Option.bind_some, Option.some.injEq] at h
    case joinIndexedVec r =>
      split at h
      · cases h; exact this
      · cases h
    case foreignConstraint n es =>
      obtain ⟨f, _, hf⟩ := Option.bind_eq_some_iff.mp h
      cases hf; exact this
    case foreignJoin n es =>
      obtain ⟨f, _, hf⟩ := Option.bind_eq_some_iff.mp h
      cases hf; exact this
    all_goals subst h; exact this
  | bin o d1 d2 ih1 ih2 =>
    intro d' hs h
    simp only [build] at h
    obtain ⟨e1, h1, h⟩ := Option.bind_eq_some_iff.mp h
    obtain ⟨e2, h2, rfl⟩ := Option.map_eq_some_iff.mp h
    have := (⟨ih1 hs.1 h1, ih2 hs.2 h2⟩ : e1.keepsTags ∧ e2.keepsTags)
    cases o <;> exact this
  | project d e ih =>
    intro d' hs h
    simp only [build] at h
    obtain ⟨x, hx, rfl⟩ := Option.map_eq_some_iff.mp h
    have hh := ih hs hx; exact hh

theorem build_noMinus : ∀ {d : Ram.Dataflow F} {d'}, NoMinus d → build c R inp D d = some d' → d'.noMinus := by
  intro d
  induction d with
  | leaf l =>
    intro d' hs h
    cases l <;> simp only [build] at h
    · cases h; trivial
    · cases h; trivial
    · split at h
      · cases h; trivial
      · split at h
        · cases h; trivial
        · cases h
    · obtain ⟨x, hx, h⟩ := Option.bind_eq_some_iff.mp h
      obtain ⟨y, hy, rfl⟩ := Option.map_eq_some_iff.mp h
      trivial
    · obtain ⟨x, hx, rfl⟩ := Option.map_eq_some_iff.mp h
      trivial
  | un o d ih =>
    intro d' hs h
    obtain ⟨e, he⟩ := build_un h
    have := ih hs he
    cases o <;> simp only [build, he, Option.map_some, Option.bind_some, Option.some.injEq] at h
    case joinIndexedVec r =>
      split at h
      · cases h; exact this
      · cases h
    case foreignConstraint n es =>
      obtain ⟨f, _, hf⟩ := Option.bind_eq_some_iff.mp h
      cases hf; exact this
    case foreignJoin n es =>
      obtain ⟨f, _, hf⟩ := Option.bind_eq_some_iff.mp h
      cases hf; exact this
    all_goals subst h; exact this
  | bin o d1 d2 ih1 ih2 =>
    intro d' hs h
    simp only [build] at h
    obtain ⟨e1, h1, h⟩ := Option.bind_eq_some_iff.mp h
    obtain ⟨e2, h2, rfl⟩ := Option.map_eq_some_iff.mp h
    cases o <;> simp only [NoMinus] at hs
    all_goals exact ⟨ih1 hs.1 h1, ih2 hs.2 h2⟩
  | project d e ih =>
    intro d' hs h
    simp only [build] at h
    obtain ⟨x, hx, rfl⟩ := Option.map_eq_some_iff.mp h
    have hh := ih hs hx; exact hh

/-- The input collections are sorted lists. -/
def Lists (inp : Db F T) : Prop := ∀ r a, inp r = some a → ∃ l, a = .sorted l ∧ Sorted l

/-- The input collections hold only tuples of `L`. -/
def Bounded (inp : Db F T) (L : Interp (Tup (Val F))) : Prop := ∀ r a, inp r = some a → ∀ t ∈ tuples a.elems, L r t

theorem build_listing (hl : Lists inp) {L : Interp (Tup (Val F))} (hL : Bounded inp L) {G : Setting F} (hG : G.X = R.X) :
    ∀ {d : Ram.Dataflow F} {d'}, Injects (G.world L) d → build c R inp D d = some d' →
      (d'.listing (inputOf inp)).Nodup ∧ ∀ t ∈ d'.listing (inputOf inp), Den (G.world L) d t := by
  intro d
  induction d with
  | leaf l =>
    intro d' hs h
    cases l <;> simp only [Injects] at hs
    simp only [build] at h
    split at h
    · rename_i hr
      cases h
      obtain ⟨a, ha⟩ := Option.isSome_iff_exists.mp hr
      obtain ⟨l, rfl, hs⟩ := hl _ a ha
      simp only [DF.listing, inputOf, ha, Coll.elems]
      refine ⟨sorted_nodup hs, fun t ht => ?_⟩
      obtain ⟨e, he, rfl⟩ := List.mem_map.mp ht
      exact hL _ _ ha _ ⟨e, he, rfl⟩
    · split at h
      · cases h; exact ⟨List.Pairwise.nil, fun t ht => by simp [DF.listing] at ht⟩
      · cases h
  | un o d ih =>
    intro d' hs h
    obtain ⟨e, he⟩ := build_un h
    cases o <;> simp only [Injects] at hs <;> simp only [build, he, Option.map_some, Option.some.injEq] at h <;> subst h <;>
      obtain ⟨h1, h2⟩ := ih hs he <;> refine ⟨h1.filter _, fun t ht => ?_⟩ <;> obtain ⟨h3, h4⟩ := List.mem_filter.mp ht
    · refine ⟨h2 t h3, ?_⟩
      have := holds_iff.mp h4
      rw [← hG] at this; exact this
    · exact ⟨h2 t h3, by simpa using h4⟩
  | bin o d1 d2 _ _ => intro d' hs; cases o <;> exact hs.elim
  | project d e ih =>
    intro d' hs h
    simp only [build] at h
    obtain ⟨x, hx, rfl⟩ := Option.map_eq_some_iff.mp h
    obtain ⟨h1, h2⟩ := ih hs.1 hx
    have hev : ∀ t u, evalTo R.X e t = some u → e.eval (G.world L).X t = .ok u := fun t u h => by
      have := evalTo_some.mp h
      rw [← hG] at this; exact this
    constructor
    · refine List.pairwise_filterMap.mpr (List.Pairwise.imp_of_mem ?_ h1)
      intro a b ha hb hne u hu u' hu' he
      subst he
      exact hne (hs.2 a b u (h2 a ha) (h2 b hb) (hev _ _ hu) (hev _ _ hu'))
    · intro t ht
      obtain ⟨u, hu, hut⟩ := List.mem_filterMap.mp ht
      exact ⟨u, h2 u hu, hev _ _ hut⟩

theorem build_sharp (hl : Lists inp) {L : Interp (Tup (Val F))} (hL : Bounded inp L) {G : Setting F} (hG : G.X = R.X) :
    ∀ {d : Ram.Dataflow F} {d'}, Sharp (G.world L) d → build c R inp D d = some d' → d'.sharp (inputOf inp) := by
  intro d
  induction d with
  | leaf l =>
    intro d' hs h
    cases l <;> simp only [build] at h
    · cases h; trivial
    · cases h; trivial
    · split at h
      · cases h; trivial
      · split at h
        · cases h; trivial
        · cases h
    · obtain ⟨x, hx, h⟩ := Option.bind_eq_some_iff.mp h
      obtain ⟨y, hy, rfl⟩ := Option.map_eq_some_iff.mp h
      trivial
    · obtain ⟨x, hx, rfl⟩ := Option.map_eq_some_iff.mp h
      trivial
  | un o d ih =>
    intro d' hs h
    obtain ⟨e, he⟩ := build_un h
    have := ih hs he
    cases o <;> simp only [build, he, Option.map_some, Option.bind_some, Option.some.injEq] at h
    case joinIndexedVec r =>
      split at h
      · cases h; exact this
      · cases h
    case foreignConstraint n es =>
      obtain ⟨f, _, hf⟩ := Option.bind_eq_some_iff.mp h
      cases hf; exact this
    case foreignJoin n es =>
      obtain ⟨f, _, hf⟩ := Option.bind_eq_some_iff.mp h
      cases hf; exact this
    all_goals subst h; exact this
  | bin o d1 d2 ih1 ih2 =>
    intro d' hs h
    simp only [build] at h
    obtain ⟨e1, h1, h⟩ := Option.bind_eq_some_iff.mp h
    obtain ⟨e2, h2, rfl⟩ := Option.map_eq_some_iff.mp h
    cases o <;> simp only [Sharp] at hs
    case antijoin => exact ⟨ih1 hs.1 h1, (build_listing hl hL hG hs.2 h2).1⟩
    case difference => exact ⟨ih1 hs.1 h1, (build_listing hl hL hG hs.2 h2).1⟩
    all_goals exact ⟨ih1 hs.1 h1, ih2 hs.2 h2⟩
  | project d e ih =>
    intro d' hs h
    simp only [build] at h
    obtain ⟨x, hx, rfl⟩ := Option.map_eq_some_iff.mp h
    have hh := ih hs hx; exact hh

theorem build_readsOnly {Q : T → Prop} (hl : Lists inp) (hi : ∀ r a, inp r = some a → AllTags Q a.elems) (hR : R.TagsIn Q)
    (hred : ∀ a p g, K a p g → ∀ agg bs, R.aggs a = some agg → reduceBatches c agg inp p g = some bs → AllTags Q bs.flatten) :
    ∀ {d : Ram.Dataflow F} {d'}, KeepsWith K d → build c R inp D d = some d' → d'.readsOnly (fun j => AllTags Q (inputOf inp j)) := by
  have hinr : ∀ e : Elem (Tup (Val F)) T, Q e.tag → AllTags Q (inputOf inp (.inr e)) := by
    intro e he x hx
    simp only [inputOf, List.mem_singleton] at hx
    subst hx
    exact he
  intro d
  induction d with
  | leaf l =>
    intro d' hs h
    cases l <;> simp only [KeepsWith] at hs <;> simp only [build] at h
    · cases h; trivial
    · cases h; trivial
    · split at h
      · rename_i r hr
        cases h
        obtain ⟨a, ha⟩ := Option.isSome_iff_exists.mp hr
        show AllTags Q (inputOf inp (.inl _))
        simp only [inputOf, ha]
        exact hi _ a ha
      · split at h
        · cases h; trivial
        · cases h
    · obtain ⟨agg, hagg, h⟩ := Option.bind_eq_some_iff.mp h
      obtain ⟨bs, hbs, rfl⟩ := Option.map_eq_some_iff.mp h
      intro b hb j hj
      obtain ⟨b', hb', rfl⟩ := List.mem_map.mp hb
      obtain ⟨e, he, rfl⟩ := List.mem_map.mp hj
      exact hinr e (hred _ _ _ hs agg bs hagg hbs e (List.mem_flatten.mpr ⟨b', hb', he⟩))
    · obtain ⟨f, hf, rfl⟩ := Option.map_eq_some_iff.mp h
      intro j hj
      obtain ⟨r, hr, rfl⟩ := List.mem_map.mp hj
      exact hinr _ (hR _ f hf _ r hr)
  | un o d ih =>
    intro d' hs h
    obtain ⟨e, he⟩ := build_un h
    cases o <;> simp only [KeepsWith] at hs <;> have := ih hs he <;>
      simp only [build, he, Option.map_some, Option.bind_some, Option.some.injEq] at h
    case joinIndexedVec r =>
      split at h
      · rename_i hr
        obtain ⟨l, hl, _⟩ := hl r _ hr
        cases hl
      · cases h
    case foreignConstraint n es =>
      obtain ⟨f, hfn, hf⟩ := Option.bind_eq_some_iff.mp h
      cases hf
      refine ⟨this, fun t r hr q hq => ?_⟩
      unfold fpCheck at hr
      obtain ⟨vs, hvs, hr⟩ := Option.bind_eq_some_iff.mp hr
      split at hr
      · cases hr; cases hq
      · rename_i x hx
        cases hr
        have hq := List.mem_singleton.mp hq
        subst hq
        exact hinr _ (hR n f hfn vs x (by rw [hx]; simp))
      · cases hr
    case foreignJoin n es =>
      obtain ⟨f, hfn, hf⟩ := Option.bind_eq_some_iff.mp h
      cases hf
      refine ⟨this, fun t r hr q hq => ?_⟩
      unfold fpResults at hr
      obtain ⟨vs, hvs, rfl⟩ := Option.map_eq_some_iff.mp hr
      obtain ⟨x, hx, rfl⟩ := List.mem_map.mp hq
      exact hinr _ (hR n f hfn vs x hx)
    all_goals subst h; exact this
  | bin o d1 d2 ih1 ih2 =>
    intro d' hs h
    simp only [build] at h
    obtain ⟨e1, h1, h⟩ := Option.bind_eq_some_iff.mp h
    obtain ⟨e2, h2, rfl⟩ := Option.map_eq_some_iff.mp h
    have := (⟨ih1 hs.1 h1, ih2 hs.2 h2⟩ : e1.readsOnly (fun j => AllTags Q (inputOf inp j)) ∧ e2.readsOnly (fun j => AllTags Q (inputOf inp j)))
    cases o <;> exact this
  | project d e ih =>
    intro d' hs h
    simp only [build] at h
    obtain ⟨x, hx, rfl⟩ := Option.map_eq_some_iff.mp h
    have hh := ih hs hx; exact hh

/-- The aggregations in `K` have results with tags in `Q`, which in the world are what `red` says, if relations hold tuples of `L`. -/
def RedExact (c : Prov T W) (R : Runtime F T) (Q v : T → Prop) (L : Interp (Tup (Val F))) (K : String → String → GroupBy → Prop) (red : Aggregates F) :
    Prop :=
  ∀ a p g, K a p g → ∀ (inp : Db F T) J, (∀ r x, inp r = some x → ∃ l, x = .sorted l ∧ Sorted l ∧ AllTags Q l ∧ (∀ t, t ∈ worldOf v l ↔ J r t) ∧ ∀ t ∈ tuples l, L r t) →
    ∀ agg bs, R.aggs a = some agg → reduceBatches c agg inp p g = some bs → AllTags Q bs.flatten ∧ ∀ t, t ∈ worldOf v bs.flatten ↔ red J a p g t

/-- The results of the aggregations in `K` are among what `red` says. -/
def RedBound (c : Prov T W) (R : Runtime F T) (K : String → String → GroupBy → Prop) (red : Aggregates F) : Prop :=
  ∀ a p g, K a p g → ∀ (inp : Db F T) L, Lists inp → Bounded inp L →
    ∀ agg bs, R.aggs a = some agg → reduceBatches c agg inp p g = some bs → ∀ t ∈ tuples bs.flatten, red L a p g t

/-! ## Meaning -/

section
variable {v : T → Prop} {J : Interp (Tup (Val F))} {X : {r // r ∈ D} → Set (Tup (Val F))}

/-- The input collections hold, in the world, what the interpretation says. -/
def InputsIn (v : T → Prop) (inp : Db F T) (J : Interp (Tup (Val F))) : Prop :=
  ∀ r a, inp r = some a → ∃ l, a = .sorted l ∧ Sorted l ∧ ∀ t, t ∈ worldOf v l ↔ J r t

omit [LinearOrder (Val F)] in
theorem inWorld_inr (e : Elem (Tup (Val F)) T) (t) : t ∈ tuples (inWorld v (inputOf inp (.inr e))) ↔ e.tuple = t ∧ v e.tag := by
  rw [tuples_inWorld]
  simp [worldOf, inputOf]

omit [LinearOrder (Val F)] in
theorem inWorld_inr_ne (e : Elem (Tup (Val F)) T) : inWorld v (inputOf inp (.inr e)) ≠ [] ↔ v e.tag := by
  constructor
  · intro h
    obtain ⟨y, hy⟩ := List.exists_mem_of_ne_nil _ h
    obtain ⟨x, hx, hv, _⟩ := mem_inWorld.mp hy
    simp only [inputOf, List.mem_singleton] at hx
    subst hx
    exact hv
  · intro h
    exact List.ne_nil_of_mem (a := ⟨e.tuple, ()⟩) (mem_inWorld.mpr ⟨e, by simp [inputOf], h, rfl⟩)

theorem rel_sem_world (hi : InputsIn v inp J) (hX : ∀ r (h : r ∈ D), inp r = none → ∀ t, t ∈ X ⟨r, h⟩ ↔ J r t) {r : String} {d'}
    (h : build c R inp D (.leaf (.rel r)) = some d') (t) : t ∈ d'.sem unitProv (fun j => inWorld v (inputOf inp j)) X ↔ J r t := by
  simp only [build] at h
  split at h
  · rename_i hs
    cases h
    obtain ⟨a, ha⟩ := Option.isSome_iff_exists.mp hs
    obtain ⟨l, rfl, _, hl⟩ := hi r a ha
    simp only [DF.sem, tuples_inWorld, inputOf, ha, Coll.elems]
    exact hl t
  · rename_i hs
    split at h
    · rename_i hr
      cases h
      exact hX r hr (by simpa using hs) t
    · cases h

variable {red : Aggregates F}

theorem build_sem_static_world (hi : InputsIn v inp J) (hX : ∀ r (h : r ∈ D), inp r = none → ∀ t, t ∈ X ⟨r, h⟩ ↔ J r t) :
    ∀ {d : Ram.Dataflow F} {d'}, Static own d → build c R inp D d = some d' →
      ∀ t, t ∈ d'.sem unitProv (fun j => inWorld v (inputOf inp j)) X ↔ Den (((R.settingIn v).withRed red).world J) d t := by
  intro d
  induction d with
  | leaf l =>
    intro d' hs h t
    cases l <;> simp only [Static] at hs
    exact rel_sem_world hi hX h t
  | un o d ih =>
    intro d' hs h t
    obtain ⟨e, he⟩ := build_un h
    cases o <;> simp only [Static] at hs <;> simp only [build, he, Option.map_some, Option.some.injEq] at h <;> subst h <;> simp only [DF.sem, Den, Set.mem_setOf_eq]
    · rw [ih hs he t, holds_iff]; rfl
    · rw [ih hs he t]
    · exact ih hs he t
  | bin o d1 d2 _ _ => intro d' hs; cases o <;> simp [Static] at hs
  | project d e ih =>
    intro d' hs h t
    simp only [build] at h
    obtain ⟨x, hx, rfl⟩ := Option.map_eq_some_iff.mp h
    simp only [DF.sem, Den, Set.mem_setOf_eq, evalTo_some]
    exact exists_congr fun u => and_congr_left' (ih hs hx u)

/-- The dataflow that is built yields in the world, as a set, what the dataflow of the program means there. -/
theorem build_sem_world (hi : InputsIn v inp J) (hD : ∀ r ∈ D, r ∈ own)
    (hX : ∀ r (h : r ∈ D), inp r = none → ∀ t, t ∈ X ⟨r, h⟩ ↔ J r t)
    (hred : ∀ a p g, K a p g → ∀ agg bs, R.aggs a = some agg → reduceBatches c agg inp p g = some bs → ∀ t, t ∈ worldOf v bs.flatten ↔ red J a p g t) :
    ∀ {d : Ram.Dataflow F} {d'}, Stratified own d → ForeignOk R d → KeepsWith K d → build c R inp D d = some d' →
      ∀ t, t ∈ d'.sem unitProv (fun j => inWorld v (inputOf inp j)) X ↔ Den (((R.settingIn v).withRed red).world J) d t := by
  intro d
  induction d with
  | leaf l =>
    intro d' hs hf hq h t
    cases l
    · simp only [build] at h; cases h; rfl
    · simp only [build] at h; cases h; rfl
    · exact rel_sem_world hi hX h t
    · simp only [build] at h
      obtain ⟨agg, hagg, h⟩ := Option.bind_eq_some_iff.mp h
      obtain ⟨bs, hbs, rfl⟩ := Option.map_eq_some_iff.mp h
      refine Iff.trans ?_ (hred _ _ _ hq agg bs hagg hbs t)
      simp only [DF.sem, Set.mem_setOf_eq]
      constructor
      · rintro ⟨b, hb, j, hj, ht⟩
        obtain ⟨b', hb', rfl⟩ := List.mem_map.mp hb
        obtain ⟨e, he, rfl⟩ := List.mem_map.mp hj
        rw [inWorld_inr] at ht
        exact ⟨e, List.mem_flatten.mpr ⟨b', hb', he⟩, ht⟩
      · rintro ⟨e, he, ht⟩
        obtain ⟨b', hb', he⟩ := List.mem_flatten.mp he
        exact ⟨_, List.mem_map.mpr ⟨b', hb', rfl⟩, _, List.mem_map.mpr ⟨e, he, rfl⟩, by rw [inWorld_inr]; exact ht⟩
    · rename_i n vs
      simp only [build] at h
      obtain ⟨f, hf, rfl⟩ := Option.map_eq_some_iff.mp h
      simp only [DF.sem, Den, Set.mem_setOf_eq, Setting.world, Plan.Setting.withRed, Runtime.settingIn, hf]
      constructor
      · rintro ⟨j, hj, ht⟩
        obtain ⟨r, hr, rfl⟩ := List.mem_map.mp hj
        rw [inWorld_inr] at ht
        exact ⟨r.2, ⟨f, rfl, r.1, hr, ht.2⟩, ht.1.symm⟩
      · rintro ⟨ws, ⟨f', h1, tag, h2, h3⟩, rfl⟩
        cases h1
        exact ⟨_, List.mem_map.mpr ⟨_, h2, rfl⟩, by rw [inWorld_inr]; exact ⟨rfl, h3⟩⟩
  | un o d ih =>
    intro d' hs hf hq h t
    obtain ⟨e, he⟩ := build_un h
    cases o <;> simp only [build, he, Option.map_some, Option.bind_some, Option.some.injEq] at h <;> simp only [ForeignOk] at hf <;> simp only [KeepsWith] at hq
    case filter p =>
      subst h; simp only [DF.sem, Den, Set.mem_setOf_eq]
      rw [ih hs hf hq he t, holds_iff]; rfl
    case find k =>
      subst h; simp only [DF.sem, Den, Set.mem_setOf_eq]
      rw [ih hs hf hq he t]
    case sorted => subst h; exact ih hs hf hq he t
    case joinIndexedVec r =>
      split at h
      · rename_i hr
        obtain ⟨l, hl, _⟩ := hi r _ hr
        cases hl
      · cases h
    case foreignConstraint n es =>
      obtain ⟨f, hfn, h⟩ := Option.bind_eq_some_iff.mp h
      simp only [Option.some.injEq] at h
      subst h
      obtain ⟨hf1, hf2, hf3⟩ := hf
      simp only [DF.sem, Den, Set.mem_setOf_eq]
      constructor
      · rintro ⟨u, hu, r, hr, j, hj, hne⟩
        unfold fpCheck at hr
        obtain ⟨vs, hvs, hr⟩ := Option.bind_eq_some_iff.mp hr
        split at hr
        · cases hr; cases hj
        · rename_i x hx
          cases hr
          have hj := List.mem_singleton.mp hj
          cases hj
          have hnil : x.2 = [] := (hf3 f hfn vs).2 x (by rw [hx]; simp)
          exact ⟨(ih hs hf1 hq he t).mp hu, vs, (fpArgs_iff hf2).mp hvs, f, hfn, x.1, by rw [hx, ← hnil]; simp, inWorld_inr_ne _ |>.mp hne⟩
        · cases hr
      · rintro ⟨hu, vs, hvs, f', hf', tag, ht, hv⟩
        have e' : f' = f := Option.some.inj (hf'.symm.trans hfn)
        subst e'
        refine ⟨t, (ih hs hf1 hq he t).mpr hu, ?_⟩
        have hlen := (hf3 f' hfn vs).1
        unfold fpCheck
        rw [(fpArgs_iff (X := R.X) hf2).mpr hvs]
        simp only [Option.bind_some]
        cases hfv : f' vs with
        | nil => rw [hfv] at ht; cases ht
        | cons x xs =>
          cases xs with
          | nil =>
            rw [hfv] at ht
            have ht := List.mem_singleton.mp ht
            subst ht
            exact ⟨_, rfl, _, List.mem_singleton.mpr rfl, (inWorld_inr_ne _).mpr hv⟩
          | cons y ys => rw [hfv] at hlen; simp at hlen
    case foreignJoin n es =>
      obtain ⟨f, hfn, h⟩ := Option.bind_eq_some_iff.mp h
      simp only [Option.some.injEq] at h
      subst h
      obtain ⟨hf1, hf2⟩ := hf
      simp only [DF.sem, Den, Set.mem_setOf_eq]
      constructor
      · rintro ⟨u, hu, r, hr, j, hj, hne⟩
        unfold fpResults at hr
        obtain ⟨vs, hvs, rfl⟩ := Option.map_eq_some_iff.mp hr
        obtain ⟨x, hx, hx'⟩ := List.mem_map.mp hj
        cases hx'
        exact ⟨u, vs, x.2, (ih hs hf1 hq he u).mp hu, (fpArgs_iff hf2).mp hvs, ⟨f, hfn, x.1, hx, (inWorld_inr_ne _).mp hne⟩, rfl⟩
      · rintro ⟨u, vs, ws, hu, hvs, ⟨f', hf', tag, ht, hv⟩, rfl⟩
        have e' : f' = f := Option.some.inj (hf'.symm.trans hfn)
        subst e'
        refine ⟨u, (ih hs hf1 hq he u).mpr hu, _, by unfold fpResults; rw [(fpArgs_iff (X := R.X) hf2).mpr hvs]; rfl, _, List.mem_map.mpr ⟨_, ht, rfl⟩,
          (inWorld_inr_ne _).mpr hv⟩
  | bin o d1 d2 ih1 ih2 =>
    intro d' hs hf hq h t
    simp only [build] at h
    obtain ⟨e1, h1, h⟩ := Option.bind_eq_some_iff.mp h
    obtain ⟨e2, h2, rfl⟩ := Option.map_eq_some_iff.mp h
    have hun : ∀ a b : Unit, unitProv.minus a b = none := fun _ _ => rfl
    cases o <;> simp only [Stratified] at hs <;> simp only [DF.sem, Den, Set.mem_setOf_eq]
    · exact or_congr (ih1 hs.1 hf.1 hq.1 h1 t) (ih2 hs.2 hf.2 hq.2 h2 t)
    · constructor
      · rintro ⟨k, a, b, rfl, ⟨x, hx, hx'⟩, y, hy, hy'⟩
        exact ⟨k, a, b, ⟨x, (ih1 hs.1.stratified hf.1 hq.1 h1 x).mp hx, hx'⟩, ⟨y, (ih2 hs.2.stratified hf.2 hq.2 h2 y).mp hy, hy'⟩, rfl⟩
      · rintro ⟨k, a, b, ⟨x, hx, hx'⟩, ⟨y, hy, hy'⟩, rfl⟩
        exact ⟨k, a, b, rfl, ⟨x, (ih1 hs.1.stratified hf.1 hq.1 h1 x).mpr hx, hx'⟩, y, (ih2 hs.2.stratified hf.2 hq.2 h2 y).mpr hy, hy'⟩
    · exact and_congr (ih1 hs.1.stratified hf.1 hq.1 h1 t) (ih2 hs.2.stratified hf.2 hq.2 h2 t)
    · constructor
      · rintro ⟨x, hx, y, hy, rfl⟩
        exact ⟨x, y, (ih1 hs.1.stratified hf.1 hq.1 h1 x).mp hx, (ih2 hs.2.stratified hf.2 hq.2 h2 y).mp hy, rfl⟩
      · rintro ⟨x, y, hx, hy, rfl⟩
        exact ⟨x, (ih1 hs.1.stratified hf.1 hq.1 h1 x).mpr hx, y, (ih2 hs.2.stratified hf.2 hq.2 h2 y).mpr hy, rfl⟩
    · rw [ih1 hs.1 hf.1 hq.1 h1 t, survives_none hun]
      refine and_congr_right' (forall_congr' fun k => imp_congr_right fun _ => not_congr ?_)
      rw [static_sem unitProv (fun j => inWorld v (inputOf inp j)) X (build_static hD hs.2 h2) k]
      exact build_sem_static_world hi hX hs.2 h2 k
    · rw [ih1 hs.1 hf.1 hq.1 h1 t, survives_none hun]
      refine and_congr_right' ?_
      simp only [Option.some.injEq, forall_eq']
      rw [static_sem unitProv (fun j => inWorld v (inputOf inp j)) X (build_static hD hs.2 h2) t]
      exact not_congr (build_sem_static_world hi hX hs.2 h2 t)
  | project d e ih =>
    intro d' hs hf hq h t
    simp only [build] at h
    obtain ⟨x, hx, rfl⟩ := Option.map_eq_some_iff.mp h
    simp only [DF.sem, Den, Set.mem_setOf_eq, evalTo_some]
    exact exists_congr fun u => and_congr_left' (ih hs hf hq hx u)

end

/-! ## Bounds on what relations hold, whatever the tags are -/

section
variable {L : Interp (Tup (Val F))} {X : {r // r ∈ D} → Set (Tup (Val F))}

/-- Everything that a dataflow yields is yielded by the dataflow without subtractions, for relations that may hold more. -/
theorem build_sem_bound (hl : Lists inp) (hL : Bounded inp L) (hX : ∀ r (h : r ∈ D), ∀ t ∈ X ⟨r, h⟩, L r t)
    {red : Aggregates F}
    (hred : ∀ a p g, K a p g → ∀ agg bs, R.aggs a = some agg → reduceBatches c agg inp p g = some bs → ∀ t ∈ tuples bs.flatten, red L a p g t) :
    ∀ {d : Ram.Dataflow F} {d'}, ForeignOk R d → KeepsWith K d → build c R inp D d = some d' →
      ∀ t, t ∈ d'.sem c (inputOf inp) X → Den (((R.settingIn (fun _ => True)).withRed red).world L) (positive d) t := by
  have hinr : ∀ (e : Elem (Tup (Val F)) T) t, t ∈ tuples (inputOf inp (.inr e)) → e.tuple = t := by
    rintro e t ⟨x, hx, rfl⟩
    simp only [inputOf, List.mem_singleton] at hx
    rw [hx]
  intro d
  induction d with
  | leaf l =>
    intro d' hf hq h t ht
    cases l <;> simp only [build] at h
    · cases h; exact ht
    · cases h; exact ht
    · split at h
      · rename_i hs
        cases h
        obtain ⟨a, ha⟩ := Option.isSome_iff_exists.mp hs
        simp only [DF.sem, inputOf, ha] at ht
        exact hL _ a ha t ht
      · split at h
        · rename_i hr
          cases h
          exact hX _ hr t ht
        · cases h
    · obtain ⟨agg, hagg, h⟩ := Option.bind_eq_some_iff.mp h
      obtain ⟨bs, hbs, rfl⟩ := Option.map_eq_some_iff.mp h
      obtain ⟨b, hb, j, hj, ht⟩ := ht
      obtain ⟨b', hb', rfl⟩ := List.mem_map.mp hb
      obtain ⟨e, he, rfl⟩ := List.mem_map.mp hj
      exact hred _ _ _ hq agg bs hagg hbs t ⟨e, List.mem_flatten.mpr ⟨b', hb', he⟩, hinr _ _ ht⟩
    · obtain ⟨f, hf, rfl⟩ := Option.map_eq_some_iff.mp h
      obtain ⟨j, hj, ht⟩ := ht
      obtain ⟨r, hr, rfl⟩ := List.mem_map.mp hj
      exact ⟨r.2, ⟨f, hf, r.1, hr, trivial⟩, (hinr _ _ ht).symm⟩
  | un o d ih =>
    intro d' hf hq h t ht
    obtain ⟨e, he⟩ := build_un h
    cases o <;> simp only [build, he, Option.map_some, Option.bind_some, Option.some.injEq] at h <;> simp only [ForeignOk] at hf <;> simp only [KeepsWith] at hq
    case filter p => subst h; exact ⟨ih hf hq he t ht.1, holds_iff.mp ht.2⟩
    case find k => subst h; exact ⟨ih hf hq he t ht.1, ht.2⟩
    case sorted => subst h; exact ih hf hq he t ht
    case joinIndexedVec r =>
      split at h
      · rename_i hr
        obtain ⟨l, hl, _⟩ := hl r _ hr
        cases hl
      · cases h
    case foreignConstraint n es =>
      obtain ⟨f, hfn, h⟩ := Option.bind_eq_some_iff.mp h
      simp only [Option.some.injEq] at h
      subst h
      obtain ⟨hf1, hf2, hf3⟩ := hf
      obtain ⟨u, hu, r, hr, j, hj, hne⟩ := ht
      unfold fpCheck at hr
      obtain ⟨vs, hvs, hr⟩ := Option.bind_eq_some_iff.mp hr
      split at hr
      · cases hr; cases hj
      · rename_i x hx
        cases hr
        have hj := List.mem_singleton.mp hj
        cases hj
        have hnil : x.2 = [] := (hf3 f hfn vs).2 x (by rw [hx]; simp)
        exact ⟨ih hf1 hq he t hu, vs, (fpArgs_iff hf2).mp hvs, f, hfn, x.1, by rw [hx, ← hnil]; simp, trivial⟩
      · cases hr
    case foreignJoin n es =>
      obtain ⟨f, hfn, h⟩ := Option.bind_eq_some_iff.mp h
      simp only [Option.some.injEq] at h
      subst h
      obtain ⟨hf1, hf2⟩ := hf
      obtain ⟨u, hu, r, hr, j, hj, hne⟩ := ht
      unfold fpResults at hr
      obtain ⟨vs, hvs, rfl⟩ := Option.map_eq_some_iff.mp hr
      obtain ⟨x, hx, hx'⟩ := List.mem_map.mp hj
      cases hx'
      exact ⟨u, vs, x.2, ih hf1 hq he u hu, (fpArgs_iff hf2).mp hvs, ⟨f, hfn, x.1, hx, trivial⟩, rfl⟩
  | bin o d1 d2 ih1 ih2 =>
    intro d' hf hq h t ht
    simp only [build] at h
    obtain ⟨e1, h1, h⟩ := Option.bind_eq_some_iff.mp h
    obtain ⟨e2, h2, rfl⟩ := Option.map_eq_some_iff.mp h
    have i1 := ih1 hf.1 hq.1 h1
    have i2 := ih2 hf.2 hq.2 h2
    cases o
    · exact ht.imp (i1 t) (i2 t)
    · obtain ⟨k, a, b, rfl, ⟨x, hx, hx'⟩, y, hy, hy'⟩ := ht
      exact ⟨k, a, b, ⟨x, i1 x hx, hx'⟩, ⟨y, i2 y hy, hy'⟩, rfl⟩
    · exact ⟨i1 t ht.1, i2 t ht.2⟩
    · obtain ⟨x, hx, y, hy, rfl⟩ := ht
      exact ⟨x, y, i1 x hx, i2 y hy, rfl⟩
    · exact i1 t ht.1
    · exact i1 t ht.1
  | project d e ih =>
    intro d' hf hq h t ht
    simp only [build] at h
    obtain ⟨x, hx, rfl⟩ := Option.map_eq_some_iff.mp h
    obtain ⟨u, hu, hut⟩ := ht
    exact ⟨u, ih hf hq hx u hu, evalTo_some.mp hut⟩

end

end Scallop.Exec
