import Verif.Proof.WorldAgg
import Verif.Proof.Aggregate3
import Verif.Model.AggRuntime
import Verif.Props.Aggregate

/-!
# Lemmas: aggregators in one world

The tags of aggregates are products of tags and negated tags; it is enough that multiplying with a negated tag is exact.
-/

namespace Scallop.Exec

open Scallop.Ram Scallop.Plan Scallop.Agg

section
variable {α β T W : Type} {c : Prov T W} {Q v : T → Prop}

private abbrev at1 (v : T → Prop) : T → Unit → Prop := fun t _ => v t

theorem worldFold_at (hc : c.ExactAt Q v) (hn : c.CoExactAt Q v) (s : List Nat) (l : List (Elem α T × Nat)) (hl : ∀ p ∈ l, Q p.1.tag) :
    ∀ a, Q a → ∃ t, l.foldl (worldStep c s) (some a) = some t ∧ Q t ∧ (v t ↔ v a ∧ ∀ p ∈ l, (p.2 ∈ s ↔ v p.1.tag)) := by
  induction l with
  | nil => intro a ha; exact ⟨a, rfl, ha, by simp⟩
  | cons p l ih =>
    intro a ha
    have hp := hl p (by simp)
    have hl' : ∀ p ∈ l, Q p.1.tag := fun q hq => hl q (by simp [hq])
    by_cases hs : p.2 ∈ s
    · obtain ⟨t, h1, h2, h3⟩ := ih hl' (c.mult a p.1.tag) (hc.multIn _ _ ha hp)
      refine ⟨t, ?_, h2, ?_⟩
      · rw [List.foldl_cons, ← h1]
        congr 1
        simp [worldStep, hs]
      · have : v (c.mult a p.1.tag) ↔ v a ∧ v p.1.tag := ⟨hc.mult _ _, fun h => hc.mult' _ _ ha hp h.1 h.2⟩
        rw [h3, this, List.forall_mem_cons]
        simp only [hs, true_iff, and_assoc]
    · obtain ⟨n, hn1, hn2, hn3⟩ := hn a p.1.tag ha hp
      obtain ⟨t, h1, h2, h3⟩ := ih hl' (c.mult a n) hn2
      refine ⟨t, ?_, h2, ?_⟩
      · rw [List.foldl_cons, ← h1]
        congr 1
        simp [worldStep, hs, hn1]
      · rw [h3, hn3, List.forall_mem_cons]
        simp only [hs, false_iff, and_assoc]

theorem worldTag_at (hc : c.ExactAt Q v) (hn : c.CoExactAt Q v) {l : List (Elem α T)} (hl : AllTags Q l) {s : List Nat} (hs : s ∈ powerset l.length) :
    ∃ t, worldTag c l s = some t ∧ Q t ∧ (v t ↔ s = worldSet (at1 v) () l) := by
  obtain ⟨t, h1, h2, h3⟩ := worldFold_at hc hn s l.zipIdx (fun p hp => hl p.1 (by
    have := List.mem_map_of_mem (f := Prod.fst) hp; rwa [List.zipIdx_map_fst] at this)) c.one hc.oneIn
  refine ⟨t, h1, h2, ?_⟩
  rw [h3, ← agree_iff (holds := at1 v) () l hs]
  exact ⟨fun h => h.2, fun h => ⟨hc.one, h⟩⟩

theorem count_at (hc : c.ExactAt Q v) (hn : c.CoExactAt Q v) {l : List (Elem α T)} (hl : AllTags Q l) :
    AllTags Q (count c false l) ∧ trueIn (at1 v) () (count c false l) = [(trueIn (at1 v) () l).length] := by
  classical
  cases l with
  | nil => exact ⟨by simp [count, AllTags, hc.oneIn], by simp [count, trueIn, hc.one]⟩
  | cons b l =>
    simp only [count, Bool.false_eq_true, if_false, List.isEmpty_cons]
    have key : ∀ s ∈ powerset (b :: l).length, ∀ e, countResult c (b :: l) s = some e → Q e.tag ∧ (v e.tag ↔ s = worldSet (at1 v) () (b :: l)) := by
      intro s hs e he
      unfold countResult at he
      obtain ⟨t', ht', rfl⟩ := Option.map_eq_some_iff.1 he
      obtain ⟨t'', ht2, h⟩ := worldTag_at hc hn hl hs
      rw [ht'] at ht2
      obtain rfl := Option.some.inj ht2
      exact h
    refine ⟨fun e he => ?_, ?_⟩
    · obtain ⟨s, hs, he⟩ := List.mem_filterMap.mp he
      exact (key s hs e he).1
    · obtain ⟨t, ht, _, hti⟩ := worldTag_at hc hn hl (worldSet_mem (holds := at1 v) () (b :: l))
      rw [← length_worldSet]
      exact trueIn_filterMap (powerset_nodup _) (worldSet_mem (holds := at1 v) () (b :: l)) (e := ⟨_, t⟩) (by rw [countResult, ht]; rfl)
        (fun s hs e he => (key s hs e he).2)

theorem multiWorld_at (hc : c.ExactAt Q v) (hn : c.CoExactAt Q v) {f : List α → Option β} {l : List (Elem α T)} (hl : AllTags Q l) {res : List (Elem β T)}
    (hr : multiWorld c f l = some res) : AllTags Q res ∧ ∃ x, f (trueIn (at1 v) () l) = some x ∧ trueIn (at1 v) () res = [x] := by
  obtain ⟨rfl, htot⟩ := multiWorld_eq hr
  have key : ∀ s ∈ powerset l.length, ∀ e, (worldResult c f l s).join = some e → Q e.tag ∧ (v e.tag ↔ s = worldSet (at1 v) () l) := by
    intro s hs e he
    rw [Option.join_eq_some_iff] at he
    obtain ⟨ts, -, -, ht'⟩ := worldResult_some he
    obtain ⟨t'', ht2, h⟩ := worldTag_at hc hn hl hs
    rw [ht'] at ht2
    obtain rfl := Option.some.inj ht2
    exact h
  refine ⟨fun e he => ?_, ?_⟩
  · obtain ⟨s, hs, he⟩ := List.mem_filterMap.mp he
    exact (key s hs e he).1
  · obtain ⟨t, ht, _, hti⟩ := worldTag_at hc hn hl (worldSet_mem (holds := at1 v) () l)
    obtain ⟨o, ho⟩ := htot _ (worldSet_mem (holds := at1 v) () l)
    have ho' := ho
    unfold worldResult at ho'
    rw [chosen_worldSet, Option.bind_some, ht] at ho'
    obtain ⟨x, hx, rfl⟩ := Option.map_eq_some_iff.1 ho'
    exact ⟨x, hx, trueIn_filterMap (powerset_nodup _) (worldSet_mem (holds := at1 v) () l) (e := ⟨x, t⟩) (by rw [ho]; rfl) (fun s hs e he => (key s hs e he).2)⟩

theorem existsFold_at (hc : c.ExactAt Q v) (hn : c.CoExactAt Q v) (l : List (Elem α T)) (hl : AllTags Q l) :
    (∀ t, (l.foldl (existsStep c) (none, some c.one)).1 = some t → Q t ∧ (v t ↔ ∃ e ∈ l, v e.tag)) ∧
    ((l.foldl (existsStep c) (none, some c.one)).1 = none → l = []) ∧
    ∃ t, (l.foldl (existsStep c) (none, some c.one)).2 = some t ∧ Q t ∧ (v t ↔ ∀ e ∈ l, ¬ v e.tag) := by
  induction l using List.reverseRecOn with
  | nil => exact ⟨by simp, by simp, c.one, rfl, hc.oneIn, by simp [hc.one]⟩
  | append_singleton l e ih =>
    have he : Q e.tag := hl e (by simp)
    obtain ⟨i1, i2, t2, i3, i4, i5⟩ := ih (fun x hx => hl x (by simp [hx]))
    rw [List.foldl_append, List.foldl_cons, List.foldl_nil]
    generalize l.foldl (existsStep c) (none, some c.one) = s at *
    obtain ⟨s1, s2⟩ := s
    simp only at i1 i2 i3
    subst i3
    obtain ⟨n, hn1, hn2, hn3⟩ := hn t2 e.tag i4 he
    refine ⟨fun t ht => ?_, ?_, c.mult t2 n, by simp [existsStep, hn1], hn2, ?_⟩
    · cases s1 with
      | none =>
        obtain rfl := i2 rfl
        simp only [existsStep, Option.some.injEq] at ht
        subst ht
        exact ⟨he, by simp⟩
      | some a =>
        obtain ⟨j1, j2⟩ := i1 a rfl
        simp only [existsStep, Option.some.injEq] at ht
        subst ht
        refine ⟨hc.addIn _ _ j1 he, ?_⟩
        have : v (c.add a e.tag) ↔ v a ∨ v e.tag := ⟨hc.add _ _, hc.add' _ _ j1 he⟩
        rw [this, j2]
        simp [or_and_right, exists_or]
    · cases s1 <;> simp [existsStep]
    · rw [hn3, i5]
      simp [or_imp, forall_and]

theorem exists_at (hc : c.ExactAt Q v) (hn : c.CoExactAt Q v) {l : List (Elem α T)} (hl : AllTags Q l) :
    AllTags Q («exists» c false l) ∧ ∀ b, b ∈ trueIn (at1 v) () («exists» c false l) ↔ b = !(trueIn (at1 v) () l).isEmpty := by
  obtain ⟨h1, h2, t2, h3, h4, h5⟩ := existsFold_at hc hn l hl
  have hem : (trueIn (at1 v) () l).isEmpty = true ↔ ∀ e ∈ l, ¬ v e.tag := by
    rw [List.isEmpty_iff, List.eq_nil_iff_forall_not_mem]
    simp only [mem_trueIn, not_exists, not_and]
    exact ⟨fun h e he hv => h e.tuple e he hv rfl, fun h t e he hv _ => h e he hv⟩
  have hmem : ∀ e, e ∈ «exists» c false l ↔ (∃ t, (l.foldl (existsStep c) (none, some c.one)).1 = some t ∧ e = ⟨true, t⟩) ∨ e = ⟨false, t2⟩ := by
    intro e
    simp only [«exists», Bool.false_eq_true, if_false, h3, List.mem_append, List.mem_map, Option.mem_toList, Option.some.injEq]
    refine or_congr ⟨fun ⟨t, h, h'⟩ => ⟨t, h, h'.symm⟩, fun ⟨t, h, h'⟩ => ⟨t, h, h'.symm⟩⟩ ⟨?_, ?_⟩
    · rintro ⟨t, rfl, rfl⟩; rfl
    · rintro rfl; exact ⟨t2, rfl, rfl⟩
  refine ⟨fun e he => ?_, fun b => ?_⟩
  · rcases (hmem e).mp he with ⟨t, ht, rfl⟩ | rfl
    · exact (h1 t ht).1
    · exact h4
  · rw [mem_trueIn]
    constructor
    · rintro ⟨e, he, hv, rfl⟩
      rcases (hmem e).mp he with ⟨t, ht, rfl⟩ | rfl
      · obtain ⟨x, hx, hxv⟩ := (h1 t ht).2.mp hv
        have : ¬ (trueIn (at1 v) () l).isEmpty = true := fun h => hem.mp h x hx hxv
        simpa using this
      · have := hem.mpr (h5.mp hv)
        simp [this]
    · rintro rfl
      by_cases h : (trueIn (at1 v) () l).isEmpty = true
      · exact ⟨⟨false, t2⟩, (hmem _).mpr (.inr rfl), h5.mpr (hem.mp h), by simp [h]⟩
      · have hx : ∃ e ∈ l, v e.tag := by
          by_contra hx
          exact h (hem.mpr (fun e he hv => hx ⟨e, he, hv⟩))
        cases ho : (l.foldl (existsStep c) (none, some c.one)).1 with
        | none => obtain rfl := h2 ho; simp at hx
        | some t => exact ⟨⟨true, t⟩, (hmem _).mpr (.inl ⟨t, ho, rfl⟩), (h1 t ho).2.mpr hx, by simp [h]⟩

theorem plainFold_at {V : Type} (hc : c.ExactAt Q v) (hn : c.CoExactAt Q v) (l : List (Elem (Tup V) T)) (hl : AllTags Q l) :
    Q (l.foldl (plainStep c) (c.one, [])).1 ∧ (v (l.foldl (plainStep c) (c.one, [])).1 ↔ trueIn (at1 v) () l = []) ∧
    AllTags Q (l.foldl (plainStep c) (c.one, [])).2 ∧ trueIn (at1 v) () (l.foldl (plainStep c) (c.one, [])).2 = (trueIn (at1 v) () l).head?.toList := by
  classical
  induction l using List.reverseRecOn with
  | nil => exact ⟨hc.oneIn, by simp [hc.one, trueIn], by simp [AllTags], by simp [trueIn]⟩
  | append_singleton l e ih =>
    have he : Q e.tag := hl e (by simp)
    obtain ⟨i1, i2, i3, i4⟩ := ih (fun x hx => hl x (by simp [hx]))
    rw [List.foldl_append, List.foldl_cons, List.foldl_nil]
    generalize l.foldl (plainStep c) (c.one, []) = s at *
    obtain ⟨f, rs⟩ := s
    simp only at i1 i2 i3 i4
    obtain ⟨n, hn1, hn2, hn3⟩ := hn f e.tag i1 he
    have hm : v (c.mult f e.tag) ↔ v f ∧ v e.tag := ⟨hc.mult _ _, fun h => hc.mult' _ _ i1 he h.1 h.2⟩
    simp only [plainStep, hn1, Option.map_some]
    refine ⟨hn2, ?_, ?_, ?_⟩
    · rw [hn3, i2, trueIn_append]
      by_cases hv : v e.tag <;> simp [trueIn, hv]
    · intro x hx
      rcases List.mem_append.mp hx with hx | hx
      · exact i3 x hx
      · rw [List.mem_singleton] at hx; subst hx; exact hc.multIn _ _ i1 he
    · rw [trueIn_append, trueIn_append, i4]
      have h1 : trueIn (at1 v) () [(⟨e.tuple, c.mult f e.tag⟩ : Elem (Tup V) T)] = if trueIn (at1 v) () l = [] ∧ v e.tag then [e.tuple] else [] := by
        by_cases h : trueIn (at1 v) () l = [] ∧ v e.tag
        · rw [if_pos h, trueIn]; simp [hm, i2, h.1, h.2]
        · rw [if_neg h, trueIn]; simp [hm, i2]; tauto
      rw [h1]
      cases hl' : trueIn (at1 v) () l with
      | nil => by_cases hv : v e.tag <;> simp [trueIn, hv]
      | cons a m => simp

end

section
variable {F T W : Type} [LinearOrder (Val F)] {c : Prov T W} {Q v : T → Prop}

theorem mem_trueOnes_map {α : Type} {g : α → Tup (Val F)} {l : List (Elem α T)} {t} :
    t ∈ worldOf v (l.map (fun e => (⟨g e.tuple, e.tag⟩ : Elem (Tup (Val F)) T))) ↔ ∃ a ∈ trueIn (at1 v) () l, t = g a := by
  simp only [worldOf, Set.mem_setOf_eq, List.mem_map, mem_trueIn]
  constructor
  · rintro ⟨_, ⟨e, he, rfl⟩, rfl, hv⟩; exact ⟨e.tuple, ⟨e, he, hv, rfl⟩, rfl⟩
  · rintro ⟨_, ⟨e, he, hv, rfl⟩, rfl⟩; exact ⟨_, ⟨e, he, rfl⟩, rfl, hv⟩

theorem minMax_at (hc : c.ExactAt Q v) (hn : c.CoExactAt Q v) (isMin : Bool) : AggExactAt (F := F) Q v (minMaxAgg c isMin) (worldMinMax isMin) := by
  classical
  intro l rs hs hl hr
  have hr' : rs = ((if isMin then l else l.reverse).foldl (plainStep c) (c.one, [])).2 := by
    simp only [minMaxAgg, minMax, Bool.false_eq_true, if_false, plainMinMax_eq, Option.some.injEq] at hr
    exact hr.symm
  obtain ⟨-, -, h3, h4⟩ := plainFold_at hc hn (if isMin then l else l.reverse) (by cases isMin <;> simpa [AllTags] using hl)
  rw [← hr'] at h3 h4
  refine ⟨h3, fun t => ?_⟩
  have h4' : trueOnes v rs = (trueOnes v (if isMin then l else l.reverse)).head?.toList := h4
  rw [← mem_trueOnes, h4']
  have hp : (trueOnes v l).Pairwise (· < ·) := (trueOnes_lists hs (fun t => Iff.rfl)).1
  have htr : trueOnes v (if isMin then l else l.reverse) = if isMin then trueOnes v l else (trueOnes v l).reverse := by
    cases isMin with
    | true => rfl
    | false => simp [trueIn_reverse]
  rw [htr]
  generalize trueOnes v l = m at hp
  simp only [worldMinMax, List.mem_filter, decide_eq_true_eq]
  cases isMin with
  | true =>
    simp only [if_true, AsExtreme]
    cases m with
    | nil => simp
    | cons a m =>
      rw [List.pairwise_cons] at hp
      simp only [List.head?_cons, Option.toList_some, List.mem_singleton]
      constructor
      · rintro rfl
        refine ⟨by simp, fun u hu => ?_⟩
        rcases List.mem_cons.mp hu with rfl | hu
        · exact le_rfl
        · exact (hp.1 u hu).le
      · rintro ⟨ht, hu⟩
        rcases List.mem_cons.mp ht with rfl | ht
        · rfl
        · exact absurd (hp.1 t ht) (not_lt.mpr (hu a (by simp)))
  | false =>
    simp only [Bool.false_eq_true, if_false, AsExtreme]
    induction m using List.reverseRecOn with
    | nil => simp
    | append_singleton m a _ =>
      rw [List.pairwise_append] at hp
      have hlt : ∀ x ∈ m, x < a := fun x hx => hp.2.2 x hx a (by simp)
      simp only [List.reverse_append, List.reverse_cons, List.reverse_nil, List.nil_append, List.singleton_append, List.head?_cons, Option.toList_some,
        List.mem_singleton]
      constructor
      · rintro rfl
        refine ⟨by simp, fun u hu => ?_⟩
        rcases List.mem_append.mp hu with hu | hu
        · exact (hlt u hu).le
        · rw [List.mem_singleton] at hu; exact hu.le
      · rintro ⟨ht, hu⟩
        rcases List.mem_append.mp ht with ht | ht
        · exact absurd (hlt t ht) (not_lt.mpr (hu a (by simp)))
        · exact List.mem_singleton.mp ht

end

end Scallop.Exec
