import Verif.Model.Group
import Verif.Proof.Operators
import Mathlib.Data.List.TakeWhile

/-!
# Lemmas about grouping
-/

namespace Scallop.Agg

set_option linter.unusedSectionVars false

variable {V T W α β : Type*} [LinearOrder V]

/-- The elements with a given key, in order. -/
def groupOf (k : Tup V) (l : List (Tup V × Elem (Tup V) T)) : List (Elem (Tup V) T) := (l.filter (fun p => p.1 = k)).map Prod.snd

theorem groupOf_append (k : Tup V) (l m : List (Tup V × Elem (Tup V) T)) : groupOf k (l ++ m) = groupOf k l ++ groupOf k m := by simp [groupOf]

theorem groupOf_ne {k : Tup V} {l : List (Tup V × Elem (Tup V) T)} (h : ∀ p ∈ l, p.1 ≠ k) : groupOf k l = [] := by
  rw [groupOf, List.filter_eq_nil_iff.2 (by simpa using h)]; rfl

theorem groupOf_eq {k : Tup V} {l : List (Tup V × Elem (Tup V) T)} (h : ∀ p ∈ l, p.1 = k) : groupOf k l = l.map Prod.snd := by
  rw [groupOf, List.filter_eq_self.2 (by simpa using h)]

theorem groupOf_cons_ne {k : Tup V} {p : Tup V × Elem (Tup V) T} {l : List (Tup V × Elem (Tup V) T)} (h : p.1 ≠ k) : groupOf k (p :: l) = groupOf k l := by
  rw [show p :: l = [p] ++ l from rfl, groupOf_append, groupOf_ne (l := [p]) (by simpa using h)]; rfl

/-- Collect the results of a function on a list. -/
def flatM (f : α → Option (List β)) (l : List α) : Option (List β) := (l.mapM f).map List.flatten

theorem flatM_nil (f : α → Option (List β)) : flatM f [] = some [] := rfl

theorem flatM_cons (f : α → Option (List β)) (a : α) (l : List α) : flatM f (a :: l) = (f a).bind (fun r => (flatM f l).map (fun s => r ++ s)) := by
  rw [flatM, List.mapM_cons, flatM]
  cases f a with
  | none => rfl
  | some r => cases l.mapM f with
    | none => rfl
    | some s => rfl

theorem flatM_append (f : α → Option (List β)) (l m : List α) :
    flatM f (l ++ m) = (flatM f l).bind (fun r => (flatM f m).map (fun s => r ++ s)) := by
  induction l with
  | nil => simp [flatM_nil]
  | cons a l ih =>
    rw [List.cons_append, flatM_cons, ih, flatM_cons]
    cases f a with
    | none => rfl
    | some r => cases flatM f l with
      | none => rfl
      | some s => cases flatM f m with
        | none => rfl
        | some t => simp

theorem flatM_congr {f g : α → Option (List β)} {l : List α} (h : ∀ a ∈ l, f a = g a) : flatM f l = flatM g l := by
  induction l with
  | nil => rfl
  | cons a l ih => rw [flatM_cons, flatM_cons, h a (by simp), ih (fun x hx => h x (by simp [hx]))]

/-! ### Implicit groups -/

theorem implicitLoop_spec (agg : Aggregator V T) : ∀ (rest : List (Tup V × Elem (Tup V) T)) (key : Tup V) (group : List (Elem (Tup V) T)),
    (rest.map Prod.fst).Pairwise (· ≤ ·) → (∀ p ∈ rest, key ≤ p.1) →
    ∃ keys : List (Tup V), keys.Pairwise (· < ·) ∧ (∀ k, k ∈ keys ↔ k = key ∨ ∃ p ∈ rest, p.1 = k) ∧
      implicitLoop agg key group rest = flatM (fun k => consolidate agg k (groupOf k (group.map (fun e => (key, e)) ++ rest))) keys := by
  intro rest
  induction rest with
  | nil =>
    intro key group _ _
    refine ⟨[key], by simp, by simp, ?_⟩
    rw [implicitLoop, flatM_cons, List.append_nil, groupOf_eq (by simp), List.map_map]
    simp only [Function.comp_def, List.map_id']
    cases consolidate agg key group with
    | none => rfl
    | some r => simp [flatM_nil]
  | cons p rest ih =>
    obtain ⟨k, e⟩ := p
    intro key group hs hk
    rw [List.map_cons, List.pairwise_cons] at hs
    rw [implicitLoop]
    by_cases heq : k = key
    · subst heq
      rw [if_pos rfl]
      obtain ⟨keys, h1, h2, h3⟩ := ih k (group ++ [e]) hs.2 (fun p hp => hk p (by simp [hp]))
      refine ⟨keys, h1, fun x => ?_, ?_⟩
      · rw [h2]; simp only [List.mem_cons, exists_eq_or_imp]
        constructor
        · rintro (rfl | h)
          · exact Or.inl rfl
          · exact Or.inr (Or.inr h)
        · rintro (rfl | rfl | h)
          · exact Or.inl rfl
          · exact Or.inl rfl
          · exact Or.inr h
      · rw [h3, List.map_append, List.append_assoc]; rfl
    · rw [if_neg heq]
      have hlt : key < k := lt_of_le_of_ne (hk (k, e) (by simp)) (Ne.symm heq)
      have hge : ∀ p ∈ rest, k ≤ p.1 := fun p hp => hs.1 p.1 (List.mem_map_of_mem hp)
      obtain ⟨keys, h1, h2, h3⟩ := ih k [e] hs.2 hge
      have hkeys : ∀ x ∈ keys, k ≤ x := by
        intro x hx
        rcases (h2 x).1 hx with rfl | ⟨p, hp, rfl⟩
        · exact le_refl _
        · exact hge p hp
      refine ⟨key :: keys, List.pairwise_cons.2 ⟨fun x hx => lt_of_lt_of_le hlt (hkeys x hx), h1⟩, fun x => ?_, ?_⟩
      · rw [List.mem_cons, h2]; simp only [List.mem_cons, exists_eq_or_imp, @eq_comm _ k x]
      · rw [flatM_cons, groupOf_append, groupOf_eq (by simp), groupOf_ne (k := key) (l := (k, e) :: rest)]
        · rw [h3, List.map_map, List.append_nil]
          simp only [Function.comp_def, List.map_id']
          rw [flatM_congr (g := fun x => consolidate agg x (groupOf x (group.map (fun e => (key, e)) ++ (k, e) :: rest)))]
          intro x hx
          rw [groupOf_append x (group.map (fun e => (key, e))), groupOf_ne (k := x) (l := group.map (fun e => (key, e)))]
          · rfl
          · intro p hp
            obtain ⟨y, _, rfl⟩ := List.mem_map.1 hp
            exact ne_of_lt (lt_of_lt_of_le hlt (hkeys x hx))
        · intro p hp
          rcases List.mem_cons.1 hp with rfl | hp
          · exact heq
          · exact ne_of_gt (lt_of_lt_of_le hlt (hge p hp))

/-! ### Groups by join -/

/-- The results for one element of the left side. -/
def joinOne (c : Prov T W) (agg : Aggregator V T) (j : List (Tup V × Elem (Tup V) T)) (p : Tup V × Elem (Tup V) T) : Option (List (Elem (Tup V) T)) :=
  (agg (groupOf p.1 j)).map (List.map (fun r => ⟨.tup [p.1, p.2.tuple, r.tuple], c.mult p.2.tag r.tag⟩))

theorem joinOne_group (c : Prov T W) (agg : Aggregator V T) (j : List (Tup V × Elem (Tup V) T)) (k : Tup V) (a : Elem (Tup V) T)
    (l : List (Tup V × Elem (Tup V) T)) (hl : ∀ p ∈ l, p.1 = k) :
    flatM (joinOne c agg j) ((k, a) :: l) = joinGroupResult c agg (k, a :: l.map Prod.snd, groupOf k j) := by
  simp only [joinGroupResult]
  cases h : agg (groupOf k j) with
  | none => rw [flatM_cons, joinOne, h]; rfl
  | some rs =>
    have : ∀ l' : List (Tup V × Elem (Tup V) T), (∀ p ∈ l', p.1 = k) →
        flatM (joinOne c agg j) l' = some ((l'.map Prod.snd).flatMap (fun a => rs.map (fun r => ⟨.tup [k, a.tuple, r.tuple], c.mult a.tag r.tag⟩))) := by
      intro l' hl'
      induction l' with
      | nil => rfl
      | cons p l' ih =>
        have hp : p.1 = k := hl' p (by simp)
        rw [flatM_cons, joinOne, hp, h, ih (fun x hx => hl' x (by simp [hx]))]
        rfl
    rw [this ((k, a) :: l) (by simpa using hl)]; rfl

theorem groupOf_split {k : Tup V} {b : Elem (Tup V) T} {j : List (Tup V × Elem (Tup V) T)} (hs : (((k, b) :: j).map Prod.fst).Pairwise (· ≤ ·)) :
    groupOf k ((k, b) :: j) = b :: (j.takeWhile (fun p => p.1 = k)).map Prod.snd ∧
    ∀ p ∈ j.dropWhile (fun p => p.1 = k), k < p.1 := by
  rw [List.map_cons, List.pairwise_cons] at hs
  have hd : ∀ p ∈ j.dropWhile (fun p => p.1 = k), k < p.1 := by
    have hsub : (j.dropWhile (fun p => p.1 = k)).Sublist j := (List.dropWhile_suffix _).sublist
    cases hde : j.dropWhile (fun p => p.1 = k) with
    | nil => simp
    | cons q D =>
      have hq : q.1 ≠ k := by
        have := List.head_dropWhile_not (fun p : Tup V × Elem (Tup V) T => decide (p.1 = k)) (l := j) (by rw [hde]; simp)
        simp only [hde, List.head_cons] at this
        simpa using this
      have hqk : k < q.1 := lt_of_le_of_ne (hs.1 q.1 (List.mem_map_of_mem (hsub.subset (by rw [hde]; simp)))) (Ne.symm hq)
      have hp2 := hs.2.sublist (hsub.map Prod.fst)
      rw [hde, List.map_cons, List.pairwise_cons] at hp2
      intro p hp
      rcases List.mem_cons.1 hp with rfl | hp
      · exact hqk
      · exact lt_of_lt_of_le hqk (hp2.1 p.1 (List.mem_map_of_mem hp))
  refine ⟨?_, hd⟩
  have hj : j = j.takeWhile (fun p => p.1 = k) ++ j.dropWhile (fun p => p.1 = k) := List.takeWhile_append_dropWhile.symm
  have ht : ∀ p ∈ j.takeWhile (fun p => p.1 = k), p.1 = k := fun p hp => by simpa using List.mem_takeWhile_imp hp
  rw [show (k, b) :: j = [(k, b)] ++ j from rfl, groupOf_append, groupOf_eq (l := [(k, b)]) (by simp)]
  conv_lhs => rw [hj]
  rw [groupOf_append, groupOf_eq ht, groupOf_ne (fun p hp => ne_of_gt (hd p hp))]
  simp

theorem collectGroups_spec (c : Prov T W) (agg : Aggregator V T) : ∀ (fuel : Nat) (i j : List (Tup V × Elem (Tup V) T)),
    i.length + j.length < fuel → (i.map Prod.fst).Pairwise (· ≤ ·) → (j.map Prod.fst).Pairwise (· ≤ ·) →
    ∃ gs, collectGroups fuel i j = some gs ∧ flatM (joinGroupResult c agg) gs = flatM (joinOne c agg j) i
  | 0, i, j, h, _, _ => by omega
  | fuel + 1, [], j, _, _, _ => ⟨[], rfl, rfl⟩
  | fuel + 1, (k, a) :: i, [], h, hi, hj => by
    obtain ⟨gs, h1, h2⟩ := collectGroups_spec c agg fuel i [] (by simp at h ⊢; omega) (by rw [List.map_cons, List.pairwise_cons] at hi; exact hi.2) hj
    refine ⟨(k, [a], []) :: gs, by rw [collectGroups, h1]; rfl, ?_⟩
    rw [flatM_cons, flatM_cons, h2]
    congr 1
    simp only [joinGroupResult, joinOne, groupOf, List.filter_nil, List.map_nil]
    cases agg [] with
    | none => rfl
    | some rs => simp
  | fuel + 1, (k, a) :: i, (k', b) :: j, h, hi, hj => by
    have hi' := hi; have hj' := hj
    rw [List.map_cons, List.pairwise_cons] at hi' hj'
    rw [collectGroups]
    simp only [List.length_cons] at h
    by_cases heq : k = k'
    · subst heq
      rw [if_pos rfl]
      obtain ⟨g1, d1⟩ := groupOf_split hi
      obtain ⟨g2, d2⟩ := groupOf_split hj
      have hsi : (i.dropWhile (fun p => p.1 = k)).Sublist i := (List.dropWhile_suffix _).sublist
      have hsj : (j.dropWhile (fun p => p.1 = k)).Sublist j := (List.dropWhile_suffix _).sublist
      obtain ⟨gs, h1, h2⟩ := collectGroups_spec c agg fuel (i.dropWhile (fun p => p.1 = k)) (j.dropWhile (fun p => p.1 = k))
        (by have := hsi.length_le; have := hsj.length_le; omega) (hi'.2.sublist (hsi.map _)) (hj'.2.sublist (hsj.map _))
      refine ⟨_, by rw [h1]; rfl, ?_⟩
      have hie : (k, a) :: i = ((k, a) :: i.takeWhile (fun p => p.1 = k)) ++ i.dropWhile (fun p => p.1 = k) := by
        rw [List.cons_append, List.takeWhile_append_dropWhile]
      rw [flatM_cons, h2, hie, flatM_append, joinOne_group _ _ _ _ _ _ (fun p hp => by simpa using List.mem_takeWhile_imp hp), g2]
      congr 2
      funext r
      congr 1
      apply flatM_congr
      intro p hp
      rw [joinOne, joinOne]
      congr 2
      have hlt := d1 p hp
      have hje : (k, b) :: j = ((k, b) :: j.takeWhile (fun p => p.1 = k)) ++ j.dropWhile (fun p => p.1 = k) := by
        rw [List.cons_append, List.takeWhile_append_dropWhile]
      rw [hje, groupOf_append, groupOf_ne (l := (k, b) :: j.takeWhile (fun p => p.1 = k)), List.nil_append]
      intro q hq
      rcases List.mem_cons.1 hq with rfl | hq
      · exact ne_of_lt hlt
      · rw [show q.1 = k by simpa using List.mem_takeWhile_imp hq]; exact ne_of_lt hlt
    · rw [if_neg heq]
      by_cases hlt : k < k'
      · rw [if_pos hlt]
        obtain ⟨gs, h1, h2⟩ := collectGroups_spec c agg fuel i ((k', b) :: j) (by simp; omega) hi'.2 hj
        refine ⟨_, by rw [h1]; rfl, ?_⟩
        rw [flatM_cons, flatM_cons, h2]
        congr 1
        have hg : groupOf k ((k', b) :: j) = [] := groupOf_ne (by
          intro p hp
          rcases List.mem_cons.1 hp with rfl | hp
          · exact Ne.symm heq
          · exact ne_of_gt (lt_of_lt_of_le hlt (hj'.1 p.1 (List.mem_map_of_mem hp))))
        simp only [joinGroupResult, joinOne, hg]
        cases agg [] with
        | none => rfl
        | some rs => simp
      · rw [if_neg hlt]
        have hgt : k' < k := lt_of_le_of_ne (not_lt.1 hlt) (Ne.symm heq)
        obtain ⟨gs, h1, h2⟩ := collectGroups_spec c agg fuel ((k, a) :: i) j (by simp; omega) hi hj'.2
        refine ⟨gs, h1, ?_⟩
        rw [h2]
        apply flatM_congr
        intro p hp
        rw [joinOne, joinOne, groupOf_cons_ne]
        refine ne_of_lt (lt_of_lt_of_le hgt ?_)
        rcases List.mem_cons.1 hp with rfl | hp
        · exact le_refl _
        · exact hi'.1 p.1 (List.mem_map_of_mem hp)

/-! ### Splitting keys -/

theorem splitKey_pair (k v : Tup V) (t : T) : splitKey (⟨.tup [k, v], t⟩ : Elem (Tup V) T) = some (k, ⟨v, t⟩) := rfl

theorem splitKey_mapM (l : List (Tup V × Elem (Tup V) T)) :
    (l.map (fun p => (⟨.tup [p.1, p.2.tuple], p.2.tag⟩ : Elem (Tup V) T))).mapM splitKey = some l := by
  induction l with
  | nil => rfl
  | cons p l ih => rw [List.map_cons, List.mapM_cons, ih]; rfl

/-! ### Positions -/

theorem enumerate_spec {α : Type*} (l : List (Elem α T)) :
    (enumerate l).map (fun e => e.tuple.1) = List.range l.length ∧ (enumerate l).map (fun e => (⟨e.tuple.2, e.tag⟩ : Elem α T)) = l := by
  constructor
  · rw [enumerate, List.map_map]
    have : ((fun e : Elem (Nat × α) T => e.tuple.1) ∘ fun p : Elem α T × Nat => (⟨(p.2, p.1.tuple), p.1.tag⟩ : Elem (Nat × α) T)) = Prod.snd := rfl
    rw [this, List.zipIdx_map_snd, List.range_eq_range']
  · rw [enumerate, List.map_map]
    have : ((fun e : Elem (Nat × α) T => (⟨e.tuple.2, e.tag⟩ : Elem α T)) ∘ fun p : Elem α T × Nat => (⟨(p.2, p.1.tuple), p.1.tag⟩ : Elem (Nat × α) T)) = Prod.fst := by
      funext p; rfl
    rw [this, List.zipIdx_map_fst]

end Scallop.Agg
