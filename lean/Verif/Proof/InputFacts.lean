import Verif.Proof.InputMapping

/-!
# Lemmas on acceptance of mappings, on the numbers of choices and on the facts made (C115)
-/

namespace Scallop.InputMap

/-! ## Acceptance -/

theorem depth_mem (l : List (Src α)) : ∀ s ∈ l, depth s ≤ depths l := by
  induction l with
  | nil => simp
  | cons a l ih =>
    intro s hs
    simp only [depths]
    rcases List.mem_cons.mp hs with h | h
    · subst h; omega
    · have := ih s h; omega

theorem depths_le (l : List (Src α)) (n : Nat) (h : ∀ s ∈ l, depth s ≤ n) : depths l ≤ n := by
  induction l with
  | nil => simp [depths]
  | cons a l ih =>
    simp only [depths]
    have := h a (by simp)
    have := ih (fun s hs => h s (by simp [hs]))
    omega

theorem checkLeaves_leaf (strLen : α → Option Nat) (size : Option Nat) : ∀ cur : List (Src α), (∀ s ∈ cur, LeafOf size s) →
    ∃ items, checkLeaves strLen size cur = some items
  | [], _ => ⟨[], rfl⟩
  | s :: cur, h => by
    obtain ⟨items, hi⟩ := checkLeaves_leaf strLen size cur (fun s hs => h s (by simp [hs]))
    have hs := h s (by simp)
    cases size with
    | none =>
      cases s with
      | prim a => exact ⟨.tuple [a] :: items, by simp [checkLeaves, hi]⟩
      | tuple l => simp [LeafOf] at hs
      | list l => simp [LeafOf] at hs
      | other => simp [LeafOf] at hs
    | some n =>
      cases s with
      | prim a => simp [LeafOf] at hs
      | tuple l => simp only [LeafOf] at hs; exact ⟨.tuple l :: items, by simp [checkLeaves, hi, hs]⟩
      | list l => simp [LeafOf] at hs
      | other => simp [LeafOf] at hs

theorem flattenAll_rect (good : Src α → Prop) (d : Nat) (sh : List Nat) : ∀ cur : List (Src α), (∀ s ∈ cur, Rect good (d :: sh) s) →
    ∃ cur', flattenAll d cur = some cur' ∧ (∀ s ∈ cur', Rect good sh s) ∧ cur'.length = cur.length * d ∧ depths cur' ≤ depths cur - 1
  | [], _ => ⟨[], rfl, by simp, by simp, by simp [depths]⟩
  | s :: cur, h => by
    obtain ⟨cur', hf, hr, hl, hd⟩ := flattenAll_rect good d sh cur (fun s hs => h s (by simp [hs]))
    have hs := h s (by simp)
    cases s with
    | prim a => simp [Rect] at hs
    | tuple l => simp [Rect] at hs
    | other => simp [Rect] at hs
    | list l =>
      simp only [Rect] at hs
      refine ⟨l ++ cur', by simp [flattenAll, hf, hs.1], ?_, by simp [hl, hs.1, Nat.add_mul, Nat.add_comm], ?_⟩
      · intro s hm
        rcases List.mem_append.mp hm with hm | hm
        · exact hs.2 s hm
        · exact hr s hm
      · apply depths_le
        intro s hm
        simp only [depths, depth]
        rcases List.mem_append.mp hm with hm | hm
        · have := depth_mem l s hm; omega
        · have := depth_mem cur' s hm; omega

theorem levels_rect (strLen : α → Option Nat) (size : Option Nat) : ∀ (sh : List Nat) (f : Nat) (cur : List (Src α)) (shape : List Nat),
    0 < cur.length → (∀ d ∈ sh, 0 < d) → (∀ s ∈ cur, Rect (LeafOf size) sh s) → depths cur < f →
    ∃ items, levels strLen f cur shape = some (shape ++ sh, items)
  | _, 0, _, _, _, _, _, hf => by omega
  | [], f + 1, cur, shape, h0, _, hr, _ => by
    obtain ⟨items, hi⟩ := checkLeaves_leaf strLen size cur hr
    refine ⟨items, ?_⟩
    cases cur with
    | nil => simp at h0
    | cons s r =>
      have hs : LeafOf size s := hr s (by simp)
      cases s with
      | prim a => cases size with
        | none => simp [levels, hi]
        | some n => simp [LeafOf] at hs
      | tuple t => cases size with
        | none => simp [LeafOf] at hs
        | some n => simp only [LeafOf] at hs; subst hs; simp [levels, hi]
      | list l => cases size <;> simp [LeafOf] at hs
      | other => cases size <;> simp [LeafOf] at hs
  | d :: sh, f + 1, cur, shape, h0, hp, hr, hf => by
    obtain ⟨cur', hfl, hr', hl, hd⟩ := flattenAll_rect (LeafOf size) d sh cur hr
    cases cur with
    | nil => simp at h0
    | cons s r =>
      have hs := hr s (by simp)
      cases s with
      | prim a => simp [Rect] at hs
      | tuple l => simp [Rect] at hs
      | other => simp [Rect] at hs
      | list l =>
        simp only [Rect] at hs
        have hdp := hp d (by simp)
        have hpos : 0 < cur'.length := by
          rw [hl]
          exact Nat.mul_pos h0 hdp
        have hdep : 0 < depths (Src.list l :: r) := by simp only [depths, depth]; omega
        obtain ⟨items, hi⟩ := levels_rect strLen size sh f cur' (shape ++ [d]) hpos (fun e he => hp e (by simp [he])) hr' (by omega)
        refine ⟨items, ?_⟩
        rw [← hs.1] at hfl hi hdp
        simp only [levels, hfl]
        rw [if_neg (by omega), hi]
        simp [hs.1]

/-! ## Lookup in numbered lists -/

theorem lookup_zipIdx {β : Type} [BEq β] [LawfulBEq β] : ∀ (l : List β) (c k : Nat) (a : β), l.Nodup → l[k]? = some a → (l.zipIdx c).lookup a = some (c + k)
  | [], _, _, _, _, h => by simp at h
  | b :: l, c, 0, a, _, h => by simp at h; subst h; simp [List.zipIdx]
  | b :: l, c, k + 1, a, hn, h => by
    simp only [List.getElem?_cons_succ] at h
    rw [List.nodup_cons] at hn
    have hne : (a == b) = false := by
      rw [beq_eq_false_iff_ne]
      rintro rfl
      exact hn.1 (List.mem_of_getElem? h)
    rw [List.zipIdx_cons, List.lookup_cons, hne]
    simp only
    rw [lookup_zipIdx l (c + 1) k a hn.2 h]
    congr 1
    omega

theorem valid_length : ∀ (s x : List Nat), Valid s x → x.length = s.length
  | [], [], _ => rfl
  | [], _ :: _, h => by simp [Valid] at h
  | _ :: _, [], h => by simp [Valid] at h
  | _ :: s, _ :: x, h => by simp [valid_length s x h.2]

theorem valid_erase : ∀ (s x : List Nat) (d : Nat), Valid s x → Valid (s.eraseIdx d) (x.eraseIdx d)
  | [], [], _, h => by simpa using h
  | [], _ :: _, _, h => by simp [Valid] at h
  | _ :: _, [], _, h => by simp [Valid] at h
  | _ :: s, _ :: x, 0, h => h.2
  | _ :: s, _ :: x, d + 1, h => ⟨h.1, valid_erase s x d h.2⟩

theorem valid_insert : ∀ (s p : List Nat) (d j n : Nat), s[d]? = some n → j < n → Valid (s.eraseIdx d) p → Valid s (insertDim d j p) ∧
    (insertDim d j p).eraseIdx d = p ∧ (insertDim d j p)[d]? = some j
  | [], _, _, _, _, h, _, _ => by simp at h
  | a :: s, p, 0, j, n, h, hj, hp => by
    simp at h
    subst h
    simp only [List.eraseIdx_cons_zero] at hp
    simp [insertDim, Valid, hj, hp]
  | a :: s, [], d + 1, j, n, h, hj, hp => by
    simp [Valid] at hp
  | a :: s, i :: p, d + 1, j, n, h, hj, hp => by
    simp only [List.getElem?_cons_succ] at h
    simp only [List.eraseIdx_cons_succ, Valid] at hp
    obtain ⟨h1, h2, h3⟩ := valid_insert s p d j n h hj hp.2
    simp only [insertDim] at h1 h2 h3
    simp [insertDim, Valid, hp.1, h1, h2, h3]

theorem insert_erase (s x : List Nat) (d n : Nat) (hd : s[d]? = some n) (hx : Valid s x) :
    ∃ j, j < n ∧ x = insertDim d j (x.eraseIdx d) ∧ x[d]? = some j := by
  induction s generalizing x d with
  | nil => simp at hd
  | cons a s ih =>
    cases x with
    | nil => simp [Valid] at hx
    | cons i x =>
      simp only [Valid] at hx
      cases d with
      | zero => simp at hd; subst hd; exact ⟨i, hx.1, by simp [insertDim], by simp⟩
      | succ d =>
        simp only [List.getElem?_cons_succ] at hd
        obtain ⟨j, hj, he, hg⟩ := ih x d hd hx.2
        refine ⟨j, hj, ?_, by simpa using hg⟩
        simp only [insertDim] at he
        simpa [insertDim] using he

theorem same_iff (d : Nat) (x y : List Nat) (s : List Nat) (hx : Valid s x) (hy : Valid s y) (hd : d < s.length) :
    x.eraseIdx d = y.eraseIdx d ↔ SameExcept d x y := by
  obtain ⟨a, _, ha, _⟩ := insert_erase s x d s[d] (List.getElem?_eq_getElem hd) hx
  obtain ⟨b, _, hb, _⟩ := insert_erase s y d s[d] (List.getElem?_eq_getElem hd) hy
  constructor
  · intro h i hi
    have h1 : ∀ z : List Nat, ∀ j, (z.eraseIdx d)[j]? = if j < d then z[j]? else z[j + 1]? := fun z j => List.getElem?_eraseIdx ..
    rcases Nat.lt_or_gt_of_ne hi with hl | hl
    · have e1 := h1 x i
      have e2 := h1 y i
      rw [if_pos hl] at e1 e2
      rw [← e1, ← e2, h]
    · have e1 := h1 x (i - 1)
      have e2 := h1 y (i - 1)
      rw [if_neg (by omega), show i - 1 + 1 = i by omega] at e1 e2
      rw [← e1, ← e2, h]
  · intro h
    apply List.ext_getElem?
    intro i
    rw [List.getElem?_eraseIdx, List.getElem?_eraseIdx]
    split
    · exact h i (by omega)
    · exact h (i + 1) (by omega)

/-- The number of an index as a function. -/
def chooseFn (c : Config P) (shape : List Nat) (c0 : Nat) (x : List Nat) : Option Nat :=
  match choiceOf c shape c0 x with
  | some ch => ch
  | none => none

theorem choice_spec (c : Config P) (shape : List Nat) (c0 : Nat) (hc : c.Ok shape) :
    Choices c.supports c.disjunctive c.disjunctiveDim shape c0 (nextChoice c shape c0) (chooseFn c shape c0) ∧
    (∀ x, Valid shape x → choiceOf c shape c0 x = some (chooseFn c shape c0 x)) ∧ c0 ≤ nextChoice c shape c0 := by
  rcases c with ⟨disj, dim, thr, rk, sd, st, sup⟩
  cases sup with
  | false => simp [Choices, chooseFn, choiceOf, nextChoice]
  | true =>
    cases dim with
    | none => cases disj <;> simp [Choices, chooseFn, choiceOf, nextChoice]
    | some d =>
      have hd : d < shape.length := hc.1 d rfl
      have key : ∀ x, Valid shape x → ∃ k, k < (allIndices (shape.eraseIdx d)).length ∧ (allIndices (shape.eraseIdx d))[k]? = some (x.eraseIdx d) ∧
          choiceOf (P := P) ⟨disj, some d, thr, rk, sd, st, true⟩ shape c0 x = some (some (c0 + k)) := by
        intro x hx
        obtain ⟨k, _, hk, hg⟩ := flat_valid _ _ (valid_erase shape x d hx)
        refine ⟨k, by rw [length_allIndices]; exact hk, hg, ?_⟩
        simp [choiceOf, lookup_zipIdx _ c0 k _ (nodup_allIndices _) hg]
      refine ⟨⟨?_, ?_⟩, ?_, by simp [nextChoice]⟩
      · intro x hx
        obtain ⟨k, hk, _, he⟩ := key x hx
        exact ⟨c0 + k, by omega, by simp [nextChoice]; omega, by simp [chooseFn, he]⟩
      · intro x y hx hy
        obtain ⟨k, hk, hg, he⟩ := key x hx
        obtain ⟨k', hk', hg', he'⟩ := key y hy
        rw [← same_iff d x y shape hx hy hd]
        simp only [chooseFn, he, he', Option.some.injEq]
        constructor
        · intro h
          have : k = k' := by omega
          subst this
          rw [hg] at hg'
          simpa using hg'
        · intro h
          rw [h, ← hg'] at hg
          have := (List.getElem?_inj hk (nodup_allIndices _)).mp hg
          omega
      · intro x hx
        obtain ⟨k, _, _, he⟩ := key x hx
        simp [chooseFn, he]

/-! ## The facts -/

theorem mapM_forall {β γ : Type} (f : β → Option γ) (R : β → γ → Prop) : ∀ l : List β, (∀ x ∈ l, ∃ y, f x = some y ∧ R x y) →
    ∃ ys, l.mapM f = some ys ∧ List.Forall₂ R l ys
  | [], _ => ⟨[], rfl, .nil⟩
  | x :: l, h => by
    obtain ⟨y, hy, hr⟩ := h x (by simp)
    obtain ⟨ys, hys, hrs⟩ := mapM_forall f R l (fun x hx => h x (by simp [hx]))
    exact ⟨y :: ys, by simp [hy, hys], .cons hr hrs⟩

theorem process_spec (lt : P → P → Bool) (T : Torch P) (m : Mapping α) (c : Config P) (t : List Nat → P) (c0 : Nat) (hm : m.Ok) (hc : c.Ok m.shape)
    (added : List (List Nat)) (ha : chosen T c m.shape t = some added) :
    ∃ fs, processOne lt T m c t c0 = some (fs, nextChoice c m.shape c0) ∧
      FactsOf m t (fun x => AboveThreshold lt c.retainThreshold (t x) ∧ (added = [] ∨ x ∈ added)) (chooseFn c m.shape c0) fs := by
  obtain ⟨_, h2, _⟩ := choice_spec c m.shape c0 hc
  obtain ⟨fs, hfs, hR⟩ := mapM_forall (factOf m c t c0) (fun x f => f.prob = t x ∧ f.choice = chooseFn c m.shape c0 x ∧ m.get x = some f.item)
    (filtered lt c m.shape t added) (by
      intro x hx
      have hv := (mem_allIndices _ _).mp (List.mem_filter.mp hx).1
      obtain ⟨i, hi⟩ := hm x hv
      exact ⟨⟨t x, chooseFn c m.shape c0 x, i⟩, by simp only [factOf, h2 x hv, hi], rfl, rfl, hi⟩)
  refine ⟨fs, by simp only [processOne, ha, hfs], filtered lt c m.shape t added, (sorted_allIndices _).filter _, ?_, hR⟩
  intro x
  simp only [filtered, List.mem_filter, mem_allIndices, included, AboveThreshold]
  cases c.retainThreshold with
  | none => simp
  | some r => simp [and_comm]

theorem chosen_top (lt : P → P → Bool) (T : Torch P) (hT : TopkRight lt T) (c : Config P) (shape : List Nat) (t : List Nat → P) (k : Nat)
    (hk : c.retainK = some k) (hd : c.sampleDim = none) (hs : c.strategy = .top) (hle : k ≤ prod shape) :
    ∃ top, chosen T c shape t = some top ∧ top.length = k ∧ top.Nodup ∧ (∀ x ∈ top, Valid shape x) ∧
      ∀ x ∈ top, ∀ y, Valid shape y → y ∉ top → lt (t x) (t y) = false := by
  have hl : k ≤ ((allIndices shape).map t).length := by simp [length_allIndices, hle]
  obtain ⟨h1, h2, h3, h4⟩ := hT ((allIndices shape).map t) k hl
  have hlt : ∀ i ∈ T.topk ((allIndices shape).map t) k, i < prod shape := by
    intro i hi
    have := h3 i hi
    simpa [length_allIndices] using this
  refine ⟨(T.topk ((allIndices shape).map t) k).map (unflat shape), by simp only [chosen, hk, hd, hs, hle, if_true], by simp [h1], ?_, ?_, ?_⟩
  · rw [List.nodup_map_iff_inj_on h2]
    intro i hi j hj e
    have a := (allIndices_getElem shape i (hlt i hi)).2.2
    have b := (allIndices_getElem shape j (hlt j hj)).2.2
    rw [e, b] at a
    simpa using a.symm
  · intro x hx
    obtain ⟨i, hi, rfl⟩ := List.mem_map.mp hx
    exact (allIndices_getElem shape i (hlt i hi)).2.1
  · intro x hx y hy hn
    obtain ⟨i, hi, rfl⟩ := List.mem_map.mp hx
    obtain ⟨j, hj, hjl, hg⟩ := flat_valid shape y hy
    refine h4 i hi j (fun hm => hn (List.mem_map.mpr ⟨j, hm, unflat_flat shape y j hy hj⟩)) _ _ ?_ ?_
    · simp [(allIndices_getElem shape i (hlt i hi)).1]
    · simp [hg]

theorem insert_of_same (s x y : List Nat) (d n j : Nat) (hd : s[d]? = some n) (hx : Valid s x) (hy : Valid s y) (h : SameExcept d x y)
    (hj : y[d]? = some j) : y = insertDim d j (x.eraseIdx d) ∧ j < n := by
  have hlt : d < s.length := by
    rcases Nat.lt_or_ge d s.length with h | h
    · exact h
    · simp [List.getElem?_eq_none h] at hd
  have e := (same_iff d x y s hx hy hlt).mpr h
  obtain ⟨j', hj', he, hg⟩ := insert_erase s y d n hd hy
  rw [hg] at hj
  cases hj
  exact ⟨by rw [e]; exact he, hj'⟩

theorem chosen_top_dim (lt : P → P → Bool) (T : Torch P) (hT : TopkRight lt T) (c : Config P) (shape : List Nat) (t : List Nat → P) (k d n : Nat)
    (hk : c.retainK = some k) (hd : c.sampleDim = some d) (hs : c.strategy = .top) (hn : shape[d]? = some n) (hle : k ≤ n) :
    ∃ top, chosen T c shape t = some top ∧ ∀ x, Valid shape x → ∃ js : List Nat, js.length = k ∧ js.Nodup ∧ (∀ j ∈ js, j < n) ∧
      (∀ y, Valid shape y → SameExcept d x y → (y ∈ top ↔ ∃ j ∈ js, y[d]? = some j)) ∧
      ∀ y z, Valid shape y → Valid shape z → SameExcept d x y → SameExcept d x z → y ∈ top → z ∉ top → lt (t y) (t z) = false := by
  have hlt : d < shape.length := by
    rcases Nat.lt_or_ge d shape.length with h | h
    · exact h
    · simp [List.getElem?_eq_none h] at hn
  refine ⟨(allIndices (shape.eraseIdx d)).flatMap (fun p =>
      (T.topk ((List.range n).map fun j => t (insertDim d j p)) k).map fun j => insertDim d j p),
    by simp only [chosen, hk, hd, hs, hn, hle, if_true], ?_⟩
  intro x hx
  have hp := valid_erase shape x d hx
  obtain ⟨h1, h2, h3, h4⟩ := hT ((List.range n).map fun j => t (insertDim d j (x.eraseIdx d))) k (by simpa using hle)
  have h3' : ∀ j ∈ T.topk ((List.range n).map fun j => t (insertDim d j (x.eraseIdx d))) k, j < n := by
    intro j hj
    simpa using h3 j hj
  have hmem : ∀ y, Valid shape y → SameExcept d x y → (y ∈ (allIndices (shape.eraseIdx d)).flatMap (fun p =>
      (T.topk ((List.range n).map fun j => t (insertDim d j p)) k).map fun j => insertDim d j p) ↔
      ∃ j ∈ T.topk ((List.range n).map fun j => t (insertDim d j (x.eraseIdx d))) k, y[d]? = some j) := by
    intro y hy hxy
    have he := (same_iff d x y shape hx hy hlt).mpr hxy
    simp only [List.mem_flatMap, List.mem_map, mem_allIndices]
    constructor
    · rintro ⟨p, hp', j, hj, rfl⟩
      have hjn : j < n := by
        have := (hT ((List.range n).map fun j => t (insertDim d j p)) k (by simpa using hle)).2.2.1 j hj
        simpa using this
      obtain ⟨_, hb, hc⟩ := valid_insert shape p d j n hn hjn hp'
      rw [hb] at he
      subst he
      exact ⟨j, hj, hc⟩
    · rintro ⟨j, hj, hyj⟩
      exact ⟨x.eraseIdx d, hp, j, hj, (insert_of_same shape x y d n j hn hx hy hxy hyj).1.symm⟩
  refine ⟨_, h1, h2, h3', hmem, ?_⟩
  intro y z hy hz hxy hxz hyt hzt
  obtain ⟨j, hj, hyj⟩ := (hmem y hy hxy).mp hyt
  obtain ⟨i, hi, _, hzi⟩ := insert_erase shape z d n hn hz
  obtain ⟨e1, hjn⟩ := insert_of_same shape x y d n j hn hx hy hxy hyj
  obtain ⟨e2, hin⟩ := insert_of_same shape x z d n i hn hx hz hxz hzi
  refine h4 j hj i (fun hm => hzt ((hmem z hz hxz).mpr ⟨i, hm, hzi⟩)) _ _ ?_ ?_
  · rw [e1]; simp [hjn]
  · rw [e2]; simp [hin]

theorem get_range (size : Nat) (g : Nat → P) (j : Nat) : ((List.range size).map g)[j]? = if j < size then some (g j) else none := by
  by_cases h : j < size
  · simp [h]
  · simp [h]

end Scallop.InputMap
