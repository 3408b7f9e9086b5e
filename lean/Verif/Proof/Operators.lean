import Verif.Spec.Dataflow
import Verif.Proof.Gallop

namespace Scallop

variable {V T W ι κ : Type*} [LinearOrder V]

/-! ### Searching ahead -/

theorem searchUntil_split (g : Bool) (e : Elem (Tup V) T) (r : List (Elem (Tup V) T)) (t : Tup V)
    (hs : SortedLe (e :: r)) (h : e.tuple < t) :
    ∃ pre suf, e :: r = pre ++ suf ∧ searchUntil g (e :: r) t = suf ∧ pre ≠ [] ∧ ∀ x ∈ pre, x.tuple < t := by
  unfold searchUntil
  cases g with
  | false => exact ⟨[e], r, rfl, rfl, by simp, by simpa using h⟩
  | true =>
    set p : Elem (Tup V) T → Bool := fun e => decide (e.tuple < t) with hp
    have hd : DownClosed (e :: r) p := by
      intro i j x y hij hx hy hpy
      simp only [hp, decide_eq_true_eq] at hpy ⊢
      rcases Nat.lt_or_eq_of_le hij with hlt | rfl
      · obtain ⟨hi, rfl⟩ := List.getElem?_eq_some_iff.mp hx
        obtain ⟨hj, rfl⟩ := List.getElem?_eq_some_iff.mp hy
        exact lt_of_le_of_lt (List.pairwise_iff_getElem.mp hs i j hi hj hlt) hpy
      · rw [hx] at hy; cases hy; exact hpy
    have h0 : cmpAt (e :: r) p 0 = true := by simp [cmpAt, hp, h]
    have hb := gallopIndex_boundary (e :: r) p 0 hd (Or.inl rfl)
    have hg : searchAhead (e :: r) p = (e :: r).drop (gallopIndex (e :: r) 0 p) := by
      simp only [searchAhead, gallopIndex, h0, if_true]
    obtain ⟨h1, h2, h3⟩ := hb
    have hpos : gallopIndex (e :: r) 0 p ≠ 0 := by
      intro h; rw [h] at h3
      have := h3 e rfl
      simp [hp] at this
      exact absurd ‹e.tuple < t› (not_lt.mpr this)
    refine ⟨(e :: r).take (gallopIndex (e :: r) 0 p), _, (List.take_append_drop _ _).symm, by simpa using hg, ?_, ?_⟩
    · intro h; simp at h; exact hpos h
    · intro x hx
      obtain ⟨i, hi, hxi⟩ := List.getElem_of_mem hx
      have hlt : i < gallopIndex (e :: r) 0 p := by
        rw [List.length_take] at hi; omega
      obtain ⟨y, hy, hpy⟩ := h2 i (Nat.zero_le _) hlt
      have : x = y := by
        rw [List.getElem_take] at hxi
        obtain ⟨hi', hy'⟩ := List.getElem?_eq_some_iff.mp hy
        rw [← hxi, ← hy']
      subst this
      simpa [hp] using hpy

theorem SortedLe.append_right {a b : List (Elem (Tup V) T)} (h : SortedLe (a ++ b)) : SortedLe b :=
  (List.pairwise_append.mp h).2.1

theorem Sorted.append_right {α : Type*} [LT α] {a b : List (Elem α T)} (h : Sorted (a ++ b)) : Sorted b :=
  (List.pairwise_append.mp h).2.1

theorem Sorted.le {l : List (Elem (Tup V) T)} (h : Sorted l) : SortedLe l := h.imp (fun h => le_of_lt h)

theorem Sorted.tail' {α : Type*} [LT α] {e : Elem α T} {l : List (Elem α T)} (h : Sorted (e :: l)) : Sorted l :=
  (List.pairwise_cons.mp h).2

theorem SortedLe.tail' {e : Elem (Tup V) T} {l : List (Elem (Tup V) T)} (h : SortedLe (e :: l)) : SortedLe l :=
  (List.pairwise_cons.mp h).2

/-! ### Intersection -/

theorem intersectSpec_drop_left (c : Prov T W) {pre suf B : List (Elem (Tup V) T)}
    (h : ∀ x ∈ pre, ∀ y ∈ B, x.tuple ≠ y.tuple) : intersectSpec c (pre ++ suf) B = intersectSpec c suf B := by
  unfold intersectSpec
  rw [List.flatMap_append]
  have : pre.flatMap (fun x => B.filterMap (fun y => if x.tuple = y.tuple then some (⟨x.tuple, c.mult x.tag y.tag⟩ : Elem (Tup V) T) else none)) = [] := by
    rw [List.flatMap_eq_nil_iff]
    intro x hx
    rw [List.filterMap_eq_nil_iff]
    intro y hy
    rw [if_neg (h x hx y hy)]
  rw [this, List.nil_append]

theorem intersectSpec_drop_right (c : Prov T W) {A pre suf : List (Elem (Tup V) T)}
    (h : ∀ x ∈ A, ∀ y ∈ pre, x.tuple ≠ y.tuple) : intersectSpec c A (pre ++ suf) = intersectSpec c A suf := by
  unfold intersectSpec
  apply List.flatMap_congr
  intro x hx
  rw [List.filterMap_append]
  have : pre.filterMap (fun y => if x.tuple = y.tuple then some (⟨x.tuple, c.mult x.tag y.tag⟩ : Elem (Tup V) T) else none) = [] := by
    rw [List.filterMap_eq_nil_iff]
    intro y hy
    rw [if_neg (h x hx y hy)]
  rw [this, List.nil_append]

theorem intersectLoop_spec (c : Prov T W) (g1 g2 : Bool) : ∀ (fuel : Nat) (A B : List (Elem (Tup V) T)),
    A.length + B.length ≤ fuel → Sorted A → Sorted B → intersectLoop c g1 g2 fuel A B = intersectSpec c A B := by
  intro fuel
  induction fuel with
  | zero =>
    intro A B h _ _
    have : A = [] := List.length_eq_zero_iff.mp (by omega)
    subst this; rfl
  | succ n ih =>
    intro A B h hA hB
    cases A with
    | nil => simp [intersectLoop, intersectSpec]
    | cons e1 r1 =>
    cases B with
    | nil => simp [intersectLoop, intersectSpec]
    | cons e2 r2 =>
      simp only [intersectLoop]
      split
      · rename_i hlt
        obtain ⟨pre, suf, e, e', hne, hpre⟩ := searchUntil_split g1 e1 r1 e2.tuple hA.le hlt
        rw [e', ih]
        · rw [e, intersectSpec_drop_left]
          intro x hx y hy heq
          have h1 := hpre x hx
          have h2 : e2.tuple ≤ y.tuple := by
            rcases List.mem_cons.mp hy with rfl | hy
            · exact le_refl _
            · exact le_of_lt ((List.pairwise_cons.mp hB).1 y hy)
          rw [heq] at h1
          exact absurd h1 (not_lt.mpr h2)
        · have := congrArg List.length e
          have hl := List.length_pos_iff.mpr hne
          simp at this h; simp; omega
        · rw [e] at hA; exact hA.append_right
        · exact hB
      · rename_i hnlt
        split
        · rename_i heq
          rw [ih r1 r2 (by simp at h; omega) hA.tail' hB.tail']
          have hgt1 : ∀ x ∈ r1, x.tuple ≠ e2.tuple := fun x hx he => by
            have := (List.pairwise_cons.mp hA).1 x hx
            rw [he, heq] at this; exact lt_irrefl _ this
          have hgt2 : ∀ y ∈ r2, e1.tuple ≠ y.tuple := fun y hy he => by
            have := (List.pairwise_cons.mp hB).1 y hy
            rw [← he, ← heq] at this; exact lt_irrefl _ this
          have key : intersectSpec c r1 (e2 :: r2) = intersectSpec c r1 r2 :=
            intersectSpec_drop_right (pre := [e2]) c (fun x hx y hy => by simp at hy; subst hy; exact hgt1 x hx)
          have : intersectSpec c (e1 :: r1) (e2 :: r2) = ⟨e1.tuple, c.mult e1.tag e2.tag⟩ :: intersectSpec c r1 (e2 :: r2) := by
            conv_lhs => unfold intersectSpec
            rw [List.flatMap_cons, List.filterMap_cons, if_pos heq]
            have : r2.filterMap (fun y => if e1.tuple = y.tuple then some (⟨e1.tuple, c.mult e1.tag y.tag⟩ : Elem (Tup V) T) else none) = [] := by
              rw [List.filterMap_eq_nil_iff]
              intro y hy; rw [if_neg (hgt2 y hy)]
            rw [this]; rfl
          rw [this, key]
        · rename_i hneq
          have hlt : e2.tuple < e1.tuple := lt_of_le_of_ne (not_lt.mp hnlt) (fun h => hneq h.symm)
          obtain ⟨pre, suf, e, e', hne, hpre⟩ := searchUntil_split g2 e2 r2 e1.tuple hB.le hlt
          rw [e', ih]
          · rw [e, intersectSpec_drop_right]
            intro x hx y hy heq
            have h1 := hpre y hy
            have h2 : e1.tuple ≤ x.tuple := by
              rcases List.mem_cons.mp hx with rfl | hx
              · exact le_refl _
              · exact le_of_lt ((List.pairwise_cons.mp hA).1 x hx)
            rw [← heq] at h1
            exact absurd h1 (not_lt.mpr h2)
          · have := congrArg List.length e
            have hl := List.length_pos_iff.mpr hne
            simp at this h; simp; omega
          · exact hA
          · rw [e] at hB; exact hB.append_right

/-! ### Product -/

theorem productLoop_spec (c : Prov T W) (B : List (Elem (Tup V) T)) : ∀ A, productLoop c B A = productSpec c A B := by
  intro A
  induction A with
  | nil => rfl
  | cons e A ih => simp only [productLoop, ih]; rfl

/-! ### Difference -/

theorem minusBy_drop (c : Prov T W) {pre suf : List (Elem (Tup V) T)} {k : Option (Tup V)} (x : Elem (Tup V) T)
    (h : ∀ y ∈ pre, some y.tuple ≠ k) : minusBy c (pre ++ suf) k x = minusBy c suf k x := by
  unfold minusBy
  rw [List.find?_append]
  have : pre.find? (fun y => decide (some y.tuple = k)) = none := by
    rw [List.find?_eq_none]
    intro y hy; simpa using h y hy
  rw [this, Option.none_or]

theorem minusBy_none (c : Prov T W) {B : List (Elem (Tup V) T)} {k : Option (Tup V)} (x : Elem (Tup V) T)
    (h : ∀ y ∈ B, some y.tuple ≠ k) : minusBy c B k x = some x := by
  have := minusBy_drop c (suf := []) x h
  rw [List.append_nil] at this
  rw [this]; rfl

theorem minusBy_cons_eq (c : Prov T W) {B : List (Elem (Tup V) T)} {y x : Elem (Tup V) T} :
    minusBy c (y :: B) (some y.tuple) x = (c.minus x.tag y.tag).map (fun t => ⟨x.tuple, t⟩) := by
  unfold minusBy; simp

theorem differenceLoop_spec (c : Prov T W) (g2 : Bool) : ∀ (fuel : Nat) (A B : List (Elem (Tup V) T)),
    A.length + B.length ≤ fuel → Sorted A → SortedLe B → differenceLoop c g2 fuel A B = differenceSpec c A B := by
  intro fuel
  induction fuel with
  | zero =>
    intro A B h _ _
    have : A = [] := List.length_eq_zero_iff.mp (by omega)
    subst this; rfl
  | succ n ih =>
    intro A B h hA hB
    cases A with
    | nil => simp [differenceLoop, differenceSpec]
    | cons e1 r1 =>
    cases B with
    | nil =>
      simp only [differenceLoop]
      rw [ih r1 [] (by simp at h ⊢; omega) hA.tail' hB]
      simp [differenceSpec, minusBy]
    | cons e2 r2 =>
      have hB' : ∀ y ∈ e2 :: r2, e2.tuple ≤ y.tuple := by
        intro y hy
        rcases List.mem_cons.mp hy with rfl | hy
        · exact le_refl _
        · exact (List.pairwise_cons.mp hB).1 y hy
      simp only [differenceLoop]
      split
      · rename_i hlt
        rw [ih r1 _ (by simp at h ⊢; omega) hA.tail' hB]
        unfold differenceSpec
        rw [List.filterMap_cons, minusBy_none]
        intro y hy he
        have he := Option.some.inj he
        rw [← he] at hlt
        exact absurd hlt (not_lt.mpr (hB' y hy))
      · rename_i hnlt
        split
        · rename_i heq
          have key : differenceSpec c r1 (e2 :: r2) = differenceSpec c r1 r2 := by
            unfold differenceSpec
            apply List.filterMap_congr
            intro x hx
            refine minusBy_drop (pre := [e2]) c x ?_
            intro y hy he
            simp at hy; subst hy
            have he := Option.some.inj he
            have := (List.pairwise_cons.mp hA).1 x hx
            rw [heq, he] at this; exact lt_irrefl _ this
          have hc : differenceSpec c (e1 :: r1) (e2 :: r2) =
              ((c.minus e1.tag e2.tag).map (fun t => (⟨e1.tuple, t⟩ : Elem (Tup V) T))).toList ++ differenceSpec c r1 (e2 :: r2) := by
            conv_lhs => unfold differenceSpec
            rw [List.filterMap_cons, heq, minusBy_cons_eq, heq]
            cases c.minus e1.tag e2.tag <;> simp [differenceSpec]
          rw [hc, key, ← ih r1 r2 (by simp at h; omega) hA.tail' hB.tail']
          cases c.minus e1.tag e2.tag <;> simp
        · rename_i hneq
          have hlt : e2.tuple < e1.tuple := lt_of_le_of_ne (not_lt.mp hnlt) (fun h => hneq h.symm)
          obtain ⟨pre, suf, e, e', hne, hpre⟩ := searchUntil_split g2 e2 r2 e1.tuple hB hlt
          rw [e', ih]
          · rw [e]
            unfold differenceSpec
            apply List.filterMap_congr
            intro x hx
            symm
            apply minusBy_drop
            intro y hy he
            have he := Option.some.inj he
            have h1 := hpre y hy
            have h2 : e1.tuple ≤ x.tuple := by
              rcases List.mem_cons.mp hx with rfl | hx
              · exact le_refl _
              · exact le_of_lt ((List.pairwise_cons.mp hA).1 x hx)
            rw [he] at h1
            exact absurd h1 (not_lt.mpr h2)
          · have := congrArg List.length e
            have hl := List.length_pos_iff.mpr hne
            simp at this h; simp; omega
          · exact hA
          · rw [e] at hB; exact hB.append_right

/-! ### Runs of equal keys -/

theorem keyRun_spec (k : Tup V) : ∀ (l g : List (Elem (Tup V) T)), keyRun k l = some g →
    ∃ r, l = g ++ r ∧ (∀ x ∈ g, x.tuple.at? 0 = some k) ∧ ∀ y r', r = y :: r' → ∃ k', y.tuple.at? 0 = some k' ∧ k' ≠ k := by
  intro l
  induction l with
  | nil => intro g h; simp [keyRun] at h; subst h; exact ⟨[], by simp⟩
  | cons e l ih =>
    intro g h
    simp only [keyRun] at h
    split at h
    · cases h
    · rename_i k' hk
      split at h
      · rename_i hkk
        rw [Option.map_eq_some_iff] at h
        obtain ⟨g', hg', rfl⟩ := h
        obtain ⟨r, h1, h2, h3⟩ := ih g' hg'
        refine ⟨r, by rw [h1]; rfl, ?_, h3⟩
        intro x hx
        rcases List.mem_cons.mp hx with rfl | hx
        · rw [hk, hkk]
        · exact h2 x hx
      · rename_i hkk
        cases h
        refine ⟨e :: l, rfl, by simp, ?_⟩
        rintro y r' ⟨rfl, rfl⟩
        exact ⟨k', hk, hkk⟩

theorem Pairs.keyed {l : List (Elem (Tup V) T)} (h : Pairs l) : Keyed l := fun e he => by
  obtain ⟨k, _, hk, _⟩ := h e he; exact ⟨k, hk⟩

theorem keyRun_isSome (k : Tup V) : ∀ (l : List (Elem (Tup V) T)), Keyed l → ∃ g, keyRun k l = some g := by
  intro l
  induction l with
  | nil => intro _; exact ⟨[], rfl⟩
  | cons e l ih =>
    intro h
    obtain ⟨g, hg⟩ := ih (fun x hx => h x (List.mem_cons_of_mem _ hx))
    obtain ⟨k', hk⟩ := h e (by simp)
    simp only [keyRun, hk, hg]
    split
    · exact ⟨_, rfl⟩
    · exact ⟨_, rfl⟩

/-- After the run, keys (where defined) are strictly larger. -/
theorem keyRun_rest {k : Tup V} {e : Elem (Tup V) T} {g r : List (Elem (Tup V) T)} (hs : SortedLe (e :: (g ++ r)))
    (he : e.tuple.at? 0 = some k) (hr : ∀ y r', r = y :: r' → ∃ k', y.tuple.at? 0 = some k' ∧ k' ≠ k) :
    ∀ y ∈ r, ∀ k', y.tuple.at? 0 = some k' → k < k' := by
  intro y hy k' hk'
  cases r with
  | nil => simp at hy
  | cons z r =>
    obtain ⟨kz, hkz, hne⟩ := hr z r rfl
    have hle : k ≤ kz := Tup.at0_mono he hkz ((List.pairwise_cons.mp hs).1 z (by simp))
    have hlt : k < kz := lt_of_le_of_ne hle (fun h => hne h.symm)
    rcases List.mem_cons.mp hy with rfl | hy
    · rw [hkz] at hk'; cases hk'; exact hlt
    · have hs' : SortedLe (z :: r) := by
        have := hs.tail'
        exact this.append_right
      exact lt_of_lt_of_le hlt (Tup.at0_mono hkz hk' ((List.pairwise_cons.mp hs').1 y hy))

theorem mapM_some_eq {β γ : Type*} {f : β → Option γ} {g : β → γ} : ∀ {l : List β} {r : List γ}, (∀ x y, f x = some y → y = g x) →
    l.mapM f = some r → r = l.map g := by
  intro l
  induction l with
  | nil => intro r _ h; simpa using h.symm
  | cons a l ih =>
    intro r hf h
    rw [List.mapM_cons] at h
    cases ha : f a with
    | none => simp [ha] at h
    | some b =>
      cases hl : l.mapM f with
      | none => simp [ha, hl] at h
      | some bs => simp [ha, hl] at h; rw [← h, List.map_cons, ih hf hl, hf a b ha]

theorem mapM_isSome {β γ : Type*} {f : β → Option γ} : ∀ {l : List β}, (∀ x ∈ l, ∃ y, f x = some y) → ∃ r, l.mapM f = some r := by
  intro l
  induction l with
  | nil => intro _; exact ⟨[], rfl⟩
  | cons a l ih =>
    intro h
    obtain ⟨b, hb⟩ := h a (by simp)
    obtain ⟨r, hr⟩ := ih (fun x hx => h x (List.mem_cons_of_mem _ hx))
    exact ⟨b :: r, by rw [List.mapM_cons, hb, hr]; rfl⟩

theorem mapM_mem {β γ : Type*} {f : β → Option γ} : ∀ {l : List β} {r : List γ}, l.mapM f = some r →
    (∀ x ∈ l, ∃ y ∈ r, f x = some y) ∧ (∀ y ∈ r, ∃ x ∈ l, f x = some y) := by
  intro l
  induction l with
  | nil => intro r h; simp at h; subst h; simp
  | cons a l ih =>
    intro r h
    rw [List.mapM_cons] at h
    cases ha : f a with
    | none => simp [ha] at h
    | some b =>
      cases hl : l.mapM f with
      | none => simp [ha, hl] at h
      | some bs =>
        simp [ha, hl] at h
        subst h
        obtain ⟨h1, h2⟩ := ih hl
        constructor
        · intro x hx
          rcases List.mem_cons.mp hx with rfl | hx
          · exact ⟨b, by simp, ha⟩
          · obtain ⟨y, hy, he⟩ := h1 x hx; exact ⟨y, List.mem_cons_of_mem _ hy, he⟩
        · intro y hy
          rcases List.mem_cons.mp hy with rfl | hy
          · exact ⟨a, by simp, ha⟩
          · obtain ⟨x, hx, he⟩ := h2 y hy; exact ⟨x, List.mem_cons_of_mem _ hx, he⟩

theorem mapM_eq_filterMap {β γ : Type*} {f : β → Option γ} : ∀ {l : List β} {r : List γ}, l.mapM f = some r → r = l.filterMap f := by
  intro l
  induction l with
  | nil => intro r h; simpa using h.symm
  | cons a l ih =>
    intro r h
    rw [List.mapM_cons] at h
    cases ha : f a with
    | none => simp [ha] at h
    | some b =>
      cases hl : l.mapM f with
      | none => simp [ha, hl] at h
      | some bs => simp [ha, hl] at h; rw [← h, List.filterMap_cons, ha, ih hl]

theorem runPairs_eq {β : Type*} {f : Elem (Tup V) T → Elem (Tup V) T → Option β} {v1 v2 : List (Elem (Tup V) T)} {out : List β}
    (h : runPairs f v1 v2 = some out) : out = v1.flatMap (fun x => v2.filterMap (f x)) := by
  unfold runPairs at h
  rw [Option.map_eq_some_iff] at h
  obtain ⟨ls, h1, rfl⟩ := h
  have := mapM_some_eq (g := fun x => v2.filterMap (f x)) (fun x y hy => mapM_eq_filterMap hy) h1
  rw [this, List.flatMap]

/-! ### Join -/

theorem joinPair_eq_of_key {c : Prov T W} {x y : Elem (Tup V) T} {k : Tup V} (hx : x.tuple.at? 0 = some k) (hy : y.tuple.at? 0 = some k) :
    joinPair c x y = joinElem c x y := by
  unfold joinPair joinElem
  rw [hx, hy]
  cases x.tuple.at? 1 <;> cases y.tuple.at? 1 <;> simp

theorem joinPair_none {c : Prov T W} {x y : Elem (Tup V) T}
    (h : ∀ k k', x.tuple.at? 0 = some k → y.tuple.at? 0 = some k' → k ≠ k') : joinPair c x y = none := by
  unfold joinPair
  cases hx : x.tuple.at? 0 with
  | none => rfl
  | some k =>
    cases hy : y.tuple.at? 0 with
    | none => cases x.tuple.at? 1 <;> rfl
    | some k' =>
      cases x.tuple.at? 1 <;> cases y.tuple.at? 1 <;> simp [h k k' hx hy]

theorem joinSpec_drop_left (c : Prov T W) {pre suf B : List (Elem (Tup V) T)}
    (h : ∀ x ∈ pre, ∀ y ∈ B, joinPair c x y = none) : joinSpec c (pre ++ suf) B = joinSpec c suf B := by
  unfold joinSpec
  rw [List.flatMap_append]
  have : pre.flatMap (fun x => B.filterMap (joinPair c x)) = [] := by
    rw [List.flatMap_eq_nil_iff]
    intro x hx
    rw [List.filterMap_eq_nil_iff]
    exact h x hx
  rw [this, List.nil_append]

theorem joinSpec_drop_right (c : Prov T W) {A pre suf : List (Elem (Tup V) T)}
    (h : ∀ x ∈ A, ∀ y ∈ pre, joinPair c x y = none) : joinSpec c A (pre ++ suf) = joinSpec c A suf := by
  unfold joinSpec
  apply List.flatMap_congr
  intro x hx
  rw [List.filterMap_append, List.filterMap_eq_nil_iff.mpr (h x hx), List.nil_append]

theorem joinSpec_drop_right' (c : Prov T W) {A pre suf : List (Elem (Tup V) T)}
    (h : ∀ x ∈ A, ∀ y ∈ suf, joinPair c x y = none) : joinSpec c A (pre ++ suf) = joinSpec c A pre := by
  unfold joinSpec
  apply List.flatMap_congr
  intro x hx
  rw [List.filterMap_append, List.filterMap_eq_nil_iff.mpr (h x hx), List.append_nil]

theorem joinSpec_append_left (c : Prov T W) (A A' B : List (Elem (Tup V) T)) :
    joinSpec c (A ++ A') B = joinSpec c A B ++ joinSpec c A' B := by
  unfold joinSpec; rw [List.flatMap_append]

theorem joinLoop_spec (c : Prov T W) : ∀ (fuel : Nat) (A B out : List (Elem (Tup V) T)),
    A.length + B.length ≤ fuel → SortedLe A → SortedLe B → joinLoop c fuel A B = some out → out = joinSpec c A B := by
  intro fuel
  induction fuel with
  | zero =>
    intro A B out h _ _ ho
    have : A = [] := List.length_eq_zero_iff.mp (by omega)
    subst this; simp [joinLoop] at ho; simp [joinSpec, ho]
  | succ n ih =>
    intro A B out h hA hB ho
    cases A with
    | nil => simp [joinLoop] at ho; simp [joinSpec, ho]
    | cons e1 r1 =>
    cases B with
    | nil => simp [joinLoop] at ho; simp [joinSpec, ho]
    | cons e2 r2 =>
      simp only [joinLoop] at ho
      split at ho
      case h_2 => cases ho
      case h_1 =>
      rename_i k1 k2 hk1 hk2
      have hA' : ∀ x ∈ e1 :: r1, ∀ k, x.tuple.at? 0 = some k → k1 ≤ k := by
        intro x hx k hk
        rcases List.mem_cons.mp hx with rfl | hx
        · rw [hk1] at hk; cases hk; exact le_refl _
        · exact Tup.at0_mono hk1 hk ((List.pairwise_cons.mp hA).1 x hx)
      have hB' : ∀ x ∈ e2 :: r2, ∀ k, x.tuple.at? 0 = some k → k2 ≤ k := by
        intro x hx k hk
        rcases List.mem_cons.mp hx with rfl | hx
        · rw [hk2] at hk; cases hk; exact le_refl _
        · exact Tup.at0_mono hk2 hk ((List.pairwise_cons.mp hB).1 x hx)
      split at ho
      · rename_i hlt
        rw [ih r1 _ out (by simp at h ⊢; omega) hA.tail' hB ho]
        refine (joinSpec_drop_left (pre := [e1]) c ?_).symm
        intro x hx y hy
        simp at hx; subst hx
        apply joinPair_none
        intro k k' hk hk' he
        rw [hk1] at hk; cases hk
        have := hB' y hy k' hk'
        rw [← he] at this
        exact absurd hlt (not_lt.mpr this)
      · rename_i hnlt
        split at ho
        · rename_i heq
          subst heq
          split at ho
          case h_2 => cases ho
          case h_1 =>
          rename_i g1 g2 hg1 hg2
          split at ho
          case h_2 => cases ho
          case h_1 =>
          rename_i o rest hrun hrest
          cases ho
          obtain ⟨s1, e1s, hg1k, hs1⟩ := keyRun_spec k1 r1 g1 hg1
          obtain ⟨s2, e2s, hg2k, hs2⟩ := keyRun_spec k1 r2 g2 hg2
          subst e1s e2s
          rw [List.drop_left, List.drop_left] at hrest
          have hr1 := keyRun_rest hA hk1 hs1
          have hr2 := keyRun_rest hB hk2 hs2
          have hgk1 : ∀ x ∈ e1 :: g1, x.tuple.at? 0 = some k1 := by
            intro x hx
            rcases List.mem_cons.mp hx with rfl | hx
            · exact hk1
            · exact hg1k x hx
          have hgk2 : ∀ x ∈ e2 :: g2, x.tuple.at? 0 = some k1 := by
            intro x hx
            rcases List.mem_cons.mp hx with rfl | hx
            · exact hk2
            · exact hg2k x hx
          rw [ih s1 s2 rest (by simp at h ⊢; omega) hA.tail'.append_right hB.tail'.append_right hrest]
          rw [← List.cons_append, ← List.cons_append, joinSpec_append_left, joinSpec_drop_right', joinSpec_drop_right (A := s1)]
          · rw [runPairs_eq hrun]
            congr 1
            unfold joinSpec
            apply List.flatMap_congr
            intro x hx
            apply List.filterMap_congr
            intro y hy
            exact (joinPair_eq_of_key (hgk1 x hx) (hgk2 y hy)).symm
          · intro x hx y hy
            apply joinPair_none
            intro k k' hk hk' he
            rw [hgk2 y hy] at hk'; cases hk'
            have := hr1 x hx k hk
            rw [he] at this; exact lt_irrefl _ this
          · intro x hx y hy
            apply joinPair_none
            intro k k' hk hk' he
            rw [hgk1 x hx] at hk; cases hk
            have := hr2 y hy k' hk'
            rw [he] at this; exact lt_irrefl _ this
        · rename_i hneq
          have hlt : k2 < k1 := lt_of_le_of_ne (not_lt.mp hnlt) (fun h => hneq h.symm)
          rw [ih (e1 :: r1) r2 out (by simp at h ⊢; omega) hA hB.tail' ho]
          refine (joinSpec_drop_right (pre := [e2]) c ?_).symm
          intro x hx y hy
          simp at hy; subst hy
          apply joinPair_none
          intro k k' hk hk' he
          rw [hk2] at hk'; cases hk'
          have := hA' x hx k hk
          rw [he] at this
          exact absurd hlt (not_lt.mpr this)

theorem runPairs_isSome (c : Prov T W) {v1 v2 : List (Elem (Tup V) T)} (h1 : Pairs v1) (h2 : Pairs v2) :
    ∃ out, runPairs (joinElem c) v1 v2 = some out := by
  unfold runPairs
  obtain ⟨r, hr⟩ : ∃ r, v1.mapM (fun e1 => v2.mapM (joinElem c e1)) = some r := by
    apply mapM_isSome
    intro x hx
    apply mapM_isSome
    intro y hy
    obtain ⟨k, a, hk, ha⟩ := h1 x hx
    obtain ⟨k', b, hk', hb⟩ := h2 y hy
    exact ⟨_, by simp only [joinElem, hk, ha, hb]; rfl⟩
  exact ⟨_, by rw [hr]; rfl⟩

theorem joinLoop_isSome (c : Prov T W) : ∀ (fuel : Nat) (A B : List (Elem (Tup V) T)), Pairs A → Pairs B →
    ∃ out, joinLoop c fuel A B = some out := by
  intro fuel
  induction fuel with
  | zero => intro A B _ _; exact ⟨[], rfl⟩
  | succ n ih =>
    intro A B hA hB
    cases A with
    | nil => exact ⟨[], rfl⟩
    | cons e1 r1 =>
    cases B with
    | nil => exact ⟨[], rfl⟩
    | cons e2 r2 =>
      have hA1 : Pairs r1 := fun x hx => hA x (List.mem_cons_of_mem _ hx)
      have hB1 : Pairs r2 := fun x hx => hB x (List.mem_cons_of_mem _ hx)
      obtain ⟨k1, a1, hk1, ha1⟩ := hA e1 (by simp)
      obtain ⟨k2, a2, hk2, ha2⟩ := hB e2 (by simp)
      simp only [joinLoop, hk1, hk2]
      split
      · exact ih _ _ hA1 hB
      · split
        · obtain ⟨g1, hg1⟩ := keyRun_isSome k1 r1 hA1.keyed
          obtain ⟨g2, hg2⟩ := keyRun_isSome k1 r2 hB1.keyed
          obtain ⟨s1, e1s, _, _⟩ := keyRun_spec k1 r1 g1 hg1
          obtain ⟨s2, e2s, _, _⟩ := keyRun_spec k1 r2 g2 hg2
          obtain ⟨o, ho⟩ := runPairs_isSome c (v1 := e1 :: g1) (v2 := e2 :: g2)
            (fun x hx => hA x (by rw [e1s]; exact List.mem_append_left s1 hx |> fun h => by simpa using h))
            (fun x hx => hB x (by rw [e2s]; exact List.mem_append_left s2 hx |> fun h => by simpa using h))
          obtain ⟨rest, hrest⟩ := ih (r1.drop g1.length) (r2.drop g2.length)
            (fun x hx => hA1 x (List.mem_of_mem_drop hx)) (fun x hx => hB1 x (List.mem_of_mem_drop hx))
          simp only [hg1, hg2, ho, hrest]
          exact ⟨_, rfl⟩
        · exact ih _ _ hA hB1

/-! ### Anti-join -/

theorem antijoinLoop_spec (c : Prov T W) (g2 : Bool) : ∀ (fuel : Nat) (A B out : List (Elem (Tup V) T)),
    A.length + B.length ≤ fuel → SortedLe A → SortedLe B → antijoinLoop c g2 fuel A B = some out →
      out = antijoinSpec c A B := by
  intro fuel
  induction fuel with
  | zero =>
    intro A B out h _ _ ho
    have : A = [] := List.length_eq_zero_iff.mp (by omega)
    subst this; simp [antijoinLoop] at ho; simp [antijoinSpec, ho]
  | succ n ih =>
    intro A B out h hA hB ho
    cases A with
    | nil => simp [antijoinLoop] at ho; simp [antijoinSpec, ho]
    | cons e1 r1 =>
    cases B with
    | nil =>
      simp only [antijoinLoop, Option.map_eq_some_iff] at ho
      obtain ⟨o, ho, rfl⟩ := ho
      rw [ih r1 [] o (by simp at h ⊢; omega) hA.tail' hB ho]
      simp [antijoinSpec, minusBy]
    | cons e2 r2 =>
      have hB' : ∀ y ∈ e2 :: r2, e2.tuple ≤ y.tuple := by
        intro y hy
        rcases List.mem_cons.mp hy with rfl | hy
        · exact le_refl _
        · exact (List.pairwise_cons.mp hB).1 y hy
      simp only [antijoinLoop] at ho
      split at ho
      · cases ho
      · rename_i k hk
        have hA' : ∀ x ∈ e1 :: r1, ∀ k', x.tuple.at? 0 = some k' → k ≤ k' := by
          intro x hx k' hk'
          rcases List.mem_cons.mp hx with rfl | hx
          · rw [hk] at hk'; cases hk'; exact le_refl _
          · exact Tup.at0_mono hk hk' ((List.pairwise_cons.mp hA).1 x hx)
        split at ho
        · rename_i hlt
          rw [Option.map_eq_some_iff] at ho
          obtain ⟨o, ho, rfl⟩ := ho
          rw [ih r1 _ o (by simp at h ⊢; omega) hA.tail' hB ho]
          unfold antijoinSpec
          rw [List.filterMap_cons, minusBy_none]
          intro y hy he
          rw [hk] at he; cases he
          exact absurd hlt (not_lt.mpr (hB' y hy))
        · rename_i hnlt
          split at ho
          · rename_i heq
            split at ho
            · cases ho
            · rename_i grp hgrp
              rw [Option.map_eq_some_iff] at ho
              obtain ⟨o, ho, rfl⟩ := ho
              obtain ⟨s, es, hgk, hs⟩ := keyRun_spec k r1 grp hgrp
              subst es
              rw [List.drop_left] at ho
              have hr := keyRun_rest hA hk hs
              rw [ih s r2 o (by simp at h ⊢; omega) hA.tail'.append_right hB.tail' ho]
              have hgk' : ∀ x ∈ e1 :: grp, x.tuple.at? 0 = some e2.tuple := by
                intro x hx
                rcases List.mem_cons.mp hx with rfl | hx
                · rw [hk, heq]
                · rw [hgk x hx, heq]
              unfold antijoinSpec
              rw [← List.cons_append, List.filterMap_append]
              congr 1
              · unfold antijoinGroup
                apply List.filterMap_congr
                intro x hx
                rw [hgk' x hx, minusBy_cons_eq]
              · apply List.filterMap_congr
                intro x hx
                symm
                refine minusBy_drop (pre := [e2]) c x ?_
                intro y hy he
                simp at hy; subst hy
                have := hr x hx y.tuple he.symm
                rw [heq] at this; exact lt_irrefl _ this
          · rename_i hneq
            have hlt : e2.tuple < k := lt_of_le_of_ne (not_lt.mp hnlt) (fun h => hneq h.symm)
            obtain ⟨pre, suf, e, e', hne, hpre⟩ := searchUntil_split g2 e2 r2 k hB hlt
            rw [e'] at ho
            rw [ih _ suf out ?_ hA ?_ ho, e]
            · unfold antijoinSpec
              apply List.filterMap_congr
              intro x hx
              symm
              apply minusBy_drop
              intro y hy he
              have h1 := hpre y hy
              have h2 := hA' x hx y.tuple he.symm
              exact absurd h1 (not_lt.mpr h2)
            · have := congrArg List.length e
              have hl := List.length_pos_iff.mpr hne
              simp at this h; simp; omega
            · rw [e] at hB; exact hB.append_right

theorem antijoinLoop_isSome (c : Prov T W) (g2 : Bool) : ∀ (fuel : Nat) (A B : List (Elem (Tup V) T)), Keyed A →
    ∃ out, antijoinLoop c g2 fuel A B = some out := by
  intro fuel
  induction fuel with
  | zero => intro A B _; exact ⟨[], rfl⟩
  | succ n ih =>
    intro A B hA
    cases A with
    | nil => exact ⟨[], rfl⟩
    | cons e1 r1 =>
      have hA1 : Keyed r1 := fun x hx => hA x (List.mem_cons_of_mem _ hx)
      cases B with
      | nil =>
        obtain ⟨o, ho⟩ := ih r1 [] hA1
        exact ⟨_, by simp only [antijoinLoop, ho]; rfl⟩
      | cons e2 r2 =>
        obtain ⟨k, hk⟩ := hA e1 (by simp)
        simp only [antijoinLoop, hk]
        split
        · obtain ⟨o, ho⟩ := ih r1 (e2 :: r2) hA1
          exact ⟨_, by rw [ho]; rfl⟩
        · split
          · obtain ⟨g, hg⟩ := keyRun_isSome k r1 hA1
            obtain ⟨o, ho⟩ := ih (r1.drop g.length) r2 (fun x hx => hA1 x (List.mem_of_mem_drop hx))
            simp only [hg, ho]
            exact ⟨_, rfl⟩
          · exact ih _ _ hA

/-! ### Find -/

theorem findLoop_spec (k : Tup V) : ∀ (A out : List (Elem (Tup V) T)), SortedLe A → findLoop k A = some out → out = findSpec k A := by
  intro A
  induction A with
  | nil => intro out _ h; simp [findLoop] at h; simp [findSpec, h]
  | cons e A ih =>
    intro out hA h
    simp only [findLoop] at h
    split at h
    · cases h
    · rename_i k' hk
      split at h
      · rename_i hlt
        rw [ih out hA.tail' h]
        unfold findSpec
        rw [List.filter_cons_of_neg]
        simp only [hk, Option.some.injEq, decide_eq_true_eq]
        exact ne_of_lt hlt
      · split at h
        · rename_i heq
          rw [Option.map_eq_some_iff] at h
          obtain ⟨o, ho, rfl⟩ := h
          rw [ih o hA.tail' ho]
          unfold findSpec
          rw [List.filter_cons_of_pos]
          simp [hk, heq]
        · rename_i hnlt hneq
          cases h
          symm
          unfold findSpec
          rw [List.filter_eq_nil_iff]
          intro x hx
          simp only [decide_eq_true_eq]
          intro hxk
          have hlt : k < k' := lt_of_le_of_ne (not_lt.mp hnlt) (fun h => hneq h.symm)
          rcases List.mem_cons.mp hx with rfl | hx
          · rw [hk] at hxk; cases hxk; exact hneq rfl
          · have := Tup.at0_mono hk hxk ((List.pairwise_cons.mp hA).1 x hx)
            exact absurd hlt (not_lt.mpr this)

theorem findLoop_isSome (k : Tup V) : ∀ (A : List (Elem (Tup V) T)), Keyed A → ∃ out, findLoop k A = some out := by
  intro A
  induction A with
  | nil => intro _; exact ⟨[], rfl⟩
  | cons e A ih =>
    intro h
    obtain ⟨o, ho⟩ := ih (fun x hx => h x (List.mem_cons_of_mem _ hx))
    obtain ⟨k', hk⟩ := h e (by simp)
    simp only [findLoop, hk, ho]
    split
    · exact ⟨_, rfl⟩
    · split
      · exact ⟨_, rfl⟩
      · exact ⟨_, rfl⟩

end Scallop
