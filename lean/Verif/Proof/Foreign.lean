import Verif.Model.Foreign

/-! # Strings by bytes and by characters: lemmas -/

namespace Scallop.Foreign

theorem byteLen_nil : byteLen [] = 0 := rfl
theorem byteLen_cons (c : Char) (s : List Char) : byteLen (c :: s) = c.utf8Size + byteLen s := by simp [byteLen]
theorem byteLen_append (a b : List Char) : byteLen (a ++ b) = byteLen a + byteLen b := by simp [byteLen]

theorem byteLen_eq_zero {s : List Char} (h : byteLen s = 0) : s = [] := by
  cases s with
  | nil => rfl
  | cons c s => have := c.utf8Size_pos; rw [byteLen_cons] at h; omega

theorem length_le_byteLen (s : List Char) : s.length ≤ byteLen s := by
  induction s with
  | nil => simp
  | cons c s ih => have := c.utf8Size_pos; rw [byteLen_cons, List.length_cons]; omega

theorem byteLen_ascii {s : List Char} (h : ∀ c ∈ s, c.utf8Size = 1) : byteLen s = s.length := by
  induction s with
  | nil => rfl
  | cons c s ih =>
    rw [byteLen_cons, List.length_cons, ih fun d hd => h d (List.mem_cons_of_mem _ hd), h c List.mem_cons_self]; omega

/-- Prefixes of one string with as many bytes are the same. -/
theorem prefix_unique {a b a' b' : List Char} (h : a ++ b = a' ++ b') (hl : byteLen a = byteLen a') : a = a' ∧ b = b' := by
  induction a generalizing a' with
  | nil =>
    have := byteLen_eq_zero (hl.symm.trans byteLen_nil)
    subst this
    exact ⟨rfl, by simpa using h⟩
  | cons c a ih =>
    cases a' with
    | nil => have := byteLen_eq_zero (hl.trans byteLen_nil); simp at this
    | cons c' a' =>
      simp only [List.cons_append, List.cons.injEq] at h
      obtain ⟨rfl, h⟩ := h
      rw [byteLen_cons, byteLen_cons] at hl
      obtain ⟨rfl, rfl⟩ := ih h (by omega)
      exact ⟨rfl, rfl⟩

theorem cutAt_iff {s a b : List Char} {n : Nat} : cutAt s n = some (a, b) ↔ s = a ++ b ∧ byteLen a = n := by
  induction s generalizing n a b with
  | nil =>
    cases n with
    | zero =>
      simp only [cutAt, Option.some.injEq, Prod.mk.injEq]
      constructor
      · rintro ⟨rfl, rfl⟩; simp [byteLen]
      · rintro ⟨h, _⟩
        have h := h.symm
        simp only [List.append_eq_nil_iff] at h
        exact ⟨h.1.symm, h.2.symm⟩
    | succ n =>
      simp only [cutAt, reduceCtorEq, false_iff]
      rintro ⟨h, h'⟩
      have h := h.symm
      simp only [List.append_eq_nil_iff] at h
      rw [h.1] at h'
      simp [byteLen] at h'
  | cons c s ih =>
    cases n with
    | zero =>
      simp only [cutAt, Option.some.injEq, Prod.mk.injEq]
      constructor
      · rintro ⟨rfl, rfl⟩; simp [byteLen]
      · rintro ⟨h, h'⟩
        have := byteLen_eq_zero h'
        subst this
        exact ⟨rfl, by simpa using h⟩
    | succ n =>
      simp only [cutAt]
      constructor
      · intro h
        split at h
        · simp only [Option.map_eq_some_iff, Prod.mk.injEq] at h
          obtain ⟨⟨a', b'⟩, h1, h2, h3⟩ := h
          obtain ⟨h4, h5⟩ := ih.1 h1
          subst h2; subst h3
          simp only at *
          rw [byteLen_cons]
          exact ⟨by rw [h4]; rfl, by omega⟩
        · simp at h
      · rintro ⟨h1, h2⟩
        cases a with
        | nil => simp [byteLen] at h2
        | cons d a =>
          simp only [List.cons_append, List.cons.injEq] at h1
          obtain ⟨rfl, h1⟩ := h1
          rw [byteLen_cons] at h2
          rw [if_pos (by omega), ih.2 ⟨h1, by omega⟩]
          rfl

theorem sliceFrom_iff {s r : List Char} {i : Nat} : sliceFrom s i = some r ↔ ∃ a, s = a ++ r ∧ byteLen a = i := by
  simp only [sliceFrom, Option.map_eq_some_iff]
  constructor
  · rintro ⟨⟨a, b⟩, h, rfl⟩; exact ⟨a, cutAt_iff.1 h⟩
  · rintro ⟨a, h⟩; exact ⟨(a, r), cutAt_iff.2 h, rfl⟩

theorem slice_iff {s r : List Char} {i j : Nat} :
    slice s i j = some r ↔ ∃ a b, s = a ++ r ++ b ∧ byteLen a = i ∧ byteLen a + byteLen r = j := by
  simp only [slice, Option.bind_eq_some_iff]
  constructor
  · rintro ⟨⟨p, b⟩, h, h'⟩
    obtain ⟨a, h1, h2⟩ := sliceFrom_iff.1 h'
    obtain ⟨h3, h4⟩ := cutAt_iff.1 h
    simp only at h1
    subst h1
    exact ⟨a, b, h3, h2, by rw [← byteLen_append]; exact h4⟩
  · rintro ⟨a, b, h1, h2, h3⟩
    exact ⟨(a ++ r, b), cutAt_iff.2 ⟨h1, by rw [byteLen_append]; exact h3⟩, sliceFrom_iff.2 ⟨a, rfl, h2⟩⟩

/-! ## Searching -/

theorem prefix_iff {p s : List Char} : p.isPrefixOf s = true ↔ ∃ b, s = p ++ b := by
  rw [List.isPrefixOf_iff_prefix]
  exact ⟨fun ⟨b, h⟩ => ⟨b, h.symm⟩, fun ⟨b, h⟩ => ⟨b, h.symm⟩⟩

theorem findFrom_some {p s : List Char} {off n : Nat} (h : findFrom p s off = some n) :
    ∃ a b, s = a ++ p ++ b ∧ n = off + byteLen a ∧ ∀ a' b', s = a' ++ p ++ b' → a.length ≤ a'.length := by
  induction s generalizing off with
  | nil =>
    simp only [findFrom] at h
    split at h
    · next hp =>
      obtain ⟨b, hb⟩ := prefix_iff.1 hp
      simp only [Option.some.injEq] at h
      exact ⟨[], b, by simpa using hb, by simp [byteLen, h], by simp⟩
    · simp at h
  | cons c s ih =>
    simp only [findFrom] at h
    split at h
    · next hp =>
      obtain ⟨b, hb⟩ := prefix_iff.1 hp
      simp only [Option.some.injEq] at h
      exact ⟨[], b, by simpa using hb, by simp [byteLen, h], by simp⟩
    · next hp =>
      obtain ⟨a, b, h1, h2, h3⟩ := ih h
      refine ⟨c :: a, b, by rw [h1]; rfl, by rw [byteLen_cons]; omega, fun a' b' h' => ?_⟩
      cases a' with
      | nil => exact absurd (prefix_iff.2 ⟨b', by simpa using h'⟩) hp
      | cons d a' =>
        simp only [List.cons_append, List.cons.injEq] at h'
        simpa using h3 a' b' h'.2

theorem findFrom_none {p s : List Char} {off : Nat} (h : findFrom p s off = none) (a b : List Char) : s ≠ a ++ p ++ b := by
  induction s generalizing off a with
  | nil =>
    simp only [findFrom] at h
    split at h
    · simp at h
    · next hp =>
      intro h'
      have h' := h'.symm
      simp only [List.append_eq_nil_iff] at h'
      exact hp (prefix_iff.2 ⟨[], by simp [h'.1.2]⟩)
  | cons c s ih =>
    simp only [findFrom] at h
    split at h
    · simp at h
    · next hp =>
      intro h'
      cases a with
      | nil => exact hp (prefix_iff.2 ⟨b, by simpa using h'⟩)
      | cons d a =>
        simp only [List.cons_append, List.cons.injEq] at h'
        exact ih h a h'.2

theorem matchFrom_skip {p s : List Char} {k off : Nat} (h : k ≤ s.length) :
    matchFrom p s k off = matchFrom p (s.drop k) 0 (off + byteLen (s.take k)) := by
  induction k generalizing s off with
  | zero => simp [byteLen]
  | succ k ih =>
    cases s with
    | nil => simp at h
    | cons c s =>
      simp only [List.length_cons] at h
      simp only [matchFrom, List.drop_succ_cons, List.take_succ_cons, byteLen_cons]
      rw [ih (by omega), Nat.add_assoc]

/-- After an occurrence the search goes on behind it. -/
theorem matchFrom_hit {p b : List Char} (hp : p ≠ []) {off : Nat} :
    matchFrom p (p ++ b) 0 off = off :: matchFrom p b 0 (off + byteLen p) := by
  cases p with
  | nil => exact absurd rfl hp
  | cons c p =>
    simp only [List.cons_append, matchFrom]
    rw [if_pos (show (c :: p).isPrefixOf (c :: (p ++ b)) = true from prefix_iff.2 ⟨b, rfl⟩), matchFrom_skip (by simp)]
    simp [byteLen_cons, Nat.add_assoc]

theorem matchFrom_miss {p s : List Char} {c : Char} (h : ¬ p.isPrefixOf (c :: s) = true) {off : Nat} :
    matchFrom p (c :: s) 0 off = matchFrom p s 0 (off + c.utf8Size) := by
  simp only [matchFrom]
  rw [if_neg h]

/-- Induction along the search for a non-empty pattern. -/
theorem scan_induction {p : List Char} (hp : p ≠ []) {P : List Char → Prop} (nil : P [])
    (hit : ∀ b, P b → P (p ++ b)) (miss : ∀ c s, ¬ p.isPrefixOf (c :: s) = true → P s → P (c :: s)) (s : List Char) : P s := by
  suffices h : ∀ n (s : List Char), s.length ≤ n → P s from h s.length s (Nat.le_refl _)
  intro n
  induction n with
  | zero => intro s h; rw [List.length_eq_zero_iff.1 (Nat.le_zero.1 h)]; exact nil
  | succ n ih =>
    intro s h
    cases s with
    | nil => exact nil
    | cons c s =>
      by_cases hc : p.isPrefixOf (c :: s) = true
      · obtain ⟨b, hb⟩ := prefix_iff.1 hc
        rw [hb]
        refine hit b (ih b ?_)
        have : (c :: s).length = p.length + b.length := by rw [hb]; simp
        have := List.length_pos_iff.2 hp
        omega
      · exact miss c s hc (ih s (by simpa using h))

theorem matchFrom_sound {p : List Char} (hp : p ≠ []) (s : List Char) :
    ∀ off n, n ∈ matchFrom p s 0 off → ∃ a b, s = a ++ p ++ b ∧ n = off + byteLen a := by
  induction s using scan_induction hp with
  | nil => intro off n h; simp [matchFrom] at h
  | hit b ih =>
    intro off n h
    rw [matchFrom_hit hp] at h
    rcases List.mem_cons.1 h with rfl | h
    · exact ⟨[], b, rfl, by simp [byteLen]⟩
    · obtain ⟨a', b', h1, h2⟩ := ih _ n h
      exact ⟨p ++ a', b', by rw [h1]; simp, by rw [byteLen_append]; omega⟩
  | miss c s hc ih =>
    intro off n h
    rw [matchFrom_miss hc] at h
    obtain ⟨a', b', h1, h2⟩ := ih _ n h
    exact ⟨c :: a', b', by rw [h1]; rfl, by rw [byteLen_cons]; omega⟩

/-- Every occurrence overlaps one that is found and does not start later. -/
theorem matchFrom_complete {p : List Char} (hp : p ≠ []) (s : List Char) :
    ∀ off a b, s = a ++ p ++ b → ∃ a' b', s = a' ++ p ++ b' ∧ off + byteLen a' ∈ matchFrom p s 0 off ∧
      a'.length ≤ a.length ∧ a.length < a'.length + p.length := by
  have hpos := List.length_pos_iff.2 hp
  induction s using scan_induction hp with
  | nil =>
    intro off a b h
    have h := h.symm
    simp only [List.append_eq_nil_iff] at h
    exact absurd h.1.2 hp
  | hit b ih =>
    intro off a b' h
    by_cases ha : a.length < p.length
    · exact ⟨[], b, rfl, by rw [matchFrom_hit hp]; simp [byteLen], by simp, by simpa using ha⟩
    · have hpre : ∃ a1, a = p ++ a1 := by
        have h1 : p <+: a := by
          have e : p ++ b = a ++ (p ++ b') := by rw [h]; simp
          exact List.prefix_of_prefix_length_le ⟨b, rfl⟩ ⟨p ++ b', e.symm⟩ (by omega)
        obtain ⟨a1, h1⟩ := h1
        exact ⟨a1, h1.symm⟩
      obtain ⟨a1, rfl⟩ := hpre
      have e : b = a1 ++ p ++ b' := by
        have : p ++ b = p ++ (a1 ++ p ++ b') := by rw [h]; simp
        exact List.append_cancel_left this
      obtain ⟨a', b'', h1, h2, h3, h4⟩ := ih (off + byteLen p) a1 b' e
      refine ⟨p ++ a', b'', by rw [h1]; simp, ?_, by simpa using h3, by simp; omega⟩
      rw [matchFrom_hit hp, byteLen_append]
      exact List.mem_cons_of_mem _ (by rw [← Nat.add_assoc]; exact h2)
  | miss c s hc ih =>
    intro off a b h
    cases a with
    | nil => exact absurd (prefix_iff.2 ⟨b, by simpa using h⟩) hc
    | cons d a =>
      simp only [List.cons_append, List.cons.injEq] at h
      obtain ⟨rfl, h⟩ := h
      obtain ⟨a', b', h1, h2, h3, h4⟩ := ih (off + c.utf8Size) a b h
      refine ⟨c :: a', b', by rw [h1]; rfl, ?_, by simpa using h3, by simp; omega⟩
      rw [matchFrom_miss hc, byteLen_cons, ← Nat.add_assoc]
      exact h2

/-! ## Splitting -/

theorem splitFrom_skip {p s acc : List Char} {k : Nat} : splitFrom p s k acc = splitFrom p (s.drop k) 0 acc := by
  induction k generalizing s with
  | zero => simp
  | succ k ih =>
    cases s with
    | nil => simp [splitFrom]
    | cons c s => simp only [splitFrom, List.drop_succ_cons]; exact ih

theorem splitFrom_hit {p b acc : List Char} (hp : p ≠ []) :
    splitFrom p (p ++ b) 0 acc = acc.reverse :: splitFrom p b 0 [] := by
  cases p with
  | nil => exact absurd rfl hp
  | cons c p =>
    simp only [List.cons_append, splitFrom]
    rw [if_pos (show (c :: p).isPrefixOf (c :: (p ++ b)) = true from prefix_iff.2 ⟨b, rfl⟩), splitFrom_skip]
    simp

theorem splitFrom_miss {p s acc : List Char} {c : Char} (h : ¬ p.isPrefixOf (c :: s) = true) :
    splitFrom p (c :: s) 0 acc = splitFrom p s 0 (c :: acc) := by
  simp only [splitFrom]
  rw [if_neg h]

theorem splitFrom_ne_nil (p s : List Char) (k : Nat) (acc : List Char) : splitFrom p s k acc ≠ [] := by
  induction s generalizing k acc with
  | nil => simp [splitFrom]
  | cons c s ih =>
    cases k with
    | succ k => simp only [splitFrom]; exact ih k acc
    | zero => simp only [splitFrom]; split <;> simp [ih]

theorem intercalate_cons {p a : List Char} {l : List (List Char)} (h : l ≠ []) : p.intercalate (a :: l) = a ++ p ++ p.intercalate l := by
  cases l with
  | nil => exact absurd rfl h
  | cons b l => simp [List.intercalate, List.intersperse]

theorem splitFrom_join {p : List Char} (hp : p ≠ []) (s : List Char) :
    ∀ acc, p.intercalate (splitFrom p s 0 acc) = acc.reverse ++ s := by
  induction s using scan_induction hp with
  | nil => intro acc; simp [splitFrom, List.intercalate]
  | hit b ih =>
    intro acc
    rw [splitFrom_hit hp, intercalate_cons (splitFrom_ne_nil _ _ _ _), ih]
    simp
  | miss c s hc ih => intro acc; rw [splitFrom_miss hc, ih]; simp

theorem splitFrom_free {p : List Char} (hp : p ≠ []) (s : List Char) :
    ∀ acc, (∀ a b, acc.reverse ++ s = a ++ p ++ b → acc.length ≤ a.length) → ∀ q ∈ splitFrom p s 0 acc, ∀ a b, q ≠ a ++ p ++ b := by
  have hpos := List.length_pos_iff.2 hp
  have key : ∀ (s acc : List Char), (∀ a b, acc.reverse ++ s = a ++ p ++ b → acc.length ≤ a.length) → ∀ a b, acc.reverse ≠ a ++ p ++ b := by
    intro s acc h a b e
    have h1 := h a (b ++ s) (by rw [e]; simp)
    have h2 := congrArg List.length e
    simp only [List.length_reverse, List.length_append] at h2
    omega
  induction s using scan_induction hp with
  | nil =>
    intro acc h q hq
    simp only [splitFrom, List.mem_singleton] at hq
    rw [hq]; exact key _ _ h
  | hit b ih =>
    intro acc h q hq
    rw [splitFrom_hit hp] at hq
    rcases List.mem_cons.1 hq with rfl | hq
    · exact key _ _ h
    · exact ih [] (by simp) q hq
  | miss c s hc ih =>
    intro acc h q hq
    rw [splitFrom_miss hc] at hq
    refine ih (c :: acc) (fun a b e => ?_) q hq
    have e' : acc.reverse ++ c :: s = a ++ p ++ b := by simpa using e
    have h1 := h a b e'
    rcases Nat.eq_or_lt_of_le h1 with h2 | h2
    · have : acc.reverse = a ∧ c :: s = p ++ b := List.append_inj (by simpa using e') (by simpa using h2)
      exact absurd (prefix_iff.2 ⟨b, this.2⟩) hc
    · rw [List.length_cons]; omega

/-- As many pieces as occurrences, and one more. -/
theorem splitFrom_length {p : List Char} (hp : p ≠ []) (s : List Char) :
    ∀ acc off, (splitFrom p s 0 acc).length = (matchFrom p s 0 off).length + 1 := by
  induction s using scan_induction hp with
  | nil => intro acc off; simp [splitFrom, matchFrom]
  | hit b ih => intro acc off; rw [splitFrom_hit hp, matchFrom_hit hp, List.length_cons, List.length_cons, ih [] (off + byteLen p)]
  | miss c s hc ih => intro acc off; rw [splitFrom_miss hc, matchFrom_miss hc, ih]

theorem intercalate_nil (l : List (List Char)) : ([] : List Char).intercalate l = l.flatten := by
  induction l with
  | nil => rfl
  | cons a l ih =>
    cases l with
    | nil => simp [List.intercalate]
    | cons b l => rw [intercalate_cons (by simp), ih]; simp

theorem split_join (s p : List Char) : p.intercalate (split s p) = s := by
  unfold split
  split
  · next h =>
    subst h
    rw [intercalate_nil]
    have : ∀ l : List Char, (l.map (fun c => [c])).flatten = l := fun l => by induction l with
      | nil => rfl
      | cons c l ih => simp [ih]
    simp [this]
  · next h => rw [splitFrom_join h]; simp

theorem split_free {s p : List Char} (hp : p ≠ []) {q : List Char} (hq : q ∈ split s p) (a b : List Char) : q ≠ a ++ p ++ b := by
  unfold split at hq
  rw [if_neg hp] at hq
  exact splitFrom_free hp s [] (by simp) q hq a b

theorem boundaries_iff {s : List Char} {off n : Nat} : n ∈ boundaries s off ↔ ∃ a b, s = a ++ b ∧ n = off + byteLen a := by
  induction s generalizing off with
  | nil =>
    simp only [boundaries, List.mem_singleton]
    constructor
    · rintro rfl; exact ⟨[], [], rfl, by simp [byteLen]⟩
    · rintro ⟨a, b, h, h'⟩
      have h := h.symm
      simp only [List.append_eq_nil_iff] at h
      rw [h.1] at h'
      simpa [byteLen] using h'
  | cons c s ih =>
    simp only [boundaries, List.mem_cons, ih]
    constructor
    · rintro (rfl | ⟨a, b, h, h'⟩)
      · exact ⟨[], c :: s, rfl, by simp [byteLen]⟩
      · exact ⟨c :: a, b, by rw [h]; rfl, by rw [byteLen_cons]; omega⟩
    · rintro ⟨a, b, h, h'⟩
      cases a with
      | nil => left; simpa [byteLen] using h'
      | cons d a =>
        simp only [List.cons_append, List.cons.injEq] at h
        obtain ⟨rfl, h⟩ := h
        right
        exact ⟨a, b, h, by rw [byteLen_cons] at h'; omega⟩

theorem matchIndices_sound {s p : List Char} {n : Nat} (h : n ∈ matchIndices s p) : ∃ a b, s = a ++ p ++ b ∧ n = byteLen a := by
  unfold matchIndices at h
  split at h
  · next hp =>
    obtain ⟨a, b, h1, h2⟩ := boundaries_iff.1 h
    exact ⟨a, b, by rw [hp]; simpa using h1, by omega⟩
  · next hp =>
    obtain ⟨a, b, h1, h2⟩ := matchFrom_sound hp s 0 n h
    exact ⟨a, b, h1, by omega⟩

end Scallop.Foreign
