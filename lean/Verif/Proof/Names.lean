import Verif.Proof.PlanReads

/-!
# Names of generated relations are different
-/

namespace Scallop.Plan

/-- The list does not start with a digit. -/
def Stop (x : List Char) : Prop := ∀ c, x.head? = some c → c.isDigit = false

theorem digits_ne (i : Nat) : Nat.toDigits 10 i ≠ [] := by
  intro h
  have := Nat.length_toDigits_pos (b := 10) (n := i)
  rw [h] at this
  exact absurd this (by decide)

theorem digits_cancel {i j : Nat} {x y : List Char} (hx : Stop x) (hy : Stop y) (h : Nat.toDigits 10 i ++ x = Nat.toDigits 10 j ++ y) : i = j ∧ x = y := by
  have key : ∀ (a b x y : List Char), (∀ c ∈ a, c.isDigit = true) → (∀ c ∈ b, c.isDigit = true) → Stop x → Stop y → a ++ x = b ++ y → a = b := by
    intro a
    induction a with
    | nil =>
      intro b x y _ hb hx _ h
      cases b with
      | nil => rfl
      | cons c b =>
        rw [List.nil_append] at h
        have := hx c (by rw [h]; rfl)
        rw [hb c (by simp)] at this
        cases this
    | cons c a ih =>
      intro b x y ha hb hx hy h
      cases b with
      | nil =>
        rw [List.nil_append] at h
        have := hy c (by rw [← h]; rfl)
        rw [ha c (by simp)] at this
        cases this
      | cons d b =>
        rw [List.cons_append, List.cons_append, List.cons.injEq] at h
        rw [h.1, ih b x y (fun c hc => ha c (by simp [hc])) (fun c hc => hb c (by simp [hc])) hx hy h.2]
  have e := key _ _ x y (fun c hc => Nat.isDigit_of_mem_toDigits (by decide) (by decide) hc)
    (fun c hc => Nat.isDigit_of_mem_toDigits (by decide) (by decide) hc) hx hy h
  refine ⟨?_, ?_⟩
  · rw [← Nat.ofDigitChars_ten_toDigits (n := i), e, Nat.ofDigitChars_ten_toDigits]
  · rw [e] at h
    exact List.append_cancel_left h

/-- The characters of a permutation. -/
def permChars (π : Perm) : List Char := (permStr π).toList

/-- The characters of the components of a permutation, with the closing parenthesis. -/
def permsChars (ts : List Perm) : List Char := List.intercalate [','] ((permStrList ts).map String.toList) ++ [')']

theorem permChars_val (i : Nat) : permChars (.val i) = Nat.toDigits 10 i := by
  rw [permChars, permStr]
  exact Nat.toList_repr

theorem permChars_tup (ts : List Perm) : permChars (.tup ts) = '(' :: permsChars ts := by
  rw [permChars, permStr, String.toList_append, String.toList_append, String.toList_intercalate, permsChars]
  rfl

theorem permsChars_nil : permsChars [] = [')'] := rfl

theorem permsChars_one (t : Perm) : permsChars [t] = permChars t ++ [')'] := by
  rw [permsChars, permStrList, permStrList, List.map_cons, List.map_nil, List.intercalate_singleton]
  rfl

theorem permsChars_cons (t u : Perm) (ts : List Perm) : permsChars (t :: u :: ts) = permChars t ++ ',' :: permsChars (u :: ts) := by
  rw [permsChars, permStrList, permStrList, List.map_cons, List.map_cons, List.intercalate_cons_cons, permsChars, permStrList, List.map_cons]
  simp [permChars]

theorem permChars_head (t : Perm) : ∃ c l, permChars t = c :: l ∧ c ≠ ')' ∧ c ≠ ',' := by
  cases t with
  | val i =>
    rw [permChars_val]
    cases h : Nat.toDigits 10 i with
    | nil => exact absurd h (digits_ne i)
    | cons c l =>
      have := Nat.isDigit_of_mem_toDigits (b := 10) (n := i) (c := c) (by decide) (by decide) (by rw [h]; simp)
      refine ⟨c, l, rfl, ?_, ?_⟩
      · rintro rfl; revert this; decide
      · rintro rfl; revert this; decide
  | tup ts => exact ⟨'(', _, permChars_tup ts, by decide, by decide⟩

theorem stop_cons {c : Char} {l : List Char} (h : c.isDigit = false) : Stop (c :: l) := by
  intro d hd
  cases hd
  exact h

mutual
/-- The characters of a permutation can be read back. -/
theorem permChars_cancel : ∀ (a b : Perm) (x y : List Char), Stop x → Stop y → permChars a ++ x = permChars b ++ y → a = b ∧ x = y
  | .val i, .val j, x, y, hx, hy, h => by
    rw [permChars_val, permChars_val] at h
    obtain ⟨e1, e2⟩ := digits_cancel hx hy h
    exact ⟨by rw [e1], e2⟩
  | .val i, .tup us, x, y, hx, hy, h => by
    rw [permChars_val, permChars_tup] at h
    cases hd : Nat.toDigits 10 i with
    | nil => exact absurd hd (digits_ne i)
    | cons c l =>
      have := Nat.isDigit_of_mem_toDigits (b := 10) (n := i) (c := c) (by decide) (by decide) (by rw [hd]; simp)
      rw [hd] at h
      simp only [List.cons_append, List.cons.injEq] at h
      rw [h.1] at this
      exact absurd this (by decide)
  | .tup ts, .val j, x, y, hx, hy, h => by
    rw [permChars_val, permChars_tup] at h
    cases hd : Nat.toDigits 10 j with
    | nil => exact absurd hd (digits_ne j)
    | cons c l =>
      have := Nat.isDigit_of_mem_toDigits (b := 10) (n := j) (c := c) (by decide) (by decide) (by rw [hd]; simp)
      rw [hd] at h
      simp only [List.cons_append, List.cons.injEq] at h
      rw [← h.1] at this
      exact absurd this (by decide)
  | .tup ts, .tup us, x, y, hx, hy, h => by
    rw [permChars_tup, permChars_tup] at h
    simp only [List.cons_append, List.cons.injEq, true_and] at h
    obtain ⟨e1, e2⟩ := permsChars_cancel ts us x y h
    exact ⟨by rw [e1], e2⟩
theorem permsChars_cancel : ∀ (ts us : List Perm) (x y : List Char), permsChars ts ++ x = permsChars us ++ y → ts = us ∧ x = y
  | [], [], x, y, h => by
    rw [permsChars_nil] at h
    exact ⟨rfl, List.append_cancel_left h⟩
  | [], [u], x, y, h => by
    obtain ⟨c, l, hc, h1, _⟩ := permChars_head u
    rw [permsChars_nil, permsChars_one, hc] at h
    simp only [List.cons_append, List.cons.injEq] at h
    exact absurd h.1.symm h1
  | [], u :: u' :: us, x, y, h => by
    obtain ⟨c, l, hc, h1, _⟩ := permChars_head u
    rw [permsChars_nil, permsChars_cons, hc] at h
    simp only [List.cons_append, List.cons.injEq] at h
    exact absurd h.1.symm h1
  | [t], [], x, y, h => by
    obtain ⟨c, l, hc, h1, _⟩ := permChars_head t
    rw [permsChars_nil, permsChars_one, hc] at h
    simp only [List.cons_append, List.cons.injEq] at h
    exact absurd h.1 h1
  | [t], [u], x, y, h => by
    rw [permsChars_one, permsChars_one, List.append_assoc, List.append_assoc] at h
    obtain ⟨e1, e2⟩ := permChars_cancel t u _ _ (stop_cons (by decide)) (stop_cons (by decide)) h
    exact ⟨by rw [e1], by simpa using e2⟩
  | [t], u :: u' :: us, x, y, h => by
    rw [permsChars_one, permsChars_cons, List.append_assoc, List.append_assoc] at h
    obtain ⟨e1, e2⟩ := permChars_cancel t u _ _ (stop_cons (by decide)) (stop_cons (by decide)) h
    simp at e2
  | t :: t' :: ts, [], x, y, h => by
    obtain ⟨c, l, hc, h1, _⟩ := permChars_head t
    rw [permsChars_nil, permsChars_cons, hc] at h
    simp only [List.cons_append, List.cons.injEq] at h
    exact absurd h.1 h1
  | t :: t' :: ts, [u], x, y, h => by
    rw [permsChars_one, permsChars_cons, List.append_assoc, List.append_assoc] at h
    obtain ⟨e1, e2⟩ := permChars_cancel t u _ _ (stop_cons (by decide)) (stop_cons (by decide)) h
    simp at e2
  | t :: t' :: ts, u :: u' :: us, x, y, h => by
    rw [permsChars_cons, permsChars_cons, List.append_assoc, List.append_assoc] at h
    obtain ⟨e1, e2⟩ := permChars_cancel t u _ _ (stop_cons (by decide)) (stop_cons (by decide)) h
    simp only [List.cons.injEq, true_and] at e2
    obtain ⟨e3, e4⟩ := permsChars_cancel (t' :: ts) (u' :: us) x y e2
    exact ⟨by rw [e1, e3], e4⟩
end

theorem permStr_inj {a b : Perm} (h : permStr a = permStr b) : a = b := by
  have : permChars a ++ [] = permChars b ++ [] := by simp [permChars, h]
  exact (permChars_cancel a b [] [] (by intro c hc; cases hc) (by intro c hc; cases hc) this).1

mutual
theorem permChars_hash : ∀ (a : Perm), '#' ∉ permChars a
  | .val i => by
    rw [permChars_val]
    intro h
    have := Nat.isDigit_of_mem_toDigits (b := 10) (n := i) (c := '#') (by decide) (by decide) h
    revert this
    decide
  | .tup ts => by
    rw [permChars_tup]
    simp only [List.mem_cons, not_or]
    exact ⟨by decide, permsChars_hash ts⟩
theorem permsChars_hash : ∀ (ts : List Perm), '#' ∉ permsChars ts
  | [] => by rw [permsChars_nil]; decide
  | [t] => by
    rw [permsChars_one]
    simp only [List.mem_append, List.mem_singleton, not_or]
    exact ⟨permChars_hash t, by decide⟩
  | t :: u :: ts => by
    rw [permsChars_cons]
    simp only [List.mem_append, List.mem_cons, not_or]
    exact ⟨permChars_hash t, by decide, permsChars_hash (u :: ts)⟩
end

theorem permName_toList (p : String) (π : Perm) : (permName p π).toList = p.toList ++ ('#' :: 'p' :: 'e' :: 'r' :: 'm' :: '#' :: permChars π) := by
  rw [permName, String.toList_append, String.toList_append, permChars, List.append_assoc]
  rfl

/-- A separator that occurs in neither of the ends separates. -/
theorem split_last {c : Char} : ∀ {a b x y : List Char}, c ∉ x → c ∉ y → a ++ c :: x = b ++ c :: y → a = b ∧ x = y := by
  intro a b x y hx hy h
  rcases List.append_eq_append_iff.mp h with ⟨l, h1, h2⟩ | ⟨l, h1, h2⟩
  · cases l with
    | nil => exact ⟨by simpa using h1.symm, by simpa using h2⟩
    | cons d l =>
      rw [List.cons_append, List.cons.injEq] at h2
      exact absurd (by rw [h2.2]; simp) hx
  · cases l with
    | nil => exact ⟨by simpa using h1, by simpa using h2.symm⟩
    | cons d l =>
      rw [List.cons_append, List.cons.injEq] at h2
      exact absurd (by rw [h2.2]; simp) hy

theorem permName_inj {p q : String} {π ρ : Perm} (h : permName p π = permName q ρ) : p = q ∧ π = ρ := by
  have h := congrArg String.toList h
  rw [permName_toList, permName_toList] at h
  have e : ∀ (a x : List Char), a ++ ('#' :: 'p' :: 'e' :: 'r' :: 'm' :: '#' :: x) = (a ++ ['#', 'p', 'e', 'r', 'm']) ++ '#' :: x := by simp
  rw [e, e] at h
  obtain ⟨h1, h2⟩ := split_last (permChars_hash π) (permChars_hash ρ) h
  have h1 := List.append_cancel_right h1
  refine ⟨String.toList_inj.mp h1, permStr_inj (String.toList_inj.mp h2)⟩

theorem tempName_toList (i : Nat) : (tempName i).toList = '#' :: 't' :: 'e' :: 'm' :: 'p' :: '#' :: Nat.toDigits 10 i := by
  rw [tempName, String.toList_append, Nat.toString_eq_repr, Nat.toList_repr]
  rfl

theorem ntempName_toList (i : Nat) : (ntempName i).toList = '#' :: 'n' :: 't' :: 'e' :: 'm' :: 'p' :: '#' :: Nat.toDigits 10 i := by
  rw [ntempName, String.toList_append, Nat.toString_eq_repr, Nat.toList_repr]
  rfl

theorem r_digits (i : Nat) : 'r' ∉ Nat.toDigits 10 i := by
  intro h
  have := Nat.isDigit_of_mem_toDigits (b := 10) (n := i) (c := 'r') (by decide) (by decide) h
  revert this
  decide

theorem temp_ne_ntemp (i j : Nat) : tempName i ≠ ntempName j := by
  intro h
  have h := congrArg String.toList h
  rw [tempName_toList, ntempName_toList] at h
  simp at h

theorem temp_ne_perm (i : Nat) (p : String) (π : Perm) : tempName i ≠ permName p π := by
  intro h
  have h := congrArg String.toList h
  rw [tempName_toList, permName_toList] at h
  have : 'r' ∈ p.toList ++ ('#' :: 'p' :: 'e' :: 'r' :: 'm' :: '#' :: permChars π) := by simp
  rw [← h] at this
  simp [r_digits] at this

theorem ntemp_ne_perm (i : Nat) (p : String) (π : Perm) : ntempName i ≠ permName p π := by
  intro h
  have h := congrArg String.toList h
  rw [ntempName_toList, permName_toList] at h
  have : 'r' ∈ p.toList ++ ('#' :: 'p' :: 'e' :: 'r' :: 'm' :: '#' :: permChars π) := by simp
  rw [← h] at this
  simp [r_digits] at this

end Scallop.Plan
