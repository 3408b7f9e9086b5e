import Verif.Model.Gallop
import Verif.Spec.Gallop

namespace Scallop
variable {β : Type*}

theorem cmpAt_lt {s : List β} {cmp : β → Bool} {i : Nat} (h : cmpAt s cmp i = true) : i < s.length := by
  unfold cmpAt at h
  split at h
  · rename_i x hx; exact (List.getElem?_eq_some_iff.mp hx).1
  · cases h

theorem cmpAt_iff {s : List β} {cmp : β → Bool} {i : Nat} :
    cmpAt s cmp i = true ↔ ∃ x, s[i]? = some x ∧ cmp x = true := by
  unfold cmpAt
  split <;> simp_all

theorem gallopUp_spec (s : List β) (cmp : β → Bool) : ∀ (fuel b k : Nat),
    cmpAt s cmp b = true → s.length ≤ fuel + b →
    ∃ k', (gallopUp s cmp fuel b (2 ^ k)).2 = 2 ^ k' ∧ b ≤ (gallopUp s cmp fuel b (2 ^ k)).1 ∧
      cmpAt s cmp (gallopUp s cmp fuel b (2 ^ k)).1 = true ∧
      cmpAt s cmp ((gallopUp s cmp fuel b (2 ^ k)).1 + (gallopUp s cmp fuel b (2 ^ k)).2) = false := by
  intro fuel
  induction fuel with
  | zero => intro b k h hl; have := cmpAt_lt h; omega
  | succ fuel ih =>
    intro b k h hl
    unfold gallopUp
    have hp : 0 < 2 ^ k := Nat.pos_of_ne_zero (by simp)
    split
    · rename_i hc
      have := ih (b + 2 ^ k) (k + 1) hc (by omega)
      rw [Nat.pow_succ] at this
      obtain ⟨k', h1, h2, h3, h4⟩ := this
      exact ⟨k', h1, by omega, h3, h4⟩
    · rename_i hc
      exact ⟨k, rfl, Nat.le_refl _, h, by simpa using hc⟩

theorem gallopDown_zero (s : List β) (cmp : β → Bool) (fuel b : Nat) : gallopDown s cmp fuel b 0 = b := by
  cases fuel <;> simp [gallopDown]

theorem gallopDown_spec (s : List β) (cmp : β → Bool) : ∀ (fuel b k : Nat), 2 ^ k ≤ fuel →
    cmpAt s cmp b = true → cmpAt s cmp (b + 2 * 2 ^ k) = false →
    b ≤ gallopDown s cmp fuel b (2 ^ k) ∧ cmpAt s cmp (gallopDown s cmp fuel b (2 ^ k)) = true ∧
      cmpAt s cmp (gallopDown s cmp fuel b (2 ^ k) + 1) = false := by
  intro fuel
  induction fuel with
  | zero => intro b k h; have : 0 < 2 ^ k := Nat.pos_of_ne_zero (by simp); omega
  | succ fuel ih =>
    intro b k hk h h2
    have hp : 0 < 2 ^ k := Nat.pos_of_ne_zero (by simp)
    unfold gallopDown
    rw [if_neg (by omega)]
    -- the new start satisfies `cmp`, and one step further does not
    have key : ∃ b', (if cmpAt s cmp (b + 2 ^ k) = true then b + 2 ^ k else b) = b' ∧ b ≤ b' ∧
        cmpAt s cmp b' = true ∧ cmpAt s cmp (b' + 2 ^ k) = false := by
      split
      · rename_i hc
        exact ⟨_, rfl, by omega, hc, by rw [Nat.add_assoc, ← Nat.two_mul]; exact h2⟩
      · rename_i hc
        exact ⟨_, rfl, Nat.le_refl _, h, by simpa using hc⟩
    obtain ⟨b', e, hb, h3, h4⟩ := key
    rw [e]
    cases k with
    | zero =>
      simp only [Nat.pow_zero] at *
      rw [show (1 / 2 : Nat) = 0 from rfl, gallopDown_zero]
      exact ⟨hb, h3, h4⟩
    | succ k =>
      have e2 : 2 ^ (k + 1) / 2 = 2 ^ k := by rw [Nat.pow_succ]; omega
      rw [e2]
      have h5 : 2 * 2 ^ k = 2 ^ (k + 1) := by rw [Nat.pow_succ]; omega
      have := ih b' k (by omega) h3 (by rw [h5]; exact h4)
      exact ⟨by omega, this.2⟩

/-- Result of `gallopIndex` when the start element satisfies the predicate. -/
theorem gallopIndex_start (s : List β) (cmp : β → Bool) (b : Nat)
    (h0 : cmpAt s cmp 0 = true) (hb : cmpAt s cmp b = true) :
    ∃ r, gallopIndex s b cmp = r + 1 ∧ b ≤ r ∧ cmpAt s cmp r = true ∧ cmpAt s cmp (r + 1) = false := by
  have := gallopUp_spec s cmp s.length b 0 hb (by omega)
  rw [Nat.pow_zero] at this
  obtain ⟨k, h1, h2, h3, h4⟩ := this
  unfold gallopIndex
  rw [if_pos h0]
  simp only
  rw [h1] at h4 ⊢
  cases k with
  | zero =>
    rw [show (2 ^ 0 / 2 : Nat) = 0 from rfl, gallopDown_zero]
    exact ⟨_, rfl, h2, h3, h4⟩
  | succ k =>
    have e2 : 2 ^ (k + 1) / 2 = 2 ^ k := by rw [Nat.pow_succ]; omega
    rw [e2]
    have h5 : 2 * 2 ^ k = 2 ^ (k + 1) := by rw [Nat.pow_succ]; omega
    have := gallopDown_spec s cmp (2 ^ k) _ k (Nat.le_refl _) h3 (by rw [h5]; exact h4)
    exact ⟨_, rfl, by omega, this.2⟩

theorem cmpAt_down {s : List β} {cmp : β → Bool} (hd : DownClosed s cmp) {i j : Nat} (hij : i ≤ j)
    (h : cmpAt s cmp j = true) : cmpAt s cmp i = true := by
  obtain ⟨y, hy, hc⟩ := cmpAt_iff.mp h
  have hj : j < s.length := cmpAt_lt h
  have hi : i < s.length := by omega
  refine cmpAt_iff.mpr ⟨s[i], by simp [hi], ?_⟩
  exact hd i j _ y hij (by simp [hi]) hy hc

theorem gallopIndex_boundary (s : List β) (cmp : β → Bool) (b : Nat) (hd : DownClosed s cmp)
    (hb : b = 0 ∨ cmpAt s cmp b = true ∨ cmpAt s cmp 0 = false) :
    IsBoundary s cmp b (gallopIndex s b cmp) := by
  by_cases h0 : cmpAt s cmp 0 = true
  · have hb' : cmpAt s cmp b = true := by
      rcases hb with h | h | h
      · subst h; exact h0
      · exact h
      · rw [h0] at h; cases h
    obtain ⟨r, e, h1, h2, h3⟩ := gallopIndex_start s cmp b h0 hb'
    rw [e]
    refine ⟨by omega, ?_, ?_⟩
    · intro i _ hi
      exact cmpAt_iff.mp (cmpAt_down hd (by omega) h2)
    · intro x hx
      unfold cmpAt at h3
      rw [hx] at h3
      exact h3
  · unfold gallopIndex
    rw [if_neg h0]
    refine ⟨Nat.le_refl _, by intro i _ _; omega, ?_⟩
    intro x hx
    cases hc : cmp x with
    | false => rfl
    | true =>
      exact absurd (cmpAt_down hd (Nat.zero_le b) (cmpAt_iff.mpr ⟨x, hx, hc⟩)) h0

/-- From position 0 the result never exceeds the length, whatever the predicate. -/
theorem gallopIndex_zero_le (s : List β) (cmp : β → Bool) : gallopIndex s 0 cmp ≤ s.length := by
  by_cases h0 : cmpAt s cmp 0 = true
  · obtain ⟨r, e, _, h2, _⟩ := gallopIndex_start s cmp 0 h0 h0
    have := cmpAt_lt h2
    omega
  · unfold gallopIndex
    rw [if_neg h0]; omega

end Scallop
