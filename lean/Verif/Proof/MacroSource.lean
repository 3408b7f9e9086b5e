import Mathlib.Tactic.Ring
import Mathlib.Data.List.Basic
import Verif.Spec.MacroSource

/-!
# Lemmas on the text of a macro
-/

namespace Scallop.Macro

theorem len_append (a b : List Char) : len (a ++ b) = len a + len b := by simp [len]

theorem len_replicate (n : Nat) : len (List.replicate n ' ') = n := by
  have : (' ' : Char).utf8Size = 1 := by decide
  simp [len, this]

theorem len_ascii {l : List Char} (h : ∀ c ∈ l, c.utf8Size = 1) : len l = l.length := by
  induction l with
  | nil => rfl
  | cons c l ih =>
    have h1 := h c (by simp)
    have h2 := ih (fun d hd => h d (by simp [hd]))
    simp only [len, List.map_cons, List.sum_cons, List.length_cons] at h2 ⊢
    omega

theorem advance_eq (k : Nat) (s : State) :
    (s.advance k).num = s.num + k ∧ ∃ e, (s.advance k).lines ++ [(s.advance k).line] = s.lines ++ [s.line] ++ e ∧ (s.advance k).lines.length = s.lines.length + k ∧
      (∀ l ∈ e, l = []) ∧ (k = 0 → s.advance k = s) ∧ (0 < k → (s.advance k).line = []) := by
  induction k generalizing s with
  | zero => exact ⟨rfl, [], by simp [State.advance], rfl, by simp, fun _ => rfl, fun h => absurd h (by omega)⟩
  | succ k ih =>
    obtain ⟨h1, e, h2, h3, h4, h5, h6⟩ := ih ⟨s.lines ++ [s.line], [], s.num + 1⟩
    refine ⟨by simp only [State.advance, h1]; omega, [] :: e, ?_, ?_, ?_, by omega, fun _ => ?_⟩
    · simp only [State.advance, h2]; simp
    · simp only [State.advance, h3, List.length_append, List.length_singleton]; omega
    · intro l hl; rcases List.mem_cons.mp hl with rfl | h; exacts [rfl, h4 l h]
    · simp only [State.advance]
      by_cases hk : 0 < k
      · exact h6 hk
      · have := h5 (by omega); rw [this]

/-- There is always room for the spaces. -/
theorem pad_some (s : State) (t : Tok) : ∃ n, s.pad t = some (s.line ++ List.replicate n ' ') ∧
    n = if len s.line < (if t.back then t.col - 1 else t.col) then t.col - len s.line else 0 := by
  unfold State.pad
  cases hb : t.back with
  | false =>
    by_cases h : len s.line < t.col
    · refine ⟨t.col - len s.line, ?_, by simp [h]⟩
      have h1 : (t.col : Int) + 0 > (len s.line : Int) := by omega
      simp [h, Nat.lt_asymm h]
    · refine ⟨0, ?_, by simp [h]⟩
      have h1 : ¬ ((t.col : Int) > (len s.line : Int)) := by omega
      simp [h]
  | true =>
    by_cases h : len s.line < t.col - 1
    · refine ⟨t.col - len s.line, ?_, by simp [h]⟩
      have h1 : (t.col : Int) + -1 > (len s.line : Int) := by omega
      simp only [if_true, h1]
      rw [if_neg (by omega)]
    · refine ⟨0, ?_, by simp [h]⟩
      have h1 : ¬ ((t.col : Int) + -1 > (len s.line : Int)) := by omega
      simp only [if_true, h1, if_false, List.replicate_zero, List.append_nil]

/-- The column where a token is put. -/
def State.column (s : State) (t : Tok) : Nat :=
  len (s.advance (t.line - s.num)).line +
    (if len (s.advance (t.line - s.num)).line < t.start then t.col - len (s.advance (t.line - s.num)).line else 0)

theorem step_some (s : State) (t : Tok) : ∃ s', s.step t = some s' ∧ s'.num = s.num + (t.line - s.num) ∧
    s'.lines = (s.advance (t.line - s.num)).lines ∧
    ∃ n, s'.line = (s.advance (t.line - s.num)).line ++ List.replicate n ' ' ++ t.text ∧ len (s.advance (t.line - s.num)).line + n = s.column t := by
  obtain ⟨n, h1, h2⟩ := pad_some (s.advance (t.line - s.num)) t
  refine ⟨⟨(s.advance (t.line - s.num)).lines, (s.advance (t.line - s.num)).line ++ List.replicate n ' ' ++ t.text, (s.advance (t.line - s.num)).num⟩,
    by simp only [State.step, h1, Option.map_some], (advance_eq _ s).1, rfl, n, rfl, ?_⟩
  rw [h2]; rfl

/-- What is written stays. -/
theorem run_keeps (ts : List Tok) (s : State) : ∃ s', run ts s = some s' ∧
    (∀ (i : Nat) l, (s.lines ++ [s.line])[i]? = some l → ∃ b, (s'.lines ++ [s'.line])[i]? = some (l ++ b)) ∧
    (s'.lines ++ [s'.line]).flatten.filter (· ≠ ' ') = ((s.lines ++ [s.line]).flatten ++ ts.flatMap Tok.text).filter (· ≠ ' ') ∧
    s.num ≤ s'.num ∧ s'.num + s.lines.length = s.num + s'.lines.length := by
  induction ts generalizing s with
  | nil => exact ⟨s, rfl, fun i l h => ⟨[], by simpa using h⟩, by simp, Nat.le_refl _, rfl⟩
  | cons t ts ih =>
    obtain ⟨s₁, h1, h2, h3, n, h4, -⟩ := step_some s t
    obtain ⟨s', k1, k2, k3, k4, k5⟩ := ih s₁
    obtain ⟨-, e, a2, a3, a4, -⟩ := advance_eq (t.line - s.num) s
    refine ⟨s', by rw [run, h1]; exact k1, fun i l hi => ?_, ?_, by omega, ?_⟩
    · have hi' : ((s.advance (t.line - s.num)).lines ++ [(s.advance (t.line - s.num)).line])[i]? = some l := by
        rw [a2]
        rw [List.getElem?_append_left]
        · exact hi
        · exact (List.getElem?_eq_some_iff.mp hi).1
      obtain ⟨b, hb⟩ : ∃ b, (s₁.lines ++ [s₁.line])[i]? = some (l ++ b) := by
        rw [h3, h4]
        rw [List.getElem?_append] at hi' ⊢
        split at hi'
        · rename_i hlt; exact ⟨[], by rw [if_pos hlt, List.append_nil]; exact hi'⟩
        · rename_i hlt
          rw [if_neg hlt]
          have : i - (s.advance (t.line - s.num)).lines.length = 0 := by
            have := (List.getElem?_eq_some_iff.mp hi').1
            simp at this; omega
          rw [this] at hi' ⊢
          simp only [List.getElem?_cons_zero, Option.some.injEq] at hi'
          subst hi'
          exact ⟨List.replicate n ' ' ++ t.text, by simp⟩
      obtain ⟨b', hb'⟩ := k2 i _ hb
      exact ⟨b ++ b', by rw [hb', List.append_assoc]⟩
    · rw [k3, h3, h4]
      have e0 : e.flatten = [] := by simpa using a4
      have hr : (List.replicate n ' ').filter (· ≠ ' ') = [] := by simp [List.filter_replicate]
      have a2' := congrArg List.flatten a2
      simp only [List.flatten_append, List.flatten_cons, List.flatten_nil, List.append_nil, e0] at a2' ⊢
      simp only [List.filter_append, List.flatMap_cons, hr, List.append_nil] at a2' ⊢
      have a3' := congrArg (List.filter (· ≠ ' ')) a2'
      simp only [List.filter_append] at a3'
      rw [← List.append_assoc, ← List.append_assoc, a3']
    · rw [h3] at k5; omega

/-- A line of characters of one byte each. -/
def Bytes (l : List Char) : Prop := ∀ c ∈ l, c.utf8Size = 1

theorem step_place {D first : Nat} {s : State} {t : Tok} (hD : D ≤ 1) (hn : s.num ≤ t.line) (hf : first + s.lines.length = s.num) (hb : Bytes s.line)
    (ha : t.Ascii) (hc : t.back = true → 1 ≤ t.col) (hl : s.num = t.line → len s.line ≤ t.start + D)
    (h0 : D = 0 → t.back = true → s.num = t.line ∧ len s.line = t.start) :
    ∃ s', s.step t = some s' ∧ s'.num = t.line ∧ first + s'.lines.length = s'.num ∧ Bytes s'.line ∧
      ∃ d ≤ D, len s'.line = t.start + d + t.text.length ∧ HasAt first (s'.lines ++ [s'.line]) t.line (t.start + d) t.text := by
  obtain ⟨s', h1, h2, h3, n, h4, h5⟩ := step_some s t
  obtain ⟨-, e, -, a3, -, a5, a6⟩ := advance_eq (t.line - s.num) s
  have hA : Bytes (s.advance (t.line - s.num)).line := by
    by_cases hk : 0 < t.line - s.num
    · rw [a6 hk]; simp [Bytes]
    · rw [a5 (by omega)]; exact hb
  have hL : len (s.advance (t.line - s.num)).line ≤ t.start + D := by
    by_cases hk : 0 < t.line - s.num
    · rw [a6 hk]; simp [len]
    · rw [a5 (by omega)]; exact hl (by omega)
  have h0' : D = 0 → t.back = true → len (s.advance (t.line - s.num)).line = t.start := by
    intro hD hb
    obtain ⟨e1, e2⟩ := h0 hD hb
    rw [a5 (by omega)]; exact e2
  have hsp : (' ' : Char).utf8Size = 1 := by decide
  have hcol : t.start ≤ s.column t ∧ s.column t ≤ t.start + D := by
    unfold State.column
    by_cases h : len (s.advance (t.line - s.num)).line < t.start
    · rw [if_pos h]
      cases hbk : t.back with
      | false => simp only [Tok.start, hbk] at h ⊢; simp at h ⊢; omega
      | true =>
        have : D ≠ 0 := fun hD => absurd (h0' hD hbk) (by omega)
        have := hc hbk
        simp only [Tok.start, hbk, if_true] at h ⊢; omega
    · rw [if_neg h]; omega
  have hpre : Bytes ((s.advance (t.line - s.num)).line ++ List.replicate n ' ') := by
    intro c hc
    rcases List.mem_append.mp hc with h | h
    · exact hA c h
    · rw [(List.mem_replicate.mp h).2]; exact hsp
  have hlen : ((s.advance (t.line - s.num)).line ++ List.replicate n ' ').length = s.column t := by
    rw [← len_ascii hpre, len_append, len_replicate]; exact h5
  refine ⟨s', h1, by omega, by rw [h3]; omega, ?_, s.column t - t.start, by omega, ?_, by omega,
    (s.advance (t.line - s.num)).line ++ List.replicate n ' ', [], ?_, ?_⟩
  · rw [h4]
    intro c hc
    rcases List.mem_append.mp hc with h | h
    exacts [hpre c h, ha c h]
  · rw [h4, len_append, len_append, len_replicate, len_ascii ha]; omega
  · rw [List.getElem?_append_right (by rw [h3]; omega)]
    have : t.line - first - s'.lines.length = 0 := by rw [h3]; omega
    rw [this, h4]; simp
  · rw [hlen]; omega

theorem run_place {D first : Nat} (hD : D ≤ 1) (ts : List Tok) (s : State) (hl : Laid ts) (ht : D = 0 → Tight ts)
    (hf : first + s.lines.length = s.num) (hb : Bytes s.line)
    (hh : ∀ t ∈ ts.head?, s.num ≤ t.line ∧ (s.num = t.line → len s.line ≤ t.start + D) ∧
      (D = 0 → t.back = true → s.num = t.line ∧ len s.line = t.start)) :
    ∀ s', run ts s = some s' → ∀ t ∈ ts, ∃ d ≤ D, HasAt first (s'.lines ++ [s'.line]) t.line (t.start + d) t.text := by
  induction ts generalizing s with
  | nil => simp
  | cons t ts ih =>
    intro s' hr
    obtain ⟨la, lc, lb, ll⟩ := hl
    obtain ⟨h1, h2, h3⟩ := hh t rfl
    obtain ⟨s₁, e1, e2, e3, e4, d, hd, e5, e6⟩ := step_place hD h1 hf hb la lc h2 h3
    rw [run, e1] at hr
    replace hr : run ts s₁ = some s' := hr
    have hrest := ih s₁ ll (fun h => (ht h).2) e3 e4 (fun t' ht' => by
      have hbef := lb t' ht'
      refine ⟨?_, fun he => ?_, fun h0 hb' => ?_⟩
      · rcases hbef with h | h <;> omega
      · rcases hbef with h | h <;> omega
      · have := (ht h0).1 t' ht' hb'
        omega) s' hr
    intro u hu
    rcases List.mem_cons.mp hu with rfl | hu
    · obtain ⟨s₂, k1, k2, -⟩ := run_keeps ts s₁
      rw [k1] at hr
      obtain rfl := Option.some.inj hr
      obtain ⟨g1, a, b, g2, g3⟩ := e6
      obtain ⟨b', hb'⟩ := k2 _ _ g2
      exact ⟨d, hd, g1, a, b ++ b', by rw [hb']; simp, g3⟩
    · exact hrest u hu

end Scallop.Macro
