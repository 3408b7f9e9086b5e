import Verif.Spec.Duration
import Mathlib.Tactic.Ring
import Mathlib.Tactic.FieldSimp
import Mathlib.Tactic.Positivity
import Mathlib.Tactic.NormNum

/-!
# Durations: the properties (C43)
-/

namespace Scallop.Dur

/-! ## Lemmas -/

theorem trunc_div (a : Int) (b : Nat) (hb : 0 < b) : trunc ((a : ℚ) / b) = a.tdiv b := by
  have hb' : (0 : ℚ) < b := by exact_mod_cast hb
  unfold trunc
  by_cases ha : 0 ≤ a
  · rw [if_pos (div_nonneg (by exact_mod_cast ha) hb'.le), Rat.floor_intCast_div_natCast, Int.tdiv_eq_ediv_of_nonneg ha]
  · have h : (a : ℚ) / b = -(((-a : Int) : ℚ) / b) := by push_cast; ring
    rw [if_neg, h, Int.ceil_neg, Rat.floor_intCast_div_natCast]
    · have : a = -(-a) := by omega
      rw [this, Int.neg_tdiv, Int.tdiv_eq_ediv_of_nonneg (by omega)]
      simp
    · rw [not_le]
      exact div_neg_of_neg_of_pos (by exact_mod_cast not_le.1 ha) hb'

theorem trunc_int (a : Int) : trunc (a : ℚ) = a := by simp [trunc]

theorem trunc_scale (n e : Int) : trunc ((n : ℚ) * 10 ^ e) = scale n e := by
  unfold scale
  split
  · rename_i h
    obtain ⟨k, rfl⟩ : ∃ k : Nat, e = -(k : Int) := ⟨e.natAbs, by omega⟩
    rw [zpow_neg, zpow_natCast, ← div_eq_mul_inv]
    have h2 := trunc_div n (10 ^ k) (by positivity)
    push_cast at h2
    rw [h2]
    simp
  · rename_i h
    obtain ⟨k, rfl⟩ : ∃ k : Nat, e = (k : Int) := ⟨e.natAbs, by omega⟩
    rw [zpow_natCast]
    have h2 := trunc_int (n * 10 ^ k)
    push_cast at h2
    rw [h2]
    simp

/-- The total number of nanoseconds in the fields. -/
def Proto.total (p : Proto) : Int :=
  p.nanos + 1000 * p.micros + 1000000 * p.millis +
    1000000000 * (p.secs + 60 * p.mins + 3600 * p.hours + 86400 * p.days + 604800 * p.weeks)

/-- The total number of months in the fields. -/
def Proto.allMonths (p : Proto) : Int := p.months + 12 * p.years

theorem number_nodec {c : Capture} (h : c.dec = none) : c.number = (c.intVal : ℚ) * 10 ^ (c.exp.getD 0) := by
  unfold Capture.number Capture.intVal written
  rw [h]
  have : digits [] = 0 := rfl
  split <;> simp [this]

theorem number_dec {c : Capture} {d : List (Fin 10)} (h : c.dec = some d) (hn : c.neg = false) :
    c.number = ((c.intVal * 10 ^ d.length + digits d : Int) : ℚ) * 10 ^ (c.exp.getD 0 - d.length) := by
  unfold Capture.number Capture.intVal written
  rw [h, hn, zpow_sub₀ (by norm_num)]
  simp
  have : (10 : ℚ) ^ d.length ≠ 0 := by positivity
  field_simp

theorem step_good (p : Proto) (c : Capture) (u : DUnit) (hc : c.Good u) :
    ∃ p', step p c = .ok p' ∧ p'.total = p.total + c.nanoseconds u ∧ p'.allMonths = p.allMonths + c.months u := by
  obtain ⟨⟨w, hw, hu⟩, he, hn⟩ := hc
  unfold step
  rw [hw]
  dsimp only
  unfold Capture.nanoseconds Capture.months Capture.isCalendar
  cases hd : c.dec with
  | none =>
    cases hx : c.exp with
    | none =>
      simp only [hu]
      refine ⟨_, rfl, ?_⟩
      have h1 := number_nodec hd
      rw [hx] at h1
      simp only [Option.getD_none, zpow_zero, mul_one] at h1
      have h2 : ∀ k : Int, trunc (c.number * k) = c.intVal * k := fun k => by
        rw [h1, ← trunc_int (c.intVal * k)]
        push_cast
        rfl
      have h3 : trunc c.number = c.intVal := by rw [h1, trunc_int]
      rw [h2, h3]
      cases u <;> simp [Proto.add, Proto.total, Proto.allMonths, DUnit.nanos] <;> ring
    | some e =>
      have he' := he e hx
      simp only [hd, Option.getD_none, List.length_nil, Int.natCast_zero, sub_zero] at he'
      simp only [he', if_true, hu]
      refine ⟨_, rfl, ?_, by simp [Proto.allMonths]⟩
      have h1 := number_nodec hd
      rw [hx] at h1
      simp only [Option.getD_some] at h1
      have h2 : c.number * u.nanos = ((u.nanos * c.intVal : Int) : ℚ) * 10 ^ e := by
        rw [h1]; push_cast; ring
      rw [h2, trunc_scale]
      simp [Proto.total]
      ring
  | some d =>
    have hn' := hn (by simp [hd])
    have h1 := number_dec hd hn'
    cases hx : c.exp with
    | none =>
      simp only [hu]
      refine ⟨_, rfl, ?_, by simp [Proto.allMonths]⟩
      rw [hx] at h1
      simp only [Option.getD_none, zero_sub] at h1
      have h2 : c.number * u.nanos = ((u.nanos * (c.intVal * 10 ^ d.length + digits d) : Int) : ℚ) / ((10 ^ d.length : Nat) : ℚ) := by
        rw [h1, zpow_neg, zpow_natCast]; push_cast; rw [div_eq_mul_inv]; ring
      rw [h2, trunc_div _ _ (by positivity)]
      simp [Proto.total]
      ring
    | some e =>
      have he' := he e hx
      rw [hd] at he'
      simp only [Option.getD_some] at he'
      simp only [he', if_true, hu]
      refine ⟨_, rfl, ?_, by simp [Proto.allMonths]⟩
      rw [hx] at h1
      simp only [Option.getD_some] at h1
      have h2 : c.number * u.nanos = ((u.nanos * (c.intVal * 10 ^ d.length + digits d) : Int) : ℚ) * 10 ^ (e - d.length) := by
        rw [h1]; push_cast; ring
      rw [h2, trunc_scale]
      simp [Proto.total]
      ring

theorem steps_good : ∀ (cs : List (Capture × DUnit)) (p : Proto), (∀ c ∈ cs, c.1.Good c.2) →
    ∃ p', steps p (cs.map Prod.fst) = .ok p' ∧ p'.total = p.total + (cs.map (fun c => c.1.nanoseconds c.2)).sum ∧
      p'.allMonths = p.allMonths + (cs.map (fun c => c.1.months c.2)).sum
  | [], p, _ => ⟨p, rfl, by simp, by simp⟩
  | c :: cs, p, h => by
    obtain ⟨p1, e1, e2, e3⟩ := step_good p c.1 c.2 (h c (by simp))
    obtain ⟨p2, f1, f2, f3⟩ := steps_good cs p1 (fun c hc => h c (by simp [hc]))
    refine ⟨p2, ?_, ?_, ?_⟩
    · simp [steps, e1, Res.bind, f1]
    · rw [f2, e2]; simp; ring
    · rw [f3, e3]; simp; ring

theorem bind_ok {α β : Type} {x : Res α} {f : α → Res β} {r : β} : x.bind f = .ok r ↔ ∃ a, x = .ok a ∧ f a = .ok r := by
  cases x <;> simp [Res.bind]

theorem inBounds_iff (n : Int) : inBounds n = true ↔ -maxNanos ≤ n ∧ n ≤ maxNanos := by simp [inBounds]

theorem isize_iff (n : Int) : isize n = true ↔ -(2 ^ 63) ≤ n ∧ n < 2 ^ 63 := by simp [isize]

theorem trySeconds_ok {s d : Int} : trySeconds s = .ok d ↔ inBounds (s * 1000000000) = true ∧ d = s * 1000000000 := by
  unfold trySeconds
  by_cases h : inBounds (s * 1000000000) = true
  · rw [if_pos h]; exact ⟨fun e => ⟨h, (Res.ok.inj e).symm⟩, fun e => by rw [e.2]⟩
  · rw [if_neg h]; exact ⟨fun e => (nomatch e), fun e => absurd e.1 h⟩

theorem addDur_ok {a b d : Int} : addDur a b = .ok d ↔ inBounds (a + b) = true ∧ d = a + b := by
  unfold addDur
  by_cases h : inBounds (a + b) = true
  · rw [if_pos h]; exact ⟨fun e => ⟨h, (Res.ok.inj e).symm⟩, fun e => by rw [e.2]⟩
  · rw [if_neg h]; exact ⟨fun e => (nomatch e), fun e => absurd e.1 h⟩

theorem into_eq (p : Proto) (r : Rel) : p.into = .ok r ↔
    ∃ s n : Int, s = p.secs + 60 * p.mins + 3600 * p.hours + 86400 * p.days + 604800 * p.weeks +
        (p.nanos + 1000 * p.micros + 1000000 * p.millis).tdiv 1000000000 ∧
      n = (p.nanos + 1000 * p.micros + 1000000 * p.millis).tmod 1000000000 ∧ isize s = true ∧
      (-(2 ^ 31) ≤ p.allMonths ∧ p.allMonths < 2 ^ 31) ∧ inBounds (s * 1000000000) = true ∧ inBounds (s * 1000000000 + n) = true ∧
      r = ⟨p.allMonths, s * 1000000000 + n⟩ := by
  unfold Proto.into
  dsimp only
  have hm : (decide (-(2 ^ 31) ≤ p.months + 12 * p.years) && decide (p.months + 12 * p.years < 2 ^ 31)) = true ↔
      (-(2 ^ 31) ≤ p.allMonths ∧ p.allMonths < 2 ^ 31) := by
    rw [Bool.and_eq_true, decide_eq_true_eq, decide_eq_true_eq]
    rfl
  constructor
  · intro h
    refine ⟨_, _, rfl, rfl, ?_⟩
    split at h
    · rename_i h1
      split at h
      · rename_i h2
        obtain ⟨d, e1, h⟩ := bind_ok.1 h
        obtain ⟨t, e2, h⟩ := bind_ok.1 h
        obtain ⟨b1, rfl⟩ := trySeconds_ok.1 e1
        obtain ⟨b2, rfl⟩ := addDur_ok.1 e2
        simp only [Res.ok.injEq] at h
        exact ⟨h1, hm.1 h2, b1, b2, h.symm⟩
      · simp at h
    · simp at h
  · rintro ⟨s, n, rfl, rfl, h1, h2, h3, h4, rfl⟩
    rw [if_pos h1, if_pos (hm.2 h2)]
    exact bind_ok.2 ⟨_, trySeconds_ok.2 ⟨h3, rfl⟩, bind_ok.2 ⟨_, addDur_ok.2 ⟨h4, rfl⟩, rfl⟩⟩

theorem into_ok (p : Proto) (r : Rel) (h : p.into = .ok r) : r.nanos = p.total ∧ r.months = p.allMonths := by
  obtain ⟨s, n, e1, e2, -, -, -, -, rfl⟩ := (into_eq p r).1 h
  have key := Int.mul_tdiv_add_tmod (p.nanos + 1000 * p.micros + 1000000 * p.millis) 1000000000
  refine ⟨?_, rfl⟩
  simp only [Proto.total]
  omega

theorem into_defined (p : Proto) (h1 : -(maxNanos - 1000000000) ≤ p.total ∧ p.total ≤ maxNanos - 1000000000)
    (h2 : -(2 ^ 31) ≤ p.allMonths ∧ p.allMonths < 2 ^ 31) : ∃ r, p.into = .ok r := by
  have key := Int.mul_tdiv_add_tmod (p.nanos + 1000 * p.micros + 1000000 * p.millis) 1000000000
  have hm : ((p.nanos + 1000 * p.micros + 1000000 * p.millis).tmod 1000000000).natAbs < 1000000000 := by
    rw [Int.natAbs_tmod]
    exact Nat.mod_lt _ (by omega)
  have hx : maxNanos = 9223372036854775807000000 := by decide
  simp only [Proto.total] at h1
  refine ⟨_, (into_eq p _).2 ⟨_, _, rfl, rfl, ?_, h2, ?_, ?_, rfl⟩⟩
  · rw [isize_iff]; omega
  · rw [inBounds_iff]; omega
  · rw [inBounds_iff]; omega

/-! ## C43 -/

/-- **C43 (partial)**: a duration written as numbers with units, in which no number with decimals is negative, is parsed into the sum of
what is written: whole months and years as months, everything else in nanoseconds, each number rounded towards zero. It is accepted
whenever the sums are in range (short of one second). -/
theorem c43_partial (cs : List (Capture × DUnit)) (h : ∀ c ∈ cs, c.1.Good c.2) (c : Capture) (cs' : List Capture)
    (e : cs.map Prod.fst = c :: cs') :
    (∀ r, parse (.matches c cs') = .ok r →
      r.nanos = (cs.map (fun c => c.1.nanoseconds c.2)).sum ∧ r.months = (cs.map (fun c => c.1.months c.2)).sum) ∧
    (|(cs.map (fun c => c.1.nanoseconds c.2)).sum| ≤ maxNanos - 1000000000 → -(2 ^ 31) ≤ (cs.map (fun c => c.1.months c.2)).sum →
      (cs.map (fun c => c.1.months c.2)).sum < 2 ^ 31 → ∃ r, parse (.matches c cs') = .ok r) := by
  obtain ⟨p, e1, e2, e3⟩ := steps_good cs {} h
  have t0 : ({} : Proto).total = 0 := rfl
  have m0 : ({} : Proto).allMonths = 0 := rfl
  rw [t0, Int.zero_add] at e2
  rw [m0, Int.zero_add] at e3
  rw [e] at e1
  have hp : parse (.matches c cs') = p.into := by simp [parse, e1, Res.bind]
  rw [hp]
  refine ⟨fun r hr => ?_, fun h1 h2 h3 => into_defined p ?_ ?_⟩
  · obtain ⟨g1, g2⟩ := into_ok p r hr
    exact ⟨by rw [g1, e2], by rw [g2, e3]⟩
  · rw [e2]
    exact abs_le.1 h1
  · rw [e3]
    exact ⟨h2, h3⟩

/-- `1.5 hours 2 months -30s`. -/
private def ex : List (Capture × DUnit) :=
  [(⟨false, [1], some [5], none, some "hours".toList⟩, .hour), (⟨false, [2], none, none, some "months".toList⟩, .month),
    (⟨true, [3, 0], none, none, some "s".toList⟩, .sec)]
example : ∀ c ∈ ex, c.1.Good c.2 := by
  intro c hc
  simp only [ex, List.mem_cons, List.not_mem_nil, or_false] at hc
  rcases hc with rfl | rfl | rfl <;> exact ⟨⟨_, rfl, by decide +kernel⟩, by simp, by simp⟩
example : parse (.matches ⟨false, [1], some [5], none, some "hours".toList⟩
    [⟨false, [2], none, none, some "months".toList⟩, ⟨true, [3, 0], none, none, some "s".toList⟩]) = .ok ⟨2, 5370000000000⟩ := by decide +kernel

/-- **C43**: a lone number is a number of seconds. -/
theorem c43_number (neg : Bool) (ds : List (Fin 10)) (r : Rel) (h : parse (.number neg ds) = .ok r) :
    r.months = 0 ∧ (r.nanos : ℚ) = (if neg then -1 else 1) * written ds [] * 1000000000 := by
  have d0 : digits [] = 0 := rfl
  unfold parse at h
  dsimp only at h
  by_cases hi : isize (if neg = true then -digits ds else digits ds) = true
  · rw [if_pos hi] at h
    obtain ⟨d, e1, h⟩ := bind_ok.1 h
    obtain ⟨-, rfl⟩ := trySeconds_ok.1 e1
    simp only [Res.ok.injEq] at h
    subst h
    refine ⟨rfl, ?_⟩
    cases neg <;> simp [written, d0]
  · rw [if_neg hi] at h
    simp at h

theorem ite_some {α : Type} {c : Bool} {a u : α} {e : Option α} (h : (if c = true then some a else e) = some u) :
    (c = true ∧ a = u) ∨ e = some u := by
  cases c
  · exact .inr (by simpa using h)
  · exact .inl ⟨rfl, by simpa using h⟩

theorem starts_prefix {a b : List Char} (h : starts a b = true) : b <+: a := List.isPrefixOf_iff_prefix.1 h

theorem and_right {a b : Bool} (h : (a && b) = true) : b = true := by cases a <;> simp_all
theorem or_cases {a b : Bool} (h : (a || b) = true) : a = true ∨ b = true := by cases a <;> simp_all

/-- **C43**: a word is only read as a unit if, ignoring case, it abbreviates a name of that unit. -/
theorem c43_units (w : List Char) (u : DUnit) (h : parseUnit w = some u) : ∃ n ∈ u.names, w.map Char.toLower <+: n.toList := by
  unfold parseUnit at h
  dsimp only at h
  rcases ite_some h with ⟨c, rfl⟩ | h
  · rcases or_cases (and_right c) with c | c
    · exact ⟨_, .head _, starts_prefix c⟩
    · exact ⟨_, .tail _ (.head _), starts_prefix c⟩
  rcases ite_some h with ⟨c, rfl⟩ | h
  · rcases or_cases c with c | c
    · rcases or_cases c with c | c
      · exact ⟨_, .head _, starts_prefix (and_right c)⟩
      · exact ⟨_, .tail _ (.head _), starts_prefix (and_right c)⟩
    · exact ⟨_, .tail _ (.tail _ (.head _)), starts_prefix (and_right c)⟩
  rcases ite_some h with ⟨c, rfl⟩ | h
  · rcases or_cases c with c | c
    · exact ⟨_, .head _, starts_prefix (and_right c)⟩
    · exact ⟨_, .tail _ (.head _), starts_prefix (and_right c)⟩
  rcases ite_some h with ⟨c, rfl⟩ | h
  · rcases or_cases (and_right c) with c | c
    · exact ⟨_, .head _, starts_prefix c⟩
    · exact ⟨_, .tail _ (.head _), starts_prefix c⟩
  rcases ite_some h with ⟨c, rfl⟩ | h
  · rcases or_cases (and_right c) with c | c
    · exact ⟨_, .head _, starts_prefix c⟩
    · exact ⟨_, .tail _ (.head _), starts_prefix c⟩
  rcases ite_some h with ⟨c, rfl⟩ | h
  · rcases or_cases (and_right c) with c | c
    · exact ⟨_, .head _, starts_prefix c⟩
    · exact ⟨_, .tail _ (.head _), starts_prefix c⟩
  rcases ite_some h with ⟨c, rfl⟩ | h
  · exact ⟨_, .head _, starts_prefix (and_right c)⟩
  rcases ite_some h with ⟨c, rfl⟩ | h
  · exact ⟨_, .head _, starts_prefix (and_right c)⟩
  rcases ite_some h with ⟨c, rfl⟩ | h
  · exact ⟨_, .head _, starts_prefix (and_right c)⟩
  rcases ite_some h with ⟨c, rfl⟩ | h
  · rcases or_cases (and_right c) with c | c
    · exact ⟨_, .head _, starts_prefix c⟩
    · exact ⟨_, .tail _ (.head _), starts_prefix c⟩
  · exact nomatch h

/-- **C43**: the full names are understood, in any mixture of cases. -/
theorem c43_names (w : List Char) (u : DUnit) (n : String) (hn : n ∈ u.names) (h : w.map Char.toLower = n.toList) : parseUnit w = some u := by
  unfold parseUnit
  rw [h]
  cases u <;> simp only [DUnit.names, List.mem_cons, List.not_mem_nil, or_false] at hn <;> (try rcases hn with rfl | rfl | rfl) <;> (try rcases hn with rfl | rfl) <;>
    (try subst hn) <;> simp +decide

/-- **C43**: where the first letters leave it open, the case decides: `m` begins minutes and `M` begins months. -/
theorem c43_minutes_months (w : List Char) : (parseUnit w = some .min → 'm' ∈ w.head? ∨ "min".toList <+: w.map Char.toLower) ∧
    (parseUnit w = some .month → 'M' ∈ w.head? ∨ "mo".toList <+: w.map Char.toLower) ∧
    parseUnit ['m'] = some .min ∧ parseUnit ['M'] = some .month := by
  have hp : ∀ (c : Char), starts w [c] = true → c ∈ w.head? := by
    intro c h
    obtain ⟨t, rfl⟩ := starts_prefix h
    simp
  refine ⟨?_, ?_, by decide +kernel, by decide +kernel⟩
  · intro h
    unfold parseUnit at h
    dsimp only at h
    rcases ite_some h with ⟨_, ⟨⟩⟩ | h
    rcases ite_some h with ⟨_, ⟨⟩⟩ | h
    rcases ite_some h with ⟨_, ⟨⟩⟩ | h
    rcases ite_some h with ⟨_, ⟨⟩⟩ | h
    rcases ite_some h with ⟨c, -⟩ | h
    · rcases or_cases (Bool.and_eq_true _ _ ▸ c).1 with c | c
      · exact .inr (starts_prefix c)
      · exact .inl (hp _ c)
    · rcases ite_some h with ⟨_, ⟨⟩⟩ | h
      rcases ite_some h with ⟨_, ⟨⟩⟩ | h
      rcases ite_some h with ⟨_, ⟨⟩⟩ | h
      rcases ite_some h with ⟨_, ⟨⟩⟩ | h
      rcases ite_some h with ⟨_, ⟨⟩⟩ | h
      cases h
  · intro h
    unfold parseUnit at h
    dsimp only at h
    rcases ite_some h with ⟨_, ⟨⟩⟩ | h
    rcases ite_some h with ⟨_, ⟨⟩⟩ | h
    rcases ite_some h with ⟨_, ⟨⟩⟩ | h
    rcases ite_some h with ⟨_, ⟨⟩⟩ | h
    rcases ite_some h with ⟨_, ⟨⟩⟩ | h
    rcases ite_some h with ⟨_, ⟨⟩⟩ | h
    rcases ite_some h with ⟨_, ⟨⟩⟩ | h
    rcases ite_some h with ⟨_, ⟨⟩⟩ | h
    rcases ite_some h with ⟨c, -⟩ | h
    · rcases or_cases (Bool.and_eq_true _ _ ▸ c).1 with c | c
      · exact .inr (starts_prefix c)
      · exact .inl (hp _ c)
    · rcases ite_some h with ⟨_, ⟨⟩⟩ | h
      cases h

/-- Finding: a minus sign in front of a number with decimals applies to the whole part only: `-1.5s` is minus half a second, and `-0.5s` is
half a second. -/
theorem c43_negative_decimal :
    parse (.matches ⟨true, [1], some [5], none, some "s".toList⟩ []) = .ok ⟨0, -500000000⟩ ∧
    (⟨true, [1], some [5], none, some "s".toList⟩ : Capture).nanoseconds .sec = -1500000000 ∧
    parse (.matches ⟨true, [0], some [5], none, some "s".toList⟩ []) = .ok ⟨0, 500000000⟩ ∧
    (⟨true, [0], some [5], none, some "s".toList⟩ : Capture).nanoseconds .sec = -500000000 := by
  refine ⟨by decide +kernel, ?_, by decide +kernel, ?_⟩
  · have : (⟨true, [1], some [5], none, some "s".toList⟩ : Capture).number = -3 / 2 := by
      have h1 : digits [1] = 1 := rfl
      have h5 : digits [5] = 5 := rfl
      simp [Capture.number, written, h1, h5]
      norm_num
    simp only [Capture.nanoseconds, this, Capture.isCalendar]
    norm_num [DUnit.nanos, trunc]
  · have : (⟨true, [0], some [5], none, some "s".toList⟩ : Capture).number = -1 / 2 := by
      have h1 : digits [0] = 0 := rfl
      have h5 : digits [5] = 5 := rfl
      simp [Capture.number, written, h1, h5]
      norm_num
    simp only [Capture.nanoseconds, this, Capture.isCalendar]
    norm_num [DUnit.nanos, trunc]

/-- Finding: instead of reporting an error, `9223372036854775s 900ms` panics, as the sum of seconds and nanoseconds is not checked. -/
theorem c43_overflow_panics : ∃ c cs, parse (.matches c cs) = .panic :=
  ⟨⟨false, [9, 2, 2, 3, 3, 7, 2, 0, 3, 6, 8, 5, 4, 7, 7, 5], none, none, some "s".toList⟩,
    [⟨false, [9, 0, 0], none, none, some "ms".toList⟩], by decide +kernel⟩

end Scallop.Dur
