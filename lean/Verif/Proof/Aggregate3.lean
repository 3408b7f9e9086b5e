import Verif.Proof.Aggregate2
import Verif.Proof.Operators
import Mathlib.Data.List.TakeWhile

/-!
# Lemmas about aggregates: argmin and argmax
-/

namespace Scallop.Agg

set_option linter.unusedSectionVars false

variable {V T W Ω α β : Type*} {c : Prov T W} {P : T → Prop} {holds : T → Ω → Prop}

theorem better_true_iff {κ : Type*} [LinearOrder κ] (isMin : Bool) (a b : κ) : better isMin a b = true ↔ (if isMin then a < b else b < a) := by
  cases isMin <;> simp [better]

theorem mem_falseRange (isMin : Bool) (S : List (Elem (Tup V) T)) (start stop : Nat) (y : Elem (Tup V) T) :
    y ∈ falseRange isMin S start stop ↔ ∃ j : Nat, S[j]? = some y ∧ (if isMin then j < start else stop ≤ j) := by
  cases isMin with
  | true =>
    simp only [falseRange, if_true, List.mem_iff_getElem?, List.getElem?_take]
    constructor
    · rintro ⟨j, hj⟩
      split at hj
      · exact ⟨j, hj, by assumption⟩
      · cases hj
    · rintro ⟨j, hj, hlt⟩; exact ⟨j, by rw [if_pos hlt, hj]⟩
  | false =>
    simp only [falseRange, Bool.false_eq_true, if_false, List.mem_iff_getElem?, List.getElem?_drop]
    constructor
    · rintro ⟨j, hj⟩; exact ⟨stop + j, hj, by omega⟩
    · rintro ⟨j, hj, hle⟩; exact ⟨j - stop, by rw [show stop + (j - stop) = j by omega, hj]⟩

section
variable [LinearOrder V] {κ : Type*} [LinearOrder κ]

/-- What the proofs below need of a sorted list of keys and elements: it is empty or splits into the smallest key and the greater ones. -/
theorem sorted_split {L : List (κ × Elem (Tup V) T)} (hs : L.Pairwise (fun a b => a.1 ≤ b.1)) (hne : L ≠ []) :
    ∃ m, 1 ≤ m ∧ m ≤ L.length ∧ strata (L.map Prod.fst) = 0 :: List.range' m (L.length - m) ∧
      (∀ (i : Nat) p, i < m → L[i]? = some p → ∀ q ∈ L, p.1 ≤ q.1) ∧
      (∀ (i j : Nat) p q, i < m → m ≤ j → L[i]? = some p → L[j]? = some q → p.1 < q.1) := by
  obtain ⟨⟨k0, e0⟩, R, rfl⟩ := List.exists_cons_of_ne_nil hne
  rw [List.pairwise_cons] at hs
  obtain ⟨h0, hR⟩ := hs
  set A := R.takeWhile (fun p => decide (¬ k0 < p.1)) with hA
  set B := R.dropWhile (fun p => decide (¬ k0 < p.1)) with hB
  have hAB : R = A ++ B := (List.takeWhile_append_dropWhile).symm
  have hAle : ∀ a ∈ A, a.1 = k0 := by
    intro a ha
    have h1 := List.mem_takeWhile_imp ha
    simp only [decide_eq_true_eq, not_lt] at h1
    exact le_antisymm h1 (h0 a (by rw [hAB]; simp [ha]))
  have hBlt : ∀ b ∈ B, k0 < b.1 := by
    intro b hb
    cases hBe : B with
    | nil => rw [hBe] at hb; simp at hb
    | cons b0 B' =>
      have hb0 : k0 < b0.1 := by
        have := List.head_dropWhile_not (fun p : κ × Elem (Tup V) T => decide (¬ k0 < p.1)) (l := R) (by rw [← hB, hBe]; simp)
        simp only [← hB, hBe, List.head_cons] at this
        simpa using this
      rw [hAB, List.pairwise_append] at hR
      have hp := hR.2.1
      rw [hBe, List.pairwise_cons] at hp
      rw [hBe] at hb
      rcases List.mem_cons.1 hb with rfl | hb
      · exact hb0
      · exact lt_of_lt_of_le hb0 (hp.1 b hb)
  have hlen : R.length = A.length + B.length := by rw [hAB, List.length_append]
  have hidxA : ∀ (i : Nat) p, i < 1 + A.length → ((k0, e0) :: R)[i]? = some p → p.1 = k0 := by
    intro i p hi hp
    cases i with
    | zero => simp at hp; rw [← hp]
    | succ i =>
      rw [List.getElem?_cons_succ, hAB, List.getElem?_append_left (by omega)] at hp
      exact hAle p (List.mem_of_getElem? hp)
  have hidxB : ∀ (j : Nat) q, 1 + A.length ≤ j → ((k0, e0) :: R)[j]? = some q → k0 < q.1 := by
    intro j q hj hq
    obtain ⟨j, rfl⟩ : ∃ j', j = j' + 1 := ⟨j - 1, by omega⟩
    rw [List.getElem?_cons_succ, hAB, List.getElem?_append_right (by omega)] at hq
    exact hBlt q (List.mem_of_getElem? hq)
  refine ⟨1 + A.length, by omega, by simp; omega, ?_, ?_, ?_⟩
  · have := strata_sorted k0 (A.map Prod.fst) (B.map Prod.fst) (by
      intro a ha; obtain ⟨p, hp, rfl⟩ := List.mem_map.1 ha; rw [hAle p hp]; exact lt_irrefl _) (by
      intro b hb; obtain ⟨p, hp, rfl⟩ := List.mem_map.1 hb; exact hBlt p hp)
    rw [List.map_cons, hAB, List.map_append, this]
    simp only [List.length_map, List.length_cons, List.length_append]
    congr 2; omega
  · intro i p hi hp q hq
    rw [hidxA i p hi hp]
    rcases List.mem_cons.1 hq with rfl | hq
    · exact le_refl _
    · exact h0 q hq
  · intro i j p q hi hj hp hq
    rw [hidxA i p hi hp]; exact hidxB j q hj hq

theorem sorted_idx {L : List (κ × Elem (Tup V) T)} (hs : L.Pairwise (fun a b => a.1 ≤ b.1)) {i j : Nat} {p q : κ × Elem (Tup V) T}
    (hp : L[i]? = some p) (hq : L[j]? = some q) (hij : i ≤ j) : p.1 ≤ q.1 := by
  rcases Nat.lt_or_ge i j with h | h
  · rw [List.pairwise_iff_getElem] at hs
    obtain ⟨hi, rfl⟩ := List.getElem?_eq_some_iff.1 hp
    obtain ⟨hj, rfl⟩ := List.getElem?_eq_some_iff.1 hq
    exact hs i j hi hj h
  · obtain rfl : i = j := by omega
    rw [hp] at hq; cases hq; exact le_refl _

theorem snd_idx {L : List (κ × Elem (Tup V) T)} {i : Nat} {x : Elem (Tup V) T} (h : (L.map Prod.snd)[i]? = some x) :
    ∃ k, L[i]? = some (k, x) := by
  rw [List.getElem?_map, Option.map_eq_some_iff] at h
  obtain ⟨⟨k, y⟩, h1, rfl⟩ := h
  exact ⟨k, h1⟩

theorem strata_sound (h : c.SoundIn P holds) (isMin : Bool) {L : List (κ × Elem (Tup V) T)} (hs : L.Pairwise (fun a b => a.1 ≤ b.1))
    (hP : ∀ p ∈ L, P p.2.tag) {e : Elem (Tup V) T} (he : e ∈ strataResults c isMin (L.map Prod.snd) (strata (L.map Prod.fst))) {w : Ω}
    (hw : holds e.tag w) :
    ∃ p ∈ L, p.2.tuple = e.tuple ∧ holds p.2.tag w ∧ ∀ q ∈ L, holds q.2.tag w → better isMin q.1 p.1 = false := by
  by_cases hne : L = []
  · subst hne; simp [strata, strataResults, stratumResult] at he
  obtain ⟨m, hm1, hml, hst, hlo, hhi⟩ := sorted_split hs hne
  have hP' : ∀ e ∈ L.map Prod.snd, P e.tag := by
    intro e he; obtain ⟨p, hp, rfl⟩ := List.mem_map.1 he; exact hP p hp
  rw [hst, strataResults_eq _ _ _ _ (by simp; omega), List.mem_append, List.mem_flatMap] at he
  rcases he with he | ⟨s, hsr, he⟩
  · obtain ⟨i, x, -, hi, hx, hxe, hxw, hf⟩ := stratumResult_sound h hP' he hw
    obtain ⟨k, hk⟩ := snd_idx hx
    refine ⟨(k, x), List.mem_of_getElem? hk, hxe, hxw, fun q hq hqw => ?_⟩
    obtain ⟨j, hj⟩ := List.mem_iff_getElem?.1 hq
    cases isMin with
    | true => simpa [better] using hlo i _ hi hk q hq
    | false =>
      have hjm : j < m := by
        by_contra hge
        refine hf q.2 ((mem_falseRange _ _ _ _ _).2 ⟨j, by simp [hj], ?_⟩) hqw
        simpa using hge
      simpa [better] using hlo j _ hjm hj (k, x) (List.mem_of_getElem? hk)
  · obtain ⟨i, x, hi1, hi2, hx, hxe, hxw, hf⟩ := stratumResult_sound h hP' he hw
    obtain rfl : i = s := by omega
    obtain ⟨k, hk⟩ := snd_idx hx
    refine ⟨(k, x), List.mem_of_getElem? hk, hxe, hxw, fun q hq hqw => ?_⟩
    obtain ⟨j, hj⟩ := List.mem_iff_getElem?.1 hq
    cases isMin with
    | true =>
      have hij : i ≤ j := by
        by_contra hge
        exact hf q.2 ((mem_falseRange _ _ _ _ _).2 ⟨j, by simp [hj], by simpa using hge⟩) hqw
      simpa [better] using sorted_idx hs hk hj hij
    | false =>
      have hij : j ≤ i := by
        by_contra hge
        exact hf q.2 ((mem_falseRange _ _ _ _ _).2 ⟨j, by simp [hj], by simp; omega⟩) hqw
      simpa [better] using sorted_idx hs hj hk hij

/-- An element that is true and has no true element in its false range is reported. -/
theorem strata_reports (h : c.ExactIn P holds) (isMin : Bool) {L : List (κ × Elem (Tup V) T)} (hP : ∀ p ∈ L, P p.2.tag) {m : Nat}
    (hml : m ≤ L.length) {i : Nat} {p : κ × Elem (Tup V) T} (hp : L[i]? = some p) {w : Ω} (hw : holds p.2.tag w)
    (hf : ∀ (j : Nat) q, L[j]? = some q → holds q.2.tag w →
      ¬ (if i < m then (if isMin then j < 0 else m ≤ j) else (if isMin then j < i else i + 1 ≤ j))) :
    ∃ e ∈ strataResults c isMin (L.map Prod.snd) (0 :: List.range' m (L.length - m)), e.tuple = p.2.tuple ∧ holds e.tag w := by
  have hP' : ∀ e ∈ L.map Prod.snd, P e.tag := by
    intro e he; obtain ⟨p, hp, rfl⟩ := List.mem_map.1 he; exact hP p hp
  rw [strataResults_eq _ _ _ _ (by simp; omega)]
  have hx : (L.map Prod.snd)[i]? = some p.2 := by simp [hp]
  have hil : i < L.length := (List.getElem?_eq_some_iff.1 hp).1
  by_cases him : i < m
  · obtain ⟨e, he, het, hew⟩ := stratumResult_exact h (isMin := isMin) hP' (Nat.zero_le i) him hx
    refine ⟨e, List.mem_append_left _ he, het, hew w hw (fun y hy hyw => ?_)⟩
    obtain ⟨j, hj, hc⟩ := (mem_falseRange _ _ _ _ _).1 hy
    obtain ⟨k, hk⟩ := snd_idx hj
    have := hf j _ hk hyw
    rw [if_pos him] at this; exact this hc
  · obtain ⟨e, he, het, hew⟩ := stratumResult_exact h (isMin := isMin) hP' (Nat.le_refl i) (Nat.lt_succ_self i) hx
    refine ⟨e, List.mem_append_right _ (List.mem_flatMap.2 ⟨i, by rw [List.mem_range'_1]; omega, he⟩), het, hew w hw (fun y hy hyw => ?_)⟩
    obtain ⟨j, hj, hc⟩ := (mem_falseRange _ _ _ _ _).1 hy
    obtain ⟨k, hk⟩ := snd_idx hj
    have := hf j _ hk hyw
    rw [if_neg him] at this; exact this hc

theorem strata_some (h : c.ExactIn P holds) (isMin : Bool) {L : List (κ × Elem (Tup V) T)} (hs : L.Pairwise (fun a b => a.1 ≤ b.1))
    (hP : ∀ p ∈ L, P p.2.tag) {w : Ω} (hex : ∃ p ∈ L, holds p.2.tag w) :
    ∃ e ∈ strataResults c isMin (L.map Prod.snd) (strata (L.map Prod.fst)), holds e.tag w := by
  classical
  obtain ⟨p0, hp0, hp0w⟩ := hex
  obtain ⟨i0, hi0⟩ := List.mem_iff_getElem?.1 hp0
  obtain ⟨m, hm1, hml, hst, hlo, hhi⟩ := sorted_split hs (List.ne_nil_of_mem hp0)
  rw [hst]
  have hlt : ∀ (i : Nat) p, L[i]? = some p → i < L.length := fun i p hp => (List.getElem?_eq_some_iff.1 hp).1
  have hE : ∃ (i : Nat) (p : κ × Elem (Tup V) T), L[i]? = some p ∧ holds p.2.tag w ∧
      ∀ (j : Nat) q, L[j]? = some q → holds q.2.tag w → if isMin then i ≤ j else j ≤ i := by
    cases isMin with
    | true =>
      have hx : ∃ i : Nat, ∃ p, L[i]? = some p ∧ holds p.2.tag w := ⟨i0, p0, hi0, hp0w⟩
      obtain ⟨p, hp, hpw⟩ := Nat.find_spec hx
      exact ⟨_, p, hp, hpw, fun j q hq hqw => by simpa using Nat.find_min' hx ⟨q, hq, hqw⟩⟩
    | false =>
      have hx : ∃ d : Nat, ∃ p, L[L.length - 1 - d]? = some p ∧ holds p.2.tag w ∧ d < L.length :=
        ⟨L.length - 1 - i0, p0, by rw [show L.length - 1 - (L.length - 1 - i0) = i0 by have := hlt _ _ hi0; omega, hi0], hp0w, by
          have := hlt _ _ hi0; omega⟩
      obtain ⟨p, hp, hpw, hd⟩ := Nat.find_spec hx
      refine ⟨_, p, hp, hpw, fun j q hq hqw => ?_⟩
      have hj := hlt _ _ hq
      have := Nat.find_min' hx ⟨q, by rw [show L.length - 1 - (L.length - 1 - j) = j by omega]; exact hq, hqw, by omega⟩
      simp only [Bool.false_eq_true, if_false]; omega
  obtain ⟨i, p, hp, hpw, hE⟩ := hE
  obtain ⟨e, he, -, hew⟩ := strata_reports h isMin hP hml hp hpw (by
    intro j q hq hqw
    have := hE j q hq hqw
    cases isMin with
    | true => simp only [if_true] at this ⊢; split <;> omega
    | false => simp only [Bool.false_eq_true, if_false] at this ⊢; split <;> omega)
  exact ⟨e, he, hew⟩

theorem strata_ties (h : c.ExactIn P holds) (isMin : Bool) {L : List (κ × Elem (Tup V) T)} (hs : L.Pairwise (fun a b => a.1 ≤ b.1))
    (hP : ∀ p ∈ L, P p.2.tag) {w : Ω} {p : κ × Elem (Tup V) T} (hp : p ∈ L) (hw : holds p.2.tag w) (hmin : ∀ q ∈ L, p.1 ≤ q.1)
    (hext : ∀ q ∈ L, holds q.2.tag w → better isMin q.1 p.1 = false) :
    ∃ e ∈ strataResults c isMin (L.map Prod.snd) (strata (L.map Prod.fst)), e.tuple = p.2.tuple ∧ holds e.tag w := by
  obtain ⟨i, hi⟩ := List.mem_iff_getElem?.1 hp
  obtain ⟨m, hm1, hml, hst, hlo, hhi⟩ := sorted_split hs (List.ne_nil_of_mem hp)
  rw [hst]
  have hL0 : ∃ p0, L[0]? = some p0 := by
    have : 0 < L.length := by omega
    exact ⟨L[0], List.getElem?_eq_getElem this⟩
  obtain ⟨p0, hp0⟩ := hL0
  have him : i < m := by
    by_contra hge
    have := hhi 0 i p0 p (by omega) (by omega) hp0 hi
    exact absurd (hmin p0 (List.mem_of_getElem? hp0)) (not_le.2 this)
  refine strata_reports h isMin hP hml hi hw ?_
  intro j q hq hqw
  rw [if_pos him]
  cases isMin with
  | true => simp
  | false =>
    simp only [Bool.false_eq_true, if_false, not_le]
    by_contra hge
    have h1 := hhi i j p q him (by omega) hi hq
    have h2 := hext q (List.mem_of_getElem? hq) hqw
    simp [better] at h2
    exact absurd h1 (not_lt.2 h2)

end

/-! ### The functions themselves -/

section
variable [LinearOrder V]

/-- The element behind a tuple of at least `n` components. -/
theorem sliceFrom_tup {n : Nat} {t : Tup V} {k : List (Tup V)} (h : sliceFrom n t = some k) : ∃ ts, t = .tup ts ∧ n ≤ ts.length ∧ k = ts.drop n := by
  cases t with
  | val v => cases h
  | tup ts =>
    rw [sliceFrom] at h
    split at h
    · cases h; exact ⟨ts, rfl, by assumption, rfl⟩
    · cases h

theorem sliceFrom_some {n : Nat} {ts : List (Tup V)} (h : n ≤ ts.length) : sliceFrom n (.tup ts) = some (ts.drop n) := by
  rw [sliceFrom, if_pos h]

theorem postElem_some {argOnly : Bool} {n : Nat} {e e' : Elem (Tup V) T} (h : postElem argOnly n e = some e') :
    postProcess argOnly n e.tuple = some e'.tuple ∧ e'.tag = e.tag := by
  rw [postElem, Option.map_eq_some_iff] at h
  obtain ⟨t, ht, rfl⟩ := h
  exact ⟨ht, rfl⟩

/-- The keys of a batch are defined and, paired with its elements, sorted. -/
theorem multiWorldMinMax_unfold {isMin argOnly : Bool} {n : Nat} (hn : 0 < n) {batch res : List (Elem (Tup V) T)}
    (hr : multiWorldMinMax c isMin argOnly n batch = some res) :
    ∃ L : List (List (Tup V) × Elem (Tup V) T), L.Pairwise (fun a b => a.1 ≤ b.1) ∧
      (∀ p ∈ L, p.2 ∈ batch ∧ sliceFrom n p.2.tuple = some p.1) ∧
      (∀ e ∈ batch, ∃ k, sliceFrom n e.tuple = some k ∧ (k, e) ∈ L) ∧
      (strataResults c isMin (L.map Prod.snd) (strata (L.map Prod.fst))).mapM (postElem argOnly n) = some res := by
  rw [multiWorldMinMax, if_pos hn, Option.bind_eq_some_iff] at hr
  obtain ⟨ks, hks, hr⟩ := hr
  obtain ⟨m1, m2⟩ := mapM_mem hks
  refine ⟨ks.insertionSort (fun a b => a.1 ≤ b.1), ?_, ?_, ?_, hr⟩
  · have : Std.Total (fun a b : List (Tup V) × Elem (Tup V) T => a.1 ≤ b.1) := ⟨fun a b => le_total _ _⟩
    have : IsTrans _ (fun a b : List (Tup V) × Elem (Tup V) T => a.1 ≤ b.1) := ⟨fun a b c => le_trans⟩
    exact List.pairwise_insertionSort _ _
  · intro p hp
    obtain ⟨e, he, hk⟩ := m2 p ((List.mem_insertionSort _).1 hp)
    rw [argKeyed, Option.map_eq_some_iff] at hk
    obtain ⟨k, hk, rfl⟩ := hk
    exact ⟨he, hk⟩
  · intro e he
    obtain ⟨p, hp, hk⟩ := m1 e he
    rw [argKeyed, Option.map_eq_some_iff] at hk
    obtain ⟨k, hk, rfl⟩ := hk
    exact ⟨k, hk, (List.mem_insertionSort _).2 hp⟩

theorem argMinMax_sound (h : c.SoundIn P holds) {isMin argOnly : Bool} {n : Nat} (hn : 0 < n) {batch res : List (Elem (Tup V) T)}
    (hb : ∀ e ∈ batch, P e.tag) (hr : multiWorldMinMax c isMin argOnly n batch = some res) {w : Ω} {t : Tup V} (ht : t ∈ trueIn holds w res) :
    ∃ x ∈ batch, ∃ k, holds x.tag w ∧ postProcess argOnly n x.tuple = some t ∧ sliceFrom n x.tuple = some k ∧
      ∀ y ∈ batch, holds y.tag w → ∀ k', sliceFrom n y.tuple = some k' → better isMin k' k = false := by
  obtain ⟨L, hs, hL1, hL2, hr⟩ := multiWorldMinMax_unfold hn hr
  obtain ⟨e', he', hw, rfl⟩ := mem_trueIn.1 ht
  obtain ⟨e, he, hpe⟩ := (mapM_mem hr).2 e' he'
  obtain ⟨hpt, htag⟩ := postElem_some hpe
  rw [htag] at hw
  obtain ⟨p, hp, hpe', hpw, hext⟩ := strata_sound h isMin hs (fun p hp => hb _ (hL1 p hp).1) he hw
  refine ⟨p.2, (hL1 p hp).1, p.1, hpw, by rw [hpe', hpt], (hL1 p hp).2, fun y hy hyw k' hk' => ?_⟩
  obtain ⟨k, hk, hm⟩ := hL2 y hy
  rw [hk] at hk'; obtain rfl := Option.some.inj hk'
  exact hext (k, y) hm hyw

theorem argMinMax_some (h : c.ExactIn P holds) {isMin argOnly : Bool} {n : Nat} (hn : 0 < n) {batch res : List (Elem (Tup V) T)}
    (hb : ∀ e ∈ batch, P e.tag) (hr : multiWorldMinMax c isMin argOnly n batch = some res) {w : Ω} (hne : trueIn holds w batch ≠ []) :
    trueIn holds w res ≠ [] := by
  obtain ⟨L, hs, hL1, hL2, hr⟩ := multiWorldMinMax_unfold hn hr
  obtain ⟨t, ht⟩ := List.exists_mem_of_ne_nil _ hne
  obtain ⟨x, hx, hxw, -⟩ := mem_trueIn.1 ht
  obtain ⟨k, hk, hm⟩ := hL2 x hx
  obtain ⟨e, he, hew⟩ := strata_some h isMin hs (fun p hp => hb _ (hL1 p hp).1) ⟨(k, x), hm, hxw⟩
  obtain ⟨e', he', hp⟩ := (mapM_mem hr).1 e he
  obtain ⟨-, htag⟩ := postElem_some hp
  exact List.ne_nil_of_mem (mem_trueIn.2 ⟨e', he', by rw [htag]; exact hew, rfl⟩)

theorem argMinMax_ties (h : c.ExactIn P holds) {isMin argOnly : Bool} {n : Nat} (hn : 0 < n) {batch res : List (Elem (Tup V) T)}
    (hb : ∀ e ∈ batch, P e.tag) (hr : multiWorldMinMax c isMin argOnly n batch = some res) {w : Ω} {x : Elem (Tup V) T} (hx : x ∈ batch)
    (hxw : holds x.tag w) {k : List (Tup V)} (hk : sliceFrom n x.tuple = some k)
    (hmin : ∀ y ∈ batch, ∀ k', sliceFrom n y.tuple = some k' → k ≤ k')
    (hext : ∀ y ∈ batch, holds y.tag w → ∀ k', sliceFrom n y.tuple = some k' → better isMin k' k = false) :
    ∃ t ∈ trueIn holds w res, postProcess argOnly n x.tuple = some t := by
  obtain ⟨L, hs, hL1, hL2, hr⟩ := multiWorldMinMax_unfold hn hr
  obtain ⟨k1, hk1, hm⟩ := hL2 x hx
  rw [hk] at hk1; cases hk1
  obtain ⟨e, he, het, hew⟩ := strata_ties h isMin hs (fun p hp => hb _ (hL1 p hp).1) hm hxw
    (fun q hq => hmin q.2 (hL1 q hq).1 q.1 (hL1 q hq).2) (fun q hq hqw => hext q.2 (hL1 q hq).1 hqw q.1 (hL1 q hq).2)
  obtain ⟨e', he', hp⟩ := (mapM_mem hr).1 e he
  obtain ⟨h1, htag⟩ := postElem_some hp
  exact ⟨e'.tuple, mem_trueIn.2 ⟨e', he', by rw [htag]; exact hew, rfl⟩, by rw [← het]; exact h1⟩

theorem stratumResult_tuples {isMin : Bool} {S : List (Elem (Tup V) T)} {a b : Nat} {e : Elem (Tup V) T} (he : e ∈ stratumResult c isMin S a b) :
    ∃ x ∈ S, x.tuple = e.tuple := by
  simp only [stratumResult] at he
  split at he
  · obtain ⟨x, hx, rfl⟩ := List.mem_map.1 he
    exact ⟨x, List.mem_of_mem_drop (List.mem_of_mem_take hx), rfl⟩
  · simp at he

theorem strataResults_tuples {isMin : Bool} {S : List (Elem (Tup V) T)} {e : Elem (Tup V) T} :
    ∀ (st : List Nat), e ∈ strataResults c isMin S st → ∃ x ∈ S, x.tuple = e.tuple
  | [], h => by simp [strataResults] at h
  | [s], h => stratumResult_tuples h
  | s :: s' :: rest, h => by
    rw [strataResults, List.mem_append] at h
    rcases h with h | h
    · exact stratumResult_tuples h
    · exact strataResults_tuples (s' :: rest) h

theorem postProcess_some {argOnly : Bool} {n : Nat} (hn : 0 < n) {ts : List (Tup V)} (h : n ≤ ts.length) :
    ∃ t, postProcess argOnly n (.tup ts) = some t := by
  rw [postProcess]
  cases argOnly with
  | false => exact ⟨_, rfl⟩
  | true =>
    simp only [if_true]
    split
    · exact ⟨ts[0], by simp [Tup.at?, List.getElem?_eq_getElem (show 0 < ts.length by omega)]⟩
    · exact ⟨.tup (ts.take n), by simp [sliceTo, h]⟩

theorem argMinMax_defined {isMin argOnly : Bool} {n : Nat} (hn : 0 < n) {batch : List (Elem (Tup V) T)}
    (hb : ∀ e ∈ batch, ∃ ts, e.tuple = .tup ts ∧ n ≤ ts.length) : ∃ res, multiWorldMinMax c isMin argOnly n batch = some res := by
  obtain ⟨ks, hks⟩ := mapM_isSome (f := argKeyed (T := T) (V := V) n) (l := batch) (by
    intro e he
    obtain ⟨ts, hts, hl⟩ := hb e he
    exact ⟨(ts.drop n, e), by rw [argKeyed, hts, sliceFrom_some hl]; rfl⟩)
  obtain ⟨-, m2⟩ := mapM_mem hks
  rw [multiWorldMinMax, if_pos hn, hks, Option.bind_some]
  apply mapM_isSome
  intro e he
  obtain ⟨x, hx, hxe⟩ := strataResults_tuples _ he
  obtain ⟨p, hp, rfl⟩ := List.mem_map.1 hx
  obtain ⟨y, hy, hk⟩ := m2 p ((List.mem_insertionSort _).1 hp)
  rw [argKeyed, Option.map_eq_some_iff] at hk
  obtain ⟨k, hk, rfl⟩ := hk
  obtain ⟨ts, hts, hl⟩ := hb y hy
  obtain ⟨t, ht⟩ := postProcess_some (argOnly := argOnly) hn hl
  exact ⟨⟨t, e.tag⟩, by rw [postElem, ← hxe]; simp only; rw [hts, ht]; rfl⟩

/-! ### Without arguments -/

theorem mapM_id {l : List (Elem (Tup V) T)} : l.mapM (postElem false 0) = some l := by
  induction l with
  | nil => rfl
  | cons a l ih => rw [List.mapM_cons, ih]; rfl

theorem plainMinMax_eq (isMin : Bool) (batch : List (Elem (Tup V) T)) :
    multiWorldMinMax c isMin false 0 batch = some ((if isMin then batch else batch.reverse).foldl (plainStep c) (c.one, [])).2 := by
  rw [multiWorldMinMax, if_neg (by omega), mapM_id]

theorem trueIn_sublist (w : Ω) (l : List (Elem α T)) : (trueIn holds w l).Sublist (l.map Elem.tuple) := List.filter_sublist.map _

theorem trueIn_reverse (w : Ω) (l : List (Elem α T)) : trueIn holds w l.reverse = (trueIn holds w l).reverse := by simp [trueIn]

theorem plainMinMax_exact (h : c.ExactIn P holds) (isMin : Bool) {batch : List (Elem (Tup V) T)} (hb : ∀ e ∈ batch, P e.tag)
    (hs : (batch.map Elem.tuple).Pairwise (· < ·)) (w : Ω) :
    ∃ res, multiWorldMinMax c isMin false 0 batch = some res ∧
      trueIn holds w res = (trueIn holds w batch).filter (fun t => (trueIn holds w batch).all (fun u => !better isMin u t)) := by
  refine ⟨_, plainMinMax_eq isMin batch, ?_⟩
  have hs' := hs.sublist (trueIn_sublist (holds := holds) w batch)
  rw [(plainFold_exact h _ (by cases isMin <;> simpa using hb) w).2]
  have htr : trueIn holds w (if isMin then batch else batch.reverse) = if isMin then trueIn holds w batch else (trueIn holds w batch).reverse := by
    cases isMin with
    | true => rfl
    | false => simp [trueIn_reverse]
  rw [htr]
  generalize trueIn holds w batch = l at hs'
  cases isMin with
  | true =>
    cases l with
    | nil => rfl
    | cons a l =>
      rw [List.pairwise_cons] at hs'
      simp only [if_true, List.head?_cons, Option.toList_some]
      rw [List.filter_cons, if_pos (by simp only [better, if_true, List.all_cons, lt_self_iff_false, decide_false, Bool.not_false, Bool.true_and, List.all_eq_true]; intro x hx; simpa using (hs'.1 x hx).le)]
      rw [List.filter_eq_nil_iff.2]
      intro x hx
      simp only [List.all_eq_true, not_forall]
      exact ⟨a, by simp, by simpa [better] using hs'.1 x hx⟩
  | false =>
    simp only [Bool.false_eq_true, if_false]
    induction l using List.reverseRecOn with
    | nil => rfl
    | append_singleton l a _ =>
      rw [List.pairwise_append] at hs'
      have hlt : ∀ x ∈ l, x < a := fun x hx => hs'.2.2 x hx a (by simp)
      rw [List.reverse_append, List.filter_append, List.filter_cons, if_pos (by simp only [better, Bool.false_eq_true, if_false, List.all_eq_true]; intro x hx; simp only [List.mem_append, List.mem_singleton] at hx; rcases hx with hx | rfl <;> simp; exact (hlt x hx).le)]
      rw [List.filter_eq_nil_iff.2]
      · simp
      · intro x hx
        simp only [List.all_eq_true, not_forall]
        exact ⟨a, by simp, by simpa [better] using hlt x hx⟩

theorem plainMinMax_sound (h : c.SoundIn P holds) (htot : ∀ a, P a → ∃ n, c.negate a = some n) (isMin : Bool) {batch res : List (Elem (Tup V) T)}
    (hb : ∀ e ∈ batch, P e.tag) (hs : (batch.map Elem.tuple).Pairwise (· < ·)) (hr : multiWorldMinMax c isMin false 0 batch = some res)
    (w : Ω) (t : Tup V) (ht : t ∈ trueIn holds w res) :
    t ∈ trueIn holds w batch ∧ ∀ u ∈ trueIn holds w batch, better isMin u t = false := by
  rw [plainMinMax_eq] at hr
  obtain rfl := Option.some.inj hr
  obtain ⟨e, he, hew, rfl⟩ := mem_trueIn.1 ht
  obtain ⟨-, -, h3⟩ := plainFold h htot (if isMin then batch else batch.reverse) (by cases isMin <;> simpa using hb)
  obtain ⟨l1, l2, x, hl, hxw, hxe, hf⟩ := h3 w e he hew
  have hx : x ∈ batch := by
    have : x ∈ (if isMin then batch else batch.reverse) := by rw [hl]; simp
    cases isMin <;> simpa using this
  refine ⟨mem_trueIn.2 ⟨x, hx, hxw, hxe⟩, fun u hu => ?_⟩
  obtain ⟨y, hy, hyw, rfl⟩ := mem_trueIn.1 hu
  have hy' : y ∈ (if isMin then batch else batch.reverse) := by cases isMin <;> simpa using hy
  rw [hl, List.mem_append, List.mem_cons] at hy'
  rw [← hxe]
  rcases hy' with hy' | rfl | hy'
  · exact absurd hyw (hf y hy')
  · cases isMin <;> simp [better]
  · cases isMin with
    | true =>
      simp only [if_true] at hl
      rw [hl, List.map_append, List.map_cons, List.pairwise_append, List.pairwise_cons] at hs
      simpa [better] using (hs.2.1.1 y.tuple (List.mem_map_of_mem hy')).le
    | false =>
      simp only [Bool.false_eq_true, if_false] at hl
      have hbr : batch = l2.reverse ++ x :: l1.reverse := by
        have := congrArg List.reverse hl
        simpa using this
      rw [hbr, List.map_append, List.pairwise_append] at hs
      simpa [better] using (hs.2.2 y.tuple (List.mem_map_of_mem (by simpa using hy')) x.tuple (by simp)).le

/-! ### Discrete minimum and maximum -/

theorem discrete_exact {isMin : Bool} {ts : List (Tup V)} :
    ∃ res, discreteMinMax c isMin false 0 ts = some res ∧ (∀ e ∈ res, e.tag = c.one) ∧
      res.map Elem.tuple = ts.filter (fun t => ts.all (fun u => !better isMin u t)) := by
  have hk : ts.mapM (keyed 0) = some (ts.map (fun t => ([t], t))) := by
    induction ts with
    | nil => rfl
    | cons a l ih => rw [List.mapM_cons, ih]; rfl
  rw [discreteMinMax, hk, Option.bind_some, mapM_id]
  refine ⟨_, rfl, ?_, ?_⟩
  · intro e he; obtain ⟨t, _, rfl⟩ := List.mem_map.1 he; rfl
  · rw [List.map_map, extremum_eq, List.filter_map, List.map_map, List.map_map]
    have hb : ∀ u t : Tup V, better isMin [u] [t] = better isMin u t := by
      intro u t; cases isMin <;> simp [better, List.cons_lt_cons_iff]
    have : (fun t => ts.all (fun u => !better isMin u t)) = ((fun p : List (Tup V) × Tup V => (List.map (fun t => ([t], t)) ts).all fun q => !better isMin q.1 p.1) ∘ fun t => ([t], t)) := by
      funext t
      simp only [Function.comp, List.all_map]
      congr 1; funext u
      simp only [Function.comp, hb]
    rw [this]
    conv_rhs => rw [← List.map_id (List.filter _ ts)]
    rfl

theorem discreteArg_exact {isMin argOnly : Bool} {n : Nat} (hn : 0 < n) {ts : List (Tup V)} {res : List (Elem (Tup V) T)}
    (hr : discreteMinMax c isMin argOnly n ts = some res) :
    (∀ e ∈ res, e.tag = c.one) ∧
    ∀ t, (∃ e ∈ res, e.tuple = t) ↔ ∃ x ∈ ts, ∃ k, postProcess argOnly n x = some t ∧ sliceFrom n x = some k ∧
      ∀ y ∈ ts, ∀ k', sliceFrom n y = some k' → better isMin k' k = false := by
  rw [discreteMinMax, Option.bind_eq_some_iff] at hr
  obtain ⟨ks, hks, hr⟩ := hr
  obtain ⟨k1, k2⟩ := mapM_mem hks
  obtain ⟨r1, r2⟩ := mapM_mem hr
  have hkey : ∀ (t : Tup V) p, keyed n t = some p ↔ sliceFrom n t = some p.1 ∧ p.2 = t := by
    intro t p
    rw [keyed, sortKey, if_pos hn, Option.map_eq_some_iff]
    constructor
    · rintro ⟨k, hk, rfl⟩; exact ⟨hk, rfl⟩
    · rintro ⟨hk, rfl⟩; exact ⟨p.1, hk, rfl⟩
  have hmem : ∀ x, x ∈ extremum (better isMin) ks ↔ ∃ k, (k, x) ∈ ks ∧ ∀ q ∈ ks, better isMin q.1 k = false := by
    intro x
    rw [extremum_eq, List.mem_map]
    constructor
    · rintro ⟨⟨k, y⟩, hy, rfl⟩
      rw [List.mem_filter] at hy
      refine ⟨k, hy.1, fun q hq => ?_⟩
      have := List.all_eq_true.1 hy.2 q hq
      simpa using this
    · rintro ⟨k, hk, hq⟩
      exact ⟨(k, x), List.mem_filter.2 ⟨hk, List.all_eq_true.2 (fun q h => by simp [hq q h])⟩, rfl⟩
  constructor
  · intro e he
    obtain ⟨e0, he0, hp⟩ := r2 e he
    obtain ⟨x, _, rfl⟩ := List.mem_map.1 he0
    exact (postElem_some hp).2
  · intro t
    constructor
    · rintro ⟨e, he, rfl⟩
      obtain ⟨e0, he0, hp⟩ := r2 e he
      obtain ⟨x, hx, rfl⟩ := List.mem_map.1 he0
      obtain ⟨k, hk, hq⟩ := (hmem x).1 hx
      obtain ⟨x', hx', hk'⟩ := k2 _ hk
      obtain ⟨hs, rfl⟩ := (hkey _ _).1 hk'
      refine ⟨x, hx', k, (postElem_some hp).1, hs, fun y hy k' hyk => ?_⟩
      obtain ⟨q, hqm, hq'⟩ := k1 y hy
      obtain ⟨h1, -⟩ := (hkey _ _).1 hq'
      rw [hyk] at h1; obtain rfl := Option.some.inj h1
      exact hq q hqm
    · rintro ⟨x, hx, k, hp, hk, hext⟩
      obtain ⟨q, hqm, hq'⟩ := k1 x hx
      obtain ⟨h1, h2⟩ := (hkey _ _).1 hq'
      rw [hk] at h1; obtain rfl := Option.some.inj h1
      have hx' : x ∈ extremum (better isMin) ks := (hmem x).2 ⟨q.1, by rw [← h2]; exact hqm, fun q' hq'm => by
        obtain ⟨y, hy, hyk⟩ := k2 q' hq'm
        exact hext y hy q'.1 ((hkey _ _).1 hyk).1⟩
      obtain ⟨e, he, hpe⟩ := r1 _ (List.mem_map_of_mem (f := fun t => (⟨t, c.one⟩ : Elem (Tup V) T)) hx')
      have := (postElem_some hpe).1
      rw [hp] at this
      exact ⟨e, he, (Option.some.inj this).symm⟩

end

end Scallop.Agg
