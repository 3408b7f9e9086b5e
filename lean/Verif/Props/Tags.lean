import Verif.Proof.Tags
import Verif.Props.Provenance
import Verif.Props.Dual
import Verif.Model.Proofs

/-!
# What tags mean: C61, C62, C63
-/

namespace Scallop

variable {X : Type*}

/-! ### C61 A tag summarises all derivations -/

/-- **C61, boolean tags**: a fact is true exactly when one of its derivations uses true facts only. -/
theorem c61_boolean (f : X → Bool) (e : TagExpr X) :
    e.eval boolProv f = true ↔ ∃ d ∈ e.derivations, ∀ x ∈ d, f x = true := by
  rw [eval_derivations c25_boolean f (fun _ => trivial) e]
  have hp : ∀ d : List X, prodOf boolProv (d.map f) = true ↔ ∀ x ∈ d, f x = true := by
    intro d
    induction d with
    | nil => simp [prodOf, boolProv]
    | cons x d ih =>
      have : prodOf boolProv ((x :: d).map f) = (f x && prodOf boolProv (d.map f)) := rfl
      rw [this, Bool.and_eq_true, ih]; simp
  induction e.derivations with
  | nil => simp [sumOf, boolProv]
  | cons d ds ih =>
    have : sumOf boolProv ((d :: ds).map (fun d => prodOf boolProv (d.map f))) =
      (prodOf boolProv (d.map f) || sumOf boolProv (ds.map (fun d => prodOf boolProv (d.map f)))) := rfl
    rw [this, Bool.or_eq_true]; exact (or_congr (hp d) ih).trans (by simp)

/-- **C61, boolean tags**: the difference of a fact and another one is the fact without the other one; a fact is dropped exactly when it
is false. -/
theorem c61_boolean_minus (a b : Bool) : (∃ r, boolProv.minus a b = some r ∧ (r = true ↔ a = true ∧ b = false)) := by
  cases a <;> cases b <;> exact ⟨_, rfl, by decide⟩

/-- **C61, natural tags**: the tag is the sum over all derivations of the product of the tags of the facts used. -/
theorem c61_natural (f : X → Nat) (e : TagExpr X) : e.eval naturalProv f = (e.derivations.map (fun d => (d.map f).prod)).sum := by
  rw [eval_derivations c25_natural f (fun _ => trivial) e]
  have hp : ∀ d : List X, prodOf naturalProv (d.map f) = (d.map f).prod := by
    intro d; rw [List.prod_eq_foldr]; rfl
  simp only [hp]
  rw [List.sum_eq_foldr]; rfl

/-- **C61, natural tags**: with every input fact tagged 1, the tag counts the derivations. -/
theorem c61_natural_count (e : TagExpr X) : e.eval naturalProv (fun _ => 1) = e.derivations.length := by
  rw [c61_natural]
  induction e.derivations with
  | nil => rfl
  | cons d ds ih => simp [ih] at *; omega

/-- The sum of the costs of the facts of a derivation. -/
def costOf (f : X → Nat) (d : List X) : Nat := (d.map f).sum

/-- **C61, tropical tags**: the tag is the cost of a cheapest derivation, and ∞ exactly when there is none. -/
theorem c61_tropical (f : X → Nat) (e : TagExpr X) :
    (e.eval tropicalProv (fun x => .nat (f x)) = .infty ↔ e.derivations = []) ∧
    (∀ n, e.eval tropicalProv (fun x => .nat (f x)) = .nat n ↔
      (∃ d ∈ e.derivations, costOf f d = n) ∧ ∀ d ∈ e.derivations, n ≤ costOf f d) := by
  rw [eval_derivations c25_tropical (fun x => NatInf.nat (f x)) (fun _ => trivial) e]
  have hp : ∀ d : List X, prodOf tropicalProv (d.map (fun x => NatInf.nat (f x))) = .nat (costOf f d) := by
    intro d
    induction d with
    | nil => rfl
    | cons x d ih =>
      have : prodOf tropicalProv ((x :: d).map (fun x => NatInf.nat (f x))) =
        NatInf.tmult (.nat (f x)) (prodOf tropicalProv (d.map (fun x => NatInf.nat (f x)))) := rfl
      rw [this, ih]; simp [NatInf.tmult, costOf]
  simp only [hp]
  induction e.derivations with
  | nil => exact ⟨by simp [sumOf, tropicalProv], fun n => by simp [sumOf, tropicalProv]⟩
  | cons d ds ih =>
    have e1 : sumOf tropicalProv ((d :: ds).map (fun d => NatInf.nat (costOf f d))) =
      NatInf.tadd (.nat (costOf f d)) (sumOf tropicalProv (ds.map (fun d => NatInf.nat (costOf f d)))) := rfl
    rw [e1]
    cases hs : sumOf tropicalProv (ds.map (fun d => NatInf.nat (costOf f d))) with
    | infty =>
      have : ds = [] := ih.1.mp hs
      subst this
      rw [NatInf.tadd_infty_right]
      exact ⟨by simp, fun n => by simp only [NatInf.nat.injEq]; constructor
                                  · rintro rfl; simp
                                  · rintro ⟨⟨x, hx, rfl⟩, _⟩; simp at hx; rw [hx]⟩
    | nat m =>
      obtain ⟨⟨x, hx, hxm⟩, hmin⟩ := (ih.2 m).mp hs
      rw [NatInf.tadd_nat]
      refine ⟨by simp, fun n => ?_⟩
      simp only [NatInf.nat.injEq]
      constructor
      · rintro rfl
        refine ⟨?_, ?_⟩
        · by_cases hle : costOf f d ≤ m
          · exact ⟨d, by simp, (min_eq_left hle).symm⟩
          · exact ⟨x, by simp [hx], by rw [hxm, min_eq_right (by omega)]⟩
        · intro y hy
          rcases List.mem_cons.mp hy with rfl | hy
          · exact min_le_left _ _
          · exact le_trans (min_le_right _ _) (hmin y hy)
      · rintro ⟨⟨y, hy, rfl⟩, hall⟩
        apply le_antisymm
        · rcases List.mem_cons.mp hy with rfl | hy
          · exact min_le_left _ _
          · exact le_trans (min_le_right _ _) (hmin y hy)
        · exact le_min (hall d (by simp)) (hxm ▸ hall x (by simp [hx]))

variable {K : Type*} [Field K] [LinearOrder K] [IsStrictOrderedRing K]

/-- **C61, min-max-prob**: the tag reaches a level `p` in (0, 1] exactly when some derivation uses only facts that do. -/
theorem c61_min_max (f : X → K) (hf : ∀ x, 0 ≤ f x ∧ f x ≤ 1) (e : TagExpr X) (p : K) (h0 : 0 < p) (h1 : p ≤ 1) :
    p ≤ e.eval (minMaxProv K) f ↔ ∃ d ∈ e.derivations, ∀ x ∈ d, p ≤ f x := by
  rw [eval_derivations (c24_semiring (K := K)) f hf e]
  have hp : ∀ d : List X, p ≤ prodOf (minMaxProv K) (d.map f) ↔ ∀ x ∈ d, p ≤ f x := by
    intro d
    induction d with
    | nil => simpa [prodOf, minMaxProv] using h1
    | cons x d ih =>
      have : prodOf (minMaxProv K) ((x :: d).map f) = min (f x) (prodOf (minMaxProv K) (d.map f)) := rfl
      rw [this, le_min_iff, ih]; simp
  induction e.derivations with
  | nil => simpa [sumOf, minMaxProv] using h0
  | cons d ds ih =>
    have : sumOf (minMaxProv K) ((d :: ds).map (fun d => prodOf (minMaxProv K) (d.map f))) =
      max (prodOf (minMaxProv K) (d.map f)) (sumOf (minMaxProv K) (ds.map (fun d => prodOf (minMaxProv K) (d.map f)))) := rfl
    rw [this, le_max_iff]; exact (or_congr (hp d) ih).trans (by simp)

/-- **C61, diff-max-mult-prob**: the probability of the tag is that of a most likely derivation (the product of the probabilities of the
facts it uses), and 0 if there is no derivation. -/
theorem c61_max_mult (thr : K) (f : X → DualNumber2 K) (hf : ∀ x, 0 ≤ (f x).real) (e : TagExpr X) :
    (e.derivations = [] → (e.eval (diffMaxMultProv K thr) f).real = 0) ∧
    (e.derivations ≠ [] → ∃ d ∈ e.derivations, (e.eval (diffMaxMultProv K thr) f).real = (d.map (fun x => (f x).real)).prod) ∧
    ∀ d ∈ e.derivations, (d.map (fun x => (f x).real)).prod ≤ (e.eval (diffMaxMultProv K thr) f).real := by
  rw [maxMult_real, eval_derivations (maxMultReal_semiring (K := K)) _ hf e]
  have hp : ∀ d : List X, prodOf (maxMultReal K) (d.map (fun x => (f x).real)) = (d.map (fun x => (f x).real)).prod := by
    intro d; rw [List.prod_eq_foldr]; rfl
  have hpos : ∀ d : List X, 0 ≤ (d.map (fun x => (f x).real)).prod := by
    intro d; rw [← hp]
    exact prodOf_mem maxMultReal_semiring _ (by intro t ht; obtain ⟨x, _, rfl⟩ := List.mem_map.mp ht; exact hf x)
  simp only [hp]
  induction e.derivations with
  | nil => exact ⟨fun _ => rfl, by simp, by simp⟩
  | cons d ds ih =>
    have e1 : sumOf (maxMultReal K) ((d :: ds).map (fun d => (d.map (fun x => (f x).real)).prod)) =
      max ((d.map (fun x => (f x).real)).prod) (sumOf (maxMultReal K) (ds.map (fun d => (d.map (fun x => (f x).real)).prod))) := rfl
    rw [e1]
    refine ⟨by simp, fun _ => ?_, ?_⟩
    · by_cases hds : ds = []
      · refine ⟨d, by simp, max_eq_left ?_⟩
        rw [ih.1 hds]; exact hpos d
      · obtain ⟨d', hd', he⟩ := ih.2.1 hds
        rcases le_total ((d.map (fun x => (f x).real)).prod) (sumOf (maxMultReal K) (ds.map (fun d => (d.map (fun x => (f x).real)).prod))) with hle | hle
        · exact ⟨d', by simp [hd'], by rw [max_eq_right hle, he]⟩
        · exact ⟨d, by simp, max_eq_left hle⟩
    · intro y hy
      rcases List.mem_cons.mp hy with rfl | hy
      · exact le_max_left _ _
      · exact le_trans (ih.2.2 y hy) (le_max_right _ _)

/-- Two derivations with facts 0, 1 and with fact 2. -/
def twoWays : TagExpr Nat := .add (.mult (.input 0) (.input 1)) (.mult (.input 2) .one)

example : twoWays.derivations = [[0, 1], [2]] := by decide
example : twoWays.eval boolProv (fun i => i != 0) = true := by decide
example : twoWays.eval naturalProv (fun i => i + 2) = 10 ∧ twoWays.eval naturalProv (fun _ => 1) = 2 := by decide
example : twoWays.eval tropicalProv (fun i => .nat (i + 2)) = .nat 4 := by decide
example : (1 / 2 : ℚ) ≤ twoWays.eval (minMaxProv ℚ) (fun i => if i = 2 then 1/4 else 3/4) :=
  (c61_min_max _ (by intro x; split <;> norm_num) twoWays _ (by norm_num) (by norm_num)).mpr ⟨[0, 1], by decide, by simp; norm_num⟩

/-! ### C62 Only impossible facts are discarded -/

/-- **C62**: a fact is dropped only if its tag is the zero of the algebra: the boolean, natural, tropical, real tropical and min-max-prob
(on [0, 1]) provenances. The unit provenance drops nothing. -/
theorem c62_discard_zero :
    (∀ t, boolProv.discard t = true ↔ t = boolProv.zero) ∧ (∀ t, naturalProv.discard t = true ↔ t = naturalProv.zero) ∧
    (∀ t, tropicalProv.discard t = true ↔ t = tropicalProv.zero) ∧ (∀ t, (realTropicalProv K).discard t = true ↔ t = (realTropicalProv K).zero) ∧
    (∀ t : K, 0 ≤ t → ((minMaxProv K).discard t = true ↔ t = (minMaxProv K).zero)) ∧
    (∀ t : K, 0 ≤ t → ((addMultProv K).discard t = true ↔ t = (addMultProv K).zero)) ∧ ∀ t, unitProv.discard t = false := by
  refine ⟨by intro t; cases t <;> simp [boolProv], by simp [naturalProv], by simp [tropicalProv], ?_, ?_, ?_, by simp [unitProv]⟩
  · intro t; cases t <;> simp [realTropicalProv]
  · intro t ht; simp only [minMaxProv, decide_eq_true_eq]; exact ⟨fun h => le_antisymm h ht, fun h => h.le⟩
  · intro t ht; simp only [addMultProv, decide_eq_true_eq]; exact ⟨fun h => le_antisymm h ht, fun h => h.le⟩

/-- **C62**: with a threshold of 0 or more the differentiable provenances drop exactly the facts whose probability is at most the
threshold; in particular only impossible facts when the threshold is 0. -/
theorem c62_discard_diff (thr : K) (t : DualNumber2 K) :
    ((diffAddMultProv K thr).discard t = true ↔ t.real ≤ thr) ∧ ((diffMaxMultProv K thr).discard t = true ↔ t.real ≤ thr) ∧
    ((diffNandMultProv K thr).discard t = true ↔ t.real ≤ thr) ∧ ((diffNandMinProv K thr).discard t = true ↔ t.real ≤ thr) ∧
    ∀ p d, (diffMinMaxProv K thr).discard (p, d) = true ↔ p ≤ thr := by
  simp [diffAddMultProv, diffMaxMultProv, diffNandMultProv, diffNandMinProv, diffMinMaxProv]

/-- **C62**: the proof provenances drop a fact exactly when it has no proof left. -/
theorem c62_discard_proofs (ds : Disjunctions) (x : DnfCtx K)
    (pop : List (DnfCtx.HeapElem K) → Option (DnfCtx.HeapElem K × List (DnfCtx.HeapElem K))) (k : Nat) :
    (∀ t, (proofsProv ds).discard t = true ↔ t = (proofsProv ds).zero) ∧ (∀ t, (topKProv x pop k).discard t = true ↔ t = (topKProv x pop k).zero) := by
  simp [proofsProv, topKProv, List.isEmpty_iff]

/-- **C62 fails for real tropical proofs**: every fact whose derivation uses no variable is dropped, in particular the multiplicative unit,
which tags untagged facts, and every fact tagged with a number. -/
theorem c62_tropical_proofs_refuted :
    (realTropicalProofsProv K).discard (realTropicalProofsProv K).one = true ∧
    (∀ f : K, (realTropicalProofsProv K).discard (RtpTag.ofFloat f) = true) ∧
    ∀ f : K, (realTropicalProofsProv K).mult (RtpTag.ofFloat f) (realTropicalProofsProv K).one ≠ (realTropicalProofsProv K).zero := by
  refine ⟨rfl, fun _ => rfl, fun f h => ?_⟩
  have := congrArg RtpTag.real h
  simp [realTropicalProofsProv, RtpTag.ofFloat, rtAdd] at this

/-- The number of a real tropical proofs tag is the real tropical tag. -/
theorem c61_tropical_proofs_number (f : X → RtpTag K) (e : TagExpr X) :
    (e.eval (realTropicalProofsProv K) f).real = e.eval (realTropicalProv K) (fun x => (f x).real) := by
  induction e with
  | input x => rfl
  | zero => rfl
  | one => rfl
  | add a b iha ihb =>
    simp only [TagExpr.eval, ← iha, ← ihb]
    generalize a.eval (realTropicalProofsProv K) f = x
    generalize b.eval (realTropicalProofsProv K) f = y
    simp only [realTropicalProofsProv, realTropicalProv]
    obtain ⟨r, p⟩ := x
    obtain ⟨s, q⟩ := y
    cases r <;> cases s <;> simp [rtLt, rtMin]
    rename_i a b
    split
    · rename_i h; exact congrArg some (min_eq_left h.le).symm
    · rename_i h; exact congrArg some (min_eq_right (not_lt.mp h)).symm
  | mult a b iha ihb =>
    simp only [TagExpr.eval, ← iha, ← ihb]
    rfl

/-- The real tropical tags form a commutative semiring. -/
theorem c61_real_tropical_semiring : (realTropicalProv K).SemiringOn (fun _ => True) where
  zero_mem := trivial
  one_mem := trivial
  add_mem := fun _ _ _ _ => trivial
  mult_mem := fun _ _ _ _ => trivial
  add_comm := fun a b _ _ => by cases a <;> cases b <;> simp [realTropicalProv, rtMin, min_comm]
  add_assoc := fun a b d _ _ _ => by cases a <;> cases b <;> cases d <;> simp [realTropicalProv, rtMin, min_assoc]
  zero_add := fun a _ => by cases a <;> simp [realTropicalProv, rtMin]
  mult_comm := fun a b _ _ => by cases a <;> cases b <;> simp [realTropicalProv, rtAdd, add_comm]
  mult_assoc := fun a b d _ _ _ => by cases a <;> cases b <;> cases d <;> simp [realTropicalProv, rtAdd, add_assoc]
  one_mult := fun a _ => by cases a <;> simp [realTropicalProv, rtAdd]
  zero_mult := fun a _ => by cases a <;> simp [realTropicalProv, rtAdd]
  mult_add := fun a b d _ _ _ => by cases a <;> cases b <;> cases d <;> simp [realTropicalProv, rtAdd, rtMin, min_add_add_left]

/-- **C61, real tropical tags**: the tag is the cost of a cheapest derivation, and ∞ exactly when there is none. -/
theorem c61_real_tropical (f : X → K) (e : TagExpr X) :
    (e.eval (realTropicalProv K) (fun x => some (f x)) = none ↔ e.derivations = []) ∧
    (∀ n, e.eval (realTropicalProv K) (fun x => some (f x)) = some n ↔
      (∃ d ∈ e.derivations, (d.map f).sum = n) ∧ ∀ d ∈ e.derivations, n ≤ (d.map f).sum) := by
  rw [eval_derivations (c61_real_tropical_semiring (K := K)) (fun x => some (f x)) (fun _ => trivial) e]
  have hp : ∀ d : List X, prodOf (realTropicalProv K) (d.map (fun x => some (f x))) = some ((d.map f).sum) := by
    intro d
    induction d with
    | nil => rfl
    | cons x d ih =>
      have : prodOf (realTropicalProv K) ((x :: d).map (fun x => some (f x))) =
        rtAdd (some (f x)) (prodOf (realTropicalProv K) (d.map (fun x => some (f x)))) := rfl
      rw [this, ih]; simp [rtAdd]
  simp only [hp]
  induction e.derivations with
  | nil => exact ⟨by simp [sumOf, realTropicalProv], fun n => by simp [sumOf, realTropicalProv]⟩
  | cons d ds ih =>
    have e1 : sumOf (realTropicalProv K) ((d :: ds).map (fun d => some ((d.map f).sum))) =
      rtMin (some ((d.map f).sum)) (sumOf (realTropicalProv K) (ds.map (fun d => some ((d.map f).sum)))) := rfl
    rw [e1]
    cases hs : sumOf (realTropicalProv K) (ds.map (fun d => some ((d.map f).sum))) with
    | none =>
      have : ds = [] := ih.1.mp hs
      subst this
      refine ⟨by simp [rtMin], fun n => ?_⟩
      simp only [rtMin, Option.some.injEq]
      constructor
      · rintro rfl; simp
      · rintro ⟨⟨x, hx, rfl⟩, _⟩; simp at hx; rw [hx]
    | some m =>
      obtain ⟨⟨x, hx, hxm⟩, hmin⟩ := (ih.2 m).mp hs
      refine ⟨by simp [rtMin], fun n => ?_⟩
      simp only [rtMin, Option.some.injEq]
      constructor
      · rintro rfl
        refine ⟨?_, ?_⟩
        · rcases le_total ((d.map f).sum) m with hle | hle
          · exact ⟨d, by simp, (min_eq_left hle).symm⟩
          · exact ⟨x, by simp [hx], by rw [hxm, min_eq_right hle]⟩
        · intro y hy
          rcases List.mem_cons.mp hy with rfl | hy
          · exact min_le_left _ _
          · exact le_trans (min_le_right _ _) (hmin y hy)
      · rintro ⟨⟨y, hy, rfl⟩, hall⟩
        apply le_antisymm
        · rcases List.mem_cons.mp hy with rfl | hy
          · exact min_le_left _ _
          · exact le_trans (min_le_right _ _) (hmin y hy)
        · exact le_min (hall d (by simp)) (hxm ▸ hall x (by simp [hx]))

example : twoWays.eval (realTropicalProv ℚ) (fun i : Nat => some (i : ℚ)) = some 1 :=
  ((c61_real_tropical (K := ℚ) (fun i : Nat => (i : ℚ)) twoWays).2 1).mpr
    ⟨⟨[0, 1], by decide, by norm_num⟩, by
      intro d hd
      have : d = [0, 1] ∨ d = [2] := by simpa [twoWays, TagExpr.derivations] using hd
      rcases this with rfl | rfl <;> norm_num⟩

/-! ### C63 Noisy-or tags and the derivative of min-max tags -/

/-- **C63**: the probability of a sum of noisy-or tags (both nand provenances) is that of a disjunction of independent events, it stays
within [0, 1], and addition is commutative and associative with unit 0. -/
theorem c63_noisy_or (thr : K) (a b d : DualNumber2 K) :
    let c := diffNandMultProv K thr
    (c.add a b).real = a.real + b.real - a.real * b.real ∧ (c.add a b).real = (c.add b a).real ∧
    (c.add (c.add a b) d).real = (c.add a (c.add b d)).real ∧ (c.add c.zero a).real = a.real ∧
    (0 ≤ a.real → a.real ≤ 1 → 0 ≤ b.real → b.real ≤ 1 → 0 ≤ (c.add a b).real ∧ (c.add a b).real ≤ 1 ∧ a.real ≤ (c.add a b).real) ∧
    ((diffNandMinProv K thr).add a b) = c.add a b := by
  simp only [diffNandMultProv, diffNandMinProv, DualNumber2.neg, DualNumber2.mul, DualNumber2.constant]
  refine ⟨by ring, by ring, by ring, by ring, ?_, trivial⟩
  intro ha ha' hb hb'
  have h1 := mul_nonneg (sub_nonneg.mpr ha') (sub_nonneg.mpr hb')
  have h2 := mul_nonneg ha (sub_nonneg.mpr hb')
  have h3 := mul_nonneg hb (sub_nonneg.mpr ha')
  refine ⟨by nlinarith, by linarith, by nlinarith⟩

/-- The polynomial of a noisy-or sum. -/
def ArithExpr.noisyOr (a b : ArithExpr K) : ArithExpr K := .compl (.mul (.compl a) (.compl b))

omit [IsStrictOrderedRing K] in
/-- **C63**: the gradient of a noisy-or sum is the gradient of the polynomial `1 - (1 - a)(1 - b)`. -/
theorem c63_noisy_or_gradient (thr : K) (v : Nat → K) (a b : ArithExpr K) :
    (diffNandMultProv K thr).add (a.dual v) (b.dual v) = (a.noisyOr b).dual v := rfl

/-- **C63**: noisy-or does not distribute over the product, so the tag of a fact depends on how the rules share subgoals: a fact
supported twice by the same event with probability 1/2 is reported with probability 3/4. -/
theorem c63_noisy_or_not_distributive : ∃ a b d : DualNumber2 ℚ, let c := diffNandMultProv ℚ 0
    (c.mult a (c.add b d)).real ≠ (c.add (c.mult a b) (c.mult a d)).real ∧ (c.add a a).real = 3 / 4 ∧ a.real = 1 / 2 := by
  refine ⟨.constant (1/2), .constant 1, .constant 1, ?_, ?_, rfl⟩
  · simp [diffNandMultProv, DualNumber2.neg, DualNumber2.mul, DualNumber2.constant]; norm_num
  · simp [diffNandMultProv, DualNumber2.neg, DualNumber2.mul, DualNumber2.constant]; norm_num

/-- **C63**: the diff-min-max-prob tag of a formula is its degree of truth, together with the input it comes from; unless two literals
or constants tie, near the given inputs the degree of truth is exactly that input, its complement, or constant, so the reported
derivative (1, -1 or 0, for that one input) is right. -/
theorem c63_min_max_derivative (thr : K) (v : Nat → K) (e : LatExpr K) (hn : e.NoTies v) :
    ∃ t, e.diffTag thr v = some t ∧ t.1 = e.value v ∧
      ∃ ε, 0 < ε ∧ ∀ v' : Nat → K, (∀ j, |v' j - v j| < ε) → e.value v' = claimed t v' := by
  have key : ∀ e : LatExpr K, e.NoTies v → ∀ t, e.diffTag thr v = some t →
      ∃ ε, 0 < ε ∧ ∀ v' : Nat → K, (∀ j, |v' j - v j| < ε) → e.value v' = claimed t v' := by
    intro e
    induction e with
    | var i => intro _ t ht; obtain rfl := Option.some.inj ht; exact ⟨1, one_pos, fun _ _ => rfl⟩
    | const c => intro _ t ht; obtain rfl := Option.some.inj ht; exact ⟨1, one_pos, fun _ _ => rfl⟩
    | or a b iha ihb =>
      intro hn t ht
      have na := noTies_sub (a := a) hn (fun i hi => List.mem_append_left _ hi) (fun i hi => List.mem_append_left _ hi)
      have nb := noTies_sub (a := b) hn (fun i hi => List.mem_append_right _ hi) (fun i hi => List.mem_append_right _ hi)
      obtain ⟨x, hx, _, hx2, hx3⟩ := diffTag_spec thr v a
      obtain ⟨y, hy, _, hy2, hy3⟩ := diffTag_spec thr v b
      obtain ⟨ε1, p1, h1⟩ := iha na x hx
      obtain ⟨ε2, p2, h2⟩ := ihb nb y hy
      have fx : FromExpr (.or a b) x := by
        unfold FromExpr at *
        obtain ⟨p, d⟩ := x
        cases d
        · exact List.mem_append_left _ hx3
        · obtain ⟨c, hc, h⟩ := hx3; exact ⟨c, List.mem_append_left _ hc, h⟩
        · exact List.mem_append_left _ hx3
      have fy : FromExpr (.or a b) y := by
        unfold FromExpr at *
        obtain ⟨p, d⟩ := y
        cases d
        · exact List.mem_append_right _ hy3
        · obtain ⟨c, hc, h⟩ := hy3; exact ⟨c, List.mem_append_right _ hc, h⟩
        · exact List.mem_append_right _ hy3
      obtain ⟨ε3, p3, h3⟩ := claimed_max v x y hx2 hy2 (fun h => claimed_tie v _ hn x y fx fy hx2 hy2 h)
      have : t = if y.1 < x.1 then x else y := by
        unfold LatExpr.diffTag at hx hy ht
        rw [LatExpr.tag, hx, hy] at ht
        exact (Option.some.inj ht).symm
      subst this
      refine ⟨min ε1 (min ε2 ε3), by simp [p1, p2, p3], fun v' hv => ?_⟩
      rw [LatExpr.value, h1 v' (fun j => lt_of_lt_of_le (hv j) (min_le_left _ _)),
        h2 v' (fun j => lt_of_lt_of_le (hv j) (le_trans (min_le_right _ _) (min_le_left _ _)))]
      exact (h3 v' (fun j => lt_of_lt_of_le (hv j) (le_trans (min_le_right _ _) (min_le_right _ _)))).1
    | and a b iha ihb =>
      intro hn t ht
      have na := noTies_sub (a := a) hn (fun i hi => List.mem_append_left _ hi) (fun i hi => List.mem_append_left _ hi)
      have nb := noTies_sub (a := b) hn (fun i hi => List.mem_append_right _ hi) (fun i hi => List.mem_append_right _ hi)
      obtain ⟨x, hx, _, hx2, hx3⟩ := diffTag_spec thr v a
      obtain ⟨y, hy, _, hy2, hy3⟩ := diffTag_spec thr v b
      obtain ⟨ε1, p1, h1⟩ := iha na x hx
      obtain ⟨ε2, p2, h2⟩ := ihb nb y hy
      have fx : FromExpr (.and a b) x := by
        unfold FromExpr at *
        obtain ⟨p, d⟩ := x
        cases d
        · exact List.mem_append_left _ hx3
        · obtain ⟨c, hc, h⟩ := hx3; exact ⟨c, List.mem_append_left _ hc, h⟩
        · exact List.mem_append_left _ hx3
      have fy : FromExpr (.and a b) y := by
        unfold FromExpr at *
        obtain ⟨p, d⟩ := y
        cases d
        · exact List.mem_append_right _ hy3
        · obtain ⟨c, hc, h⟩ := hy3; exact ⟨c, List.mem_append_right _ hc, h⟩
        · exact List.mem_append_right _ hy3
      obtain ⟨ε3, p3, h3⟩ := claimed_max v x y hx2 hy2 (fun h => claimed_tie v _ hn x y fx fy hx2 hy2 h)
      have : t = if y.1 < x.1 then y else x := by
        unfold LatExpr.diffTag at hx hy ht
        rw [LatExpr.tag, hx, hy] at ht
        exact (Option.some.inj ht).symm
      subst this
      refine ⟨min ε1 (min ε2 ε3), by simp [p1, p2, p3], fun v' hv => ?_⟩
      rw [LatExpr.value, h1 v' (fun j => lt_of_lt_of_le (hv j) (min_le_left _ _)),
        h2 v' (fun j => lt_of_lt_of_le (hv j) (le_trans (min_le_right _ _) (min_le_left _ _)))]
      exact (h3 v' (fun j => lt_of_lt_of_le (hv j) (le_trans (min_le_right _ _) (min_le_right _ _)))).2
    | not a iha =>
      intro hn t ht
      have na := noTies_sub (a := a) hn (fun i hi => hi) (fun i hi => hi)
      obtain ⟨x, hx, _, hx2, hx3⟩ := diffTag_spec thr v a
      obtain ⟨ε1, p1, h1⟩ := iha na x hx
      have : t = (1 - x.1, x.2.negate) := by
        unfold LatExpr.diffTag at hx ht
        rw [LatExpr.tag, hx] at ht
        exact (Option.some.inj ht).symm
      subst this
      refine ⟨ε1, p1, fun v' hv => ?_⟩
      rw [LatExpr.value, h1 v' hv]
      obtain ⟨p, d⟩ := x
      cases d <;> simp [claimed, Derivative.negate]
  obtain ⟨t, ht, hv, _, _⟩ := diffTag_spec thr v e
  exact ⟨t, ht, hv, key e hn t ht⟩

/-- A formula without ties: (not x0) or (x1 and 0.3) at x0 = 0.9, x1 = 0.2. -/
def mixed : LatExpr ℚ := .or (.not (.var 0)) (.and (.var 1) (.const (3/10)))

example : mixed.NoTies (fun i => if i = 0 then 9/10 else 2/10) := by
  refine ⟨?_, ?_, ?_⟩ <;> simp [mixed, LatExpr.vars, LatExpr.consts] <;> norm_num

example : mixed.diffTag (0 : ℚ) (fun i => if i = 0 then 9/10 else 2/10) = some (2/10, .pos 1) := by decide +kernel

end Scallop
