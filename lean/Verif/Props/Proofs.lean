import Verif.Proof.Proofs
import Verif.Proof.IdAllocator
import Verif.Spec.Semiring
import Mathlib.Tactic.NormNum
import Mathlib.Algebra.Order.Ring.Rat
import Mathlib.Data.Rat.Defs

/-!
# Property theorems C26-C29, C42, C49, C52: proofs and top-k proofs
-/

namespace Scallop

open DnfCtx (HeapElem)

variable {K : Type*} [Field K] [LinearOrder K]

/-! ### C29 -/

/-- **C29.** Conjoining two proofs gives the sorted union of their literals. -/
theorem c29_merge (c1 c2 c : Clause) (h1 : c1.Sorted) (h2 : c2.Sorted) (h : c1.merge c2 = some c) :
    c.Sorted ∧ ∀ l, l ∈ c ↔ l ∈ c1 ∨ l ∈ c2 := (Clause.merge_spec c1 c2 h1 h2).1 c h

/-- C29: it fails exactly when a literal of one is the negation of a literal of the other; equivalently, when no world makes both true. -/
theorem c29_merge_fails (c1 c2 : Clause) (h1 : c1.Sorted) (h2 : c2.Sorted) :
    (c1.merge c2 = none ↔ ∃ l ∈ c1, l.negate ∈ c2) ∧ (c1.merge c2 = none ↔ ¬ ∃ w, c1.holds w ∧ c2.holds w) := by
  have hc := (Clause.merge_spec c1 c2 h1 h2).2
  refine ⟨hc, ?_⟩
  constructor
  · rintro h ⟨w, hw1, hw2⟩
    obtain ⟨c, hc⟩ := merge_isSome_of_holds h1 h2 w hw1 hw2
    rw [h] at hc; cases hc
  · intro h
    cases hm : c1.merge c2 with
    | none => rfl
    | some c =>
      exfalso; apply h
      obtain ⟨hs, hmem⟩ := c29_merge c1 c2 c h1 h2 hm
      have hw : c.holds (fun f => decide (Literal.pos f ∈ c)) := by
        intro l hl
        cases l with
        | pos f => simpa [Literal.holds] using hl
        | neg f =>
          simp only [Literal.holds, decide_eq_false_iff_not]
          intro hp
          by_contra _
          rcases List.pairwise_iff_getElem.mp hs with hpw
          obtain ⟨i, hi, ei⟩ := List.mem_iff_getElem.mp hl
          obtain ⟨j, hj, ej⟩ := List.mem_iff_getElem.mp hp
          rcases Nat.lt_trichotomy i j with hij | hij | hij
          · have := hpw i j hi hj hij; rw [ei, ej] at this; simp [Literal.factId] at this
          · subst hij; rw [ei] at ej; cases ej
          · have := hpw j i hj hi hij; rw [ei, ej] at this; simp [Literal.factId] at this
      exact ⟨_, (merge_holds h1 h2 hm _).mp hw⟩

/-- C29: a conjunction in ascending order of facts is reported valid exactly when it does not contain a literal and its negation. -/
theorem c29_valid (c : Clause) (h : c.Pairwise (fun a b => a.factId ≤ b.factId)) :
    c.isValid = true ↔ ∀ f, ¬ (Literal.pos f ∈ c ∧ Literal.neg f ∈ c) := isValid_spec c h

/-- C29: the facts of a proof are reported in conflict exactly when two different ones belong to the same exclusion. -/
theorem c29_conflict (ds : Disjunctions) (hds : ∀ d ∈ ds.disjunctions, Asc d) (facts : List Nat) (hf : Asc facts) :
    ds.hasConflict facts = true ↔ ∃ d ∈ ds.disjunctions, ∃ a ∈ d, a ∈ facts ∧ ∃ b ∈ d, b ∈ facts ∧ a ≠ b := by
  rw [(hasConflict_spec ds hds facts hf).2]

/-- C29: the conflict check never panics. -/
theorem c29_no_panic (ds : Disjunctions) (hds : ∀ d ∈ ds.disjunctions, Asc d) (facts : List Nat) (hf : Asc facts) :
    (ds.hasConflict? facts).isSome = true := (hasConflict_spec ds hds facts hf).1

example : Clause.merge [.pos 1, .neg 3] [.neg 3, .pos 5] = some [.pos 1, .neg 3, .pos 5] := by decide
example : Clause.merge [.pos 1, .neg 3] [.pos 3, .pos 5] = none := by decide
example : Clause.isValid [.pos 1, .pos 2, .neg 2] = false := by decide
example : (⟨[], [[1, 4], [2, 3]]⟩ : Disjunctions).hasConflict [1, 3, 4] = true ∧
    (⟨[], [[1, 4], [2, 3]]⟩ : Disjunctions).hasConflict [1, 3, 5] = false := by decide

/-! ### C26 -/

/-- **C26.** A sum of tags is true in a world exactly when a summand is. -/
theorem c26_add (ds : Disjunctions) (w : Nat → Bool) (t1 t2 : Proofs) :
    Proofs.holds w ((proofsProv ds).add t1 t2) ↔ t1.holds w ∨ t2.holds w := union_holds w t1 t2

/-- **C26.** A product of tags is true in a world consistent with the exclusions exactly when both factors are. -/
theorem c26_mult (ds : Disjunctions) (hds : ∀ d ∈ ds.disjunctions, Asc d) (w : Nat → Bool) (hw : consistent w ds.disjunctions)
    (t1 t2 : Proofs) : Proofs.holds w ((proofsProv ds).mult t1 t2) ↔ t1.holds w ∧ t2.holds w := mult_holds ds hds w hw t1 t2

/-- C26: zero is false and one is true in every world. -/
theorem c26_constants (ds : Disjunctions) (w : Nat → Bool) :
    ¬ Proofs.holds w (proofsProv ds).zero ∧ Proofs.holds w (proofsProv ds).one := by
  simp [proofsProv, Proofs.holds]

/-- C26 for whole histories: after any sequence of taggings (with or without exclusions), sums and products, in every world in which no two
facts of one exclusion are true, each tag has the truth value of the Boolean combination it stands for. -/
theorem c26_history (ops : List TagOp) (s : ProofsState) (h : ProofsState.run ops = some s) (w : Nat → Bool) (hw : worldOk ops w) :
    ∃ vals, evalWorld w ops = some (s.nextId, vals) ∧ List.Forall₂ (fun t v => Proofs.holds w t ↔ v = true) s.tags vals :=
  (run_inv ops s h).2 w hw

/-- Proof tags in the form in which the code holds them: sorted sets of sorted proofs without conflicts. -/
def proofsOk (ds : Disjunctions) (t : Proofs) : Prop := Asc t ∧ ∀ p ∈ t, Asc p ∧ ds.hasConflict p = false

/-- C26: the tags form a commutative semiring (as sets of proofs, not only up to truth values). -/
theorem c26_semiring (ds : Disjunctions) (hds : ∀ d ∈ ds.disjunctions, Asc d) : (proofsProv ds).SemiringOn (proofsOk ds) := by
  have hadd : ∀ a b p, p ∈ (proofsProv ds).add a b ↔ p ∈ a ∨ p ∈ b := fun a b p => mem_union a b p
  have haddasc : ∀ a b, Asc ((proofsProv ds).add a b) := fun a b => bsetCollect_asc _
  have hcomm : ∀ p q, Proof.merge p q = Proof.merge q p := fun p q =>
    Asc.ext (proofMerge_asc _ _) (proofMerge_asc _ _) (fun f => by rw [mem_proofMerge, mem_proofMerge, or_comm])
  have hassoc : ∀ p q r, Proof.merge (Proof.merge p q) r = Proof.merge p (Proof.merge q r) := fun p q r =>
    Asc.ext (proofMerge_asc _ _) (proofMerge_asc _ _) (fun f => by simp only [mem_proofMerge, or_assoc])
  have hsubl : ∀ p q, Asc p → ds.hasConflict (Proof.merge p q) = false → ds.hasConflict p = false := fun p q hp h =>
    hasConflict_mono ds hds hp (proofMerge_asc _ _) (fun x hx => (mem_proofMerge _ _ _).mpr (Or.inl hx)) h
  have hmultmem : ∀ a b, proofsOk ds a → proofsOk ds b → proofsOk ds ((proofsProv ds).mult a b) := by
    intro a b _ _
    refine ⟨mult_asc ds a b, fun p hp => ?_⟩
    obtain ⟨⟨p1, _, p2, _, rfl⟩, hc⟩ := (mem_mult ds a b p).mp hp
    exact ⟨proofMerge_asc _ _, hc⟩
  have hmcomm : ∀ a b, (proofsProv ds).mult a b = (proofsProv ds).mult b a := by
    intro a b
    refine Asc.ext (mult_asc ds a b) (mult_asc ds b a) (fun p => ?_)
    rw [mem_mult, mem_mult]
    constructor
    · rintro ⟨⟨p1, h1, p2, h2, rfl⟩, hc⟩; exact ⟨⟨p2, h2, p1, h1, hcomm _ _⟩, hc⟩
    · rintro ⟨⟨p1, h1, p2, h2, rfl⟩, hc⟩; exact ⟨⟨p2, h2, p1, h1, hcomm _ _⟩, hc⟩
  refine ⟨⟨by simp [proofsProv, Asc], by simp [proofsProv]⟩, ⟨by simp [proofsProv, Asc], ?_⟩, ?_, hmultmem, ?_, ?_, ?_, ?_, ?_, ?_, ?_, ?_⟩
  · intro p hp
    simp only [proofsProv, List.mem_cons, List.not_mem_nil, or_false] at hp
    subst hp; exact ⟨List.Pairwise.nil, hasConflict_nil ds⟩
  · intro a b ha hb
    refine ⟨haddasc a b, fun p hp => ?_⟩
    exact ((hadd a b p).mp hp).elim (ha.2 p) (hb.2 p)
  · intro a b _ _
    exact Asc.ext (haddasc _ _) (haddasc _ _) (fun p => by rw [hadd, hadd, or_comm])
  · intro a b d _ _ _
    exact Asc.ext (haddasc _ _) (haddasc _ _) (fun p => by simp only [hadd, or_assoc])
  · intro a ha
    refine Asc.ext (haddasc _ _) ha.1 (fun p => by rw [hadd]; simp [proofsProv])
  · intro a b _ _; exact hmcomm a b
  · intro a b d ha hb hd
    refine Asc.ext (mult_asc _ _ _) (mult_asc _ _ _) (fun p => ?_)
    rw [mem_mult, mem_mult]
    constructor
    · rintro ⟨⟨q, hq, p3, h3, rfl⟩, hc⟩
      obtain ⟨⟨p1, h1, p2, h2, rfl⟩, _⟩ := (mem_mult ds a b q).mp hq
      rw [hassoc] at hc
      refine ⟨⟨p1, h1, Proof.merge p2 p3, (mem_mult ds b d _).mpr ⟨⟨p2, h2, p3, h3, rfl⟩, ?_⟩, hassoc _ _ _⟩, by rw [hassoc]; exact hc⟩
      rw [hcomm] at hc
      exact hsubl _ _ (proofMerge_asc _ _) hc
    · rintro ⟨⟨p1, h1, q, hq, rfl⟩, hc⟩
      obtain ⟨⟨p2, h2, p3, h3, rfl⟩, _⟩ := (mem_mult ds b d q).mp hq
      refine ⟨⟨Proof.merge p1 p2, (mem_mult ds a b _).mpr ⟨⟨p1, h1, p2, h2, rfl⟩, ?_⟩, p3, h3, (hassoc _ _ _).symm⟩, hc⟩
      rw [← hassoc] at hc
      exact hsubl _ _ (proofMerge_asc _ _) hc
  · intro a ha
    refine Asc.ext (mult_asc _ _ _) ha.1 (fun p => ?_)
    rw [mem_mult]
    constructor
    · rintro ⟨⟨p1, h1, p2, h2, rfl⟩, hc⟩
      simp only [proofsProv, List.mem_cons, List.not_mem_nil, or_false] at h1
      subst h1
      rw [hcomm, merge_of_asc (ha.2 p2 h2).1 (by simp)]; exact h2
    · intro hp
      refine ⟨⟨[], by simp [proofsProv], p, hp, ?_⟩, (ha.2 p hp).2⟩
      rw [hcomm, merge_of_asc (ha.2 p hp).1 (by simp)]
  · intro a _
    refine Asc.ext (mult_asc _ _ _) (by simp [proofsProv, Asc]) (fun p => ?_)
    rw [mem_mult]; simp [proofsProv]
  · intro a b d _ _ _
    refine Asc.ext (mult_asc _ _ _) (haddasc _ _) (fun p => ?_)
    rw [hadd, mem_mult, mem_mult, mem_mult]
    constructor
    · rintro ⟨⟨p1, h1, p2, h2, rfl⟩, hc⟩
      rcases (hadd b d p2).mp h2 with h2 | h2
      · exact Or.inl ⟨⟨p1, h1, p2, h2, rfl⟩, hc⟩
      · exact Or.inr ⟨⟨p1, h1, p2, h2, rfl⟩, hc⟩
    · rintro (⟨⟨p1, h1, p2, h2, rfl⟩, hc⟩ | ⟨⟨p1, h1, p2, h2, rfl⟩, hc⟩)
      · exact ⟨⟨p1, h1, p2, (hadd b d p2).mpr (Or.inl h2), rfl⟩, hc⟩
      · exact ⟨⟨p1, h1, p2, (hadd b d p2).mpr (Or.inr h2), rfl⟩, hc⟩

/-- Facts 0 and 1 exclude each other, fact 2 is free: `(f0 + f2) * f1`. -/
def exHistory : List TagOp := [.tag (some 7), .tag (some 7), .tag none, .add 0 2, .mult 3 1]

example : (ProofsState.run exHistory).map (fun s => s.tags) = some [[[0]], [[1]], [[2]], [[0], [2]], [[1, 2]]] := by decide
example : worldOk exHistory (fun f => f == 1 || f == 2) := by
  rintro a b ⟨e, h1, h2⟩ ha hb
  have hx : exclusions exHistory = [some 7, some 7, none] := rfl
  rw [hx] at h1 h2
  simp at ha hb
  rcases ha with rfl | rfl <;> rcases hb with rfl | rfl <;> simp_all
example : (evalWorld (fun f => f == 1 || f == 2) exHistory).map Prod.snd = some [false, true, true, true, true] := by decide

/-! ### C49 -/

/-- **C49.** With the proofs provenance, two different facts tagged with the same exclusion never occur together in a proof of any tag obtained
from the tagged facts; and neither tagging nor registering exclusions panics. -/
theorem c49_proofs (ops : List TagOp) (s : ProofsState) (h : ProofsState.run ops = some s) :
    (∀ t ∈ s.tags, ∀ p ∈ t, ∀ a ∈ p, ∀ b ∈ p, sameExclusion ops a b → a = b) ∧ (∀ e, (s.step (.tag e)).isSome = true) := by
  obtain ⟨hinv, _⟩ := run_inv ops s h
  refine ⟨fun t ht p hp a ha b hb ⟨e, h1, h2⟩ => (hinv.pair t ht p hp).2.2 a ha b hb e h1 h2, fun e => ?_⟩
  obtain ⟨s', hs, _⟩ := tagging_inv hinv e
  simp only [ProofsState.step]; rw [hs]; rfl

/-- **C49.** With top-k proofs (negation included), they never occur positively together in a conjunction of any tag. -/
theorem c49_top_k (pop : List (HeapElem K) → Option (HeapElem K × List (HeapElem K))) (hpop : IsPop pop) (k : Nat) (prob : Nat → K)
    (ops : List TagOp) (s : TopKState K) (h : TopKState.run pop k prob ops = some s) :
    (∀ t ∈ s.tags, ∀ c ∈ t, ∀ a b, Literal.pos a ∈ c → Literal.pos b ∈ c → sameExclusion ops a b → a = b) ∧
    (∀ e, (s.step pop k (.tag e)).isSome = true) := by
  have hinv := topKRun_inv hpop k prob ops s h
  refine ⟨fun t ht c hc a b ha hb ⟨e, h1, h2⟩ =>
    (hinv.ok t ht c hc).2.2 a ((mem_posFactIds c a).mpr ha) b ((mem_posFactIds c b).mpr hb) e h1 h2, fun e => ?_⟩
  obtain ⟨s', hs, _⟩ := topKTagging_inv hinv e
  simp only [TopKState.step]; rw [hs]; rfl

example : sameExclusion exHistory 0 1 := ⟨7, rfl, rfl⟩
/-- Without the exclusion the product has the proof with both facts; with it, only the other one. -/
example : (ProofsState.run [.tag none, .tag none, .tag none, .add 0 2, .mult 3 1]).map (fun s => s.tags[4]?) = some (some [[0, 1], [1, 2]]) ∧
    (ProofsState.run exHistory).map (fun s => s.tags[4]?) = some (some [[1, 2]]) := by decide
example : (TopKState.run DnfCtx.popMax 3 (fun _ => (1/2 : ℚ)) exHistory).map (fun s => s.tags[4]?) = some (some [[.pos 1, .pos 2]]) := by
  decide +kernel

/-! ### C27 -/

/-- **C27.** A sum of top-k tags has at most `k` conjunctions, all different, each from a summand; so it implies the exact disjunction. It is
exact when it has fewer than `k` conjunctions or the summands have at most `k` together; and a conjunction dropped is at most as probable as
each one kept. -/
theorem c27_add (x : DnfCtx K) (k : Nat) (t1 t2 : Dnf) :
    let r := x.topKAdd k t1 t2
    r.length ≤ k ∧ r.Nodup ∧ (∀ c ∈ r, c ∈ t1 ∨ c ∈ t2) ∧
    (∀ w, dnfHolds w r → dnfHolds w t1 ∨ dnfHolds w t2) ∧
    (r.length < k ∨ t1.length + t2.length ≤ k → ∀ w, dnfHolds w r ↔ dnfHolds w t1 ∨ dnfHolds w t2) ∧
    (∀ c, c ∈ t1 ∨ c ∈ t2 → c ∉ r → r.length = k ∧ ∀ d ∈ r, x.clauseProb c ≤ x.clauseProb d) := by
  intro r
  obtain ⟨h1, h2, h3, h4, h5⟩ := topKAdd_spec x k t1 t2
  refine ⟨h1, h2, h3, fun w => topKAdd_sound x k t1 t2 w, fun hk w => ⟨topKAdd_sound x k t1 t2 w, ?_⟩, h5⟩
  have hall : ∀ c, c ∈ t1 ∨ c ∈ t2 → c ∈ r := by
    intro c hc
    rcases hk with hk | hk
    · by_contra hn
      exact absurd (h5 c hc hn).1 (Nat.ne_of_lt hk)
    · exact h4 hk c hc
  rintro (⟨c, hc, hw⟩ | ⟨c, hc, hw⟩)
  · exact ⟨c, hall c (Or.inl hc), hw⟩
  · exact ⟨c, hall c (Or.inr hc), hw⟩

/-- **C27.** A product of top-k tags has at most `k` conjunctions, all different, each the union of one from each factor; so it implies the
exact conjunction. In worlds consistent with the exclusions it is exact when it has fewer than `k` conjunctions or the factors have at most
`k` pairs. A conflict-free union dropped is at most as probable as each one kept. -/
theorem c27_mult (x : DnfCtx K) (hds : ∀ d ∈ x.disj.disjunctions, Asc d) (k : Nat) (t1 t2 : Dnf) (s1 : ∀ c ∈ t1, c.Sorted)
    (s2 : ∀ c ∈ t2, c.Sorted) :
    let r := x.topKMult k t1 t2
    r.length ≤ k ∧ r.Nodup ∧ (∀ c ∈ r, ∃ c1 ∈ t1, ∃ c2 ∈ t2, c.Sorted ∧ ∀ l, l ∈ c ↔ l ∈ c1 ∨ l ∈ c2) ∧
    (∀ w, dnfHolds w r → dnfHolds w t1 ∧ dnfHolds w t2) ∧
    (r.length < k ∨ t1.length * t2.length ≤ k → ∀ w, consistent w x.disj.disjunctions → (dnfHolds w r ↔ dnfHolds w t1 ∧ dnfHolds w t2)) ∧
    (∀ c1 ∈ t1, ∀ c2 ∈ t2, ∀ c, c1.merge c2 = some c → x.disj.hasConflict c.posFactIds = false → c ∉ r →
      r.length = k ∧ ∀ d ∈ r, x.clauseProb c ≤ x.clauseProb d) := by
  intro r
  obtain ⟨h1, h2, h3, h4, h5⟩ := topKMult_spec x k t1 t2
  refine ⟨h1, h2, ?_, fun w => topKMult_sound x k t1 t2 s1 s2 w, fun hk w hw => ⟨topKMult_sound x k t1 t2 s1 s2 w, ?_⟩, h5⟩
  · intro c hc
    obtain ⟨⟨c1, hc1, c2, hc2, hm⟩, _⟩ := h3 c hc
    exact ⟨c1, hc1, c2, hc2, c29_merge c1 c2 c (s1 c1 hc1) (s2 c2 hc2) hm⟩
  · rintro ⟨⟨c1, hc1, hw1⟩, ⟨c2, hc2, hw2⟩⟩
    obtain ⟨c, hm⟩ := merge_isSome_of_holds (s1 c1 hc1) (s2 c2 hc2) w hw1 hw2
    have hcw : c.holds w := (merge_holds (s1 c1 hc1) (s2 c2 hc2) hm w).mpr ⟨hw1, hw2⟩
    have hcf := hasConflict_false x.disj hds w hw c hcw
    refine ⟨c, ?_, hcw⟩
    rcases hk with hk | hk
    · by_contra hn
      exact absurd (h5 c1 hc1 c2 hc2 c hm hcf hn).1 (Nat.ne_of_lt hk)
    · exact h4 hk c1 hc1 c2 hc2 c hm hcf

/-- C27 for whole histories without negation: every tag implies, in every world, the Boolean combination it stands for. -/
theorem c27_history (pop : List (HeapElem K) → Option (HeapElem K × List (HeapElem K))) (hpop : IsPop pop) (k : Nat) (prob : Nat → K)
    (ops : List TagOp) (hneg : negationFree ops) (s : TopKState K) (h : TopKState.run pop k prob ops = some s) (w : Nat → Bool) :
    ∃ vals, evalWorld w ops = some (s.numFacts, vals) ∧ List.Forall₂ (fun t v => dnfHolds w t → v = true) s.tags vals :=
  topKRun_below hpop k prob w ops s hneg h

/-- C27 for whole histories, negation included: every tag has at most `k` conjunctions, each with its literals sorted. -/
theorem c27_at_most_k (pop : List (HeapElem K) → Option (HeapElem K × List (HeapElem K))) (hpop : IsPop pop) (k : Nat) (hk : 0 < k)
    (prob : Nat → K) (ops : List TagOp) (s : TopKState K) (h : TopKState.run pop k prob ops = some s) :
    ∀ t ∈ s.tags, t.length ≤ k ∧ ∀ c ∈ t, c.Sorted := by
  have hinv := topKRun_inv hpop k prob ops s h
  exact fun t ht => ⟨hinv.len hk t ht, fun c hc => (hinv.ok t ht c hc).1⟩

/-- Probabilities 0.9, 0.5, 0.8 for facts 0, 1, 2. -/
def exCtx : DnfCtx ℚ := ⟨fun f => if f = 0 then 9/10 else if f = 1 then 1/2 else 8/10, ⟨[(7, 0)], [[0, 2]]⟩⟩

example : exCtx.topKAdd 2 [[.pos 1], [.pos 0]] [[.pos 2], [.pos 1]] = [[.pos 0], [.pos 2]] := by decide +kernel
example : exCtx.topKMult 2 [[.pos 1], [.pos 0]] [[.pos 2], [.neg 1]] = [[.pos 0, .neg 1], [.pos 1, .pos 2]] := by decide +kernel
example : IsPop (DnfCtx.popMax (K := ℚ)) := popMax_isPop

/-! ### C28 -/

/-- **C28.** Negation of a top-k tag ends without a panic; the result contradicts the tag in every world; it has at most `k` conjunctions (for
a tag other than false, whose negation is true); each is sorted and free of conflicts; and with fewer than `k` conjunctions it is the exact
negation in worlds consistent with the exclusions. -/
theorem c28_negate (x : DnfCtx K) (hds : ∀ d ∈ x.disj.disjunctions, Asc d) (pop : List (HeapElem K) → Option (HeapElem K × List (HeapElem K)))
    (hpop : IsPop pop) (t : Dnf) (k : Nat) :
    ∃ r, x.topKNegate pop t k = some r ∧ (∀ w, ¬ (dnfHolds w r ∧ dnfHolds w t)) ∧ (t ≠ [] → r.length ≤ k) ∧ (t = [] → r = [[]]) ∧
      (∀ c ∈ r, c.Sorted ∧ x.disj.hasConflict c.posFactIds = false) ∧
      (r.length < k → ∀ w, consistent w x.disj.disjunctions → (dnfHolds w r ↔ ¬ dnfHolds w t)) := by
  obtain ⟨r, hr, hlen, hc, hex⟩ := cnf2dnfK_spec x hds pop hpop (t.map (fun c => c.map Literal.negate)) k
  have hdis : ∀ w, dnfHolds w r → ¬ dnfHolds w t := by
    rintro w ⟨c, hcr, hw⟩
    exact (cnfHolds_negate w t).mp ((hc c hcr).2.2.2 w hw)
  refine ⟨r, hr, fun w h => hdis w h.1 h.2, fun ht => hlen (by simpa using ht), ?_, fun c h => ⟨(hc c h).1, (hc c h).2.1⟩,
    fun hk w hw => ⟨hdis w, fun h => hex (Or.inl hk) w hw ((cnfHolds_negate w t).mpr h)⟩⟩
  rintro rfl
  simp only [DnfCtx.cnf2dnfK, List.map_nil, List.isEmpty_nil, if_true, Option.some.injEq] at hr
  exact hr.symm

/-- C28: the loop ends (the bound on its turns in the model is never reached), whatever order the heap gives to equal probabilities. -/
theorem c28_terminates (x : DnfCtx K) (hds : ∀ d ∈ x.disj.disjunctions, Asc d)
    (pop : List (HeapElem K) → Option (HeapElem K × List (HeapElem K))) (hpop : IsPop pop) (f : List Clause) (k : Nat) :
    ∃ r, x.cnf2dnfK pop f k = some r := by
  obtain ⟨r, hr, _⟩ := cnf2dnfK_spec x hds pop hpop f k
  exact ⟨r, hr⟩

example : exCtx.topKNegate DnfCtx.popMax [[.pos 0, .neg 1], [.pos 2]] 3 = some [[.pos 1, .neg 2], [.neg 0, .neg 2]] := by decide +kernel

/-- The conjunctions kept by a negation are not the most probable ones of the exact negation: with `k = 1`, P(¬a) = 0.5 and
P(¬b) = P(¬c) = 0.6, the negation of `ab ∨ ac` is `¬b¬c` (0.36) although `¬a` alone (0.5) is one too. -/
theorem c28_negate_not_best : ∃ (x : DnfCtx ℚ) (t : Dnf) (c best : Clause), x.topKNegate DnfCtx.popMax t 1 = some [c] ∧
    (∀ w, best.holds w → ¬ dnfHolds w t) ∧ x.clauseProb c < x.clauseProb best := by
  refine ⟨⟨fun f => if f = 0 then 1/2 else 4/10, Disjunctions.new⟩, [[.pos 0, .pos 1], [.pos 0, .pos 2]], [.neg 1, .neg 2], [.neg 0],
    by decide +kernel, ?_, by decide +kernel⟩
  rintro w hw ⟨c, hc, hcw⟩
  have h0 := hw (.neg 0) (by simp)
  simp only [List.mem_cons, List.not_mem_nil, or_false] at hc
  rcases hc with rfl | rfl <;> · have := hcw (.pos 0) (by simp); simp_all [Literal.holds]

/-! ### C52 -/

/-- **C52** (the part that holds): a sum of sample-k tags has only conjunctions of the summands. -/
theorem c52_add_sound_partial (x : DnfCtx K) (k : Nat) (ids : List Nat) (t1 t2 : Dnf) :
    (∀ c ∈ x.sampleKAdd k ids t1 t2, c ∈ t1 ∨ c ∈ t2) ∧ (t1.length + t2.length ≤ k → ∀ c, c ∈ t1 ∨ c ∈ t2 → c ∈ x.sampleKAdd k ids t1 t2) := by
  unfold DnfCtx.sampleKAdd DnfCtx.sampleKClauses
  have hmem : ∀ c, c ∈ t1.or t2 ↔ c ∈ t1 ∨ c ∈ t2 := fun c => by unfold Dnf.or; exact List.mem_append
  constructor
  · intro c hc
    rw [← hmem]
    split at hc
    · simp at hc
    · split at hc
      · exact hc
      · split at hc
        · exact List.mem_of_mem_take hc
        · obtain ⟨p, hp, rfl⟩ := List.mem_map.mp hc
          have := List.mem_filter.mp hp
          exact (List.mem_zipIdx' (x := p.1) (i := p.2) this.1).2 ▸ List.getElem_mem _
  · intro hk c hc
    rw [← hmem] at hc
    have hl : (t1.or t2).length ≤ k := by unfold Dnf.or; rw [List.length_append]; exact hk
    rw [if_neg (by intro h; rw [List.isEmpty_iff.mp h] at hc; simp at hc), if_pos hl]
    exact hc

/-- **C52** fails: a product of sample-k tags can be true although a factor is false, whatever is sampled: `f0 * f1` with `k ≥ 2` is true
when only fact 0 is. -/
theorem c52_mult_unsound (x : DnfCtx K) (k : Nat) (hk : 2 ≤ k) (ids : List Nat) :
    ∃ (t1 t2 : Dnf) (w : Nat → Bool), dnfHolds w (x.sampleKMult k ids t1 t2) ∧ ¬ dnfHolds w t2 := by
  refine ⟨[[.pos 0]], [[.pos 1]], fun f => f == 0, ?_, ?_⟩
  · refine ⟨[.pos 0], ?_, by simp [Clause.holds, Literal.holds]⟩
    have h1 : x.retainNoConflict (Dnf.or [[.pos 0]] [[.pos 1]]) = [[.pos 0], [.pos 1]] := by
      have h : ∀ a, x.disj.hasConflict (Clause.posFactIds [.pos a]) = false := by
        intro a; simp [Clause.posFactIds, bsetCollect, bsetInsert, Disjunctions.hasConflict, Disjunctions.hasConflict?]
      simp [DnfCtx.retainNoConflict, Dnf.or, h]
    unfold DnfCtx.sampleKMult DnfCtx.sampleKClauses
    rw [h1]
    simp [hk]
  · simp [dnfHolds, Clause.holds, Literal.holds]

/-! ### C42 -/

/-- **C42.** In every execution, no identifier is given out twice by the same allocator, through whichever of its clones and in whatever
order. (The pair of allocator and identifier occurs once in the log.) -/
theorem c42_unique (ops : List AllocOp) (s : AllocState) (h : AllocState.run ops = some s) : s.given.Nodup := (alloc_inv ops s h).2

/-- C42: allocation through an existing handle always succeeds, and gives an identifier larger than all given by that allocator before. -/
theorem c42_increasing (ops : List AllocOp) (s s' : AllocState) (h : AllocState.run ops = some s) (hd : Nat)
    (hs : s.step (.alloc hd) = some s') : ∃ c id, s'.given = s.given ++ [(c, id)] ∧ s.handles[hd]? = some c ∧ ∀ p ∈ s.given, p.1 = c → p.2 < id := by
  simp only [AllocState.step, Option.bind_eq_bind, Option.bind_eq_some_iff, IdAllocator.alloc] at hs
  obtain ⟨c, hc, a, ha, h3⟩ := hs
  obtain rfl := Option.some.inj h3
  refine ⟨c, a.id, rfl, hc, fun p hp hpc => ?_⟩
  obtain ⟨a', ha', hlt⟩ := (alloc_inv ops s h).1 p hp
  rw [hpc, ha] at ha'; obtain rfl := Option.some.inj ha'
  exact hlt

example : (AllocState.run [.new 5, .clone 0, .alloc 0, .alloc 1, .new 0, .alloc 2, .alloc 1]).map (fun s => s.given) =
    some [(0, 5), (0, 6), (1, 0), (0, 7)] := by decide

end Scallop
