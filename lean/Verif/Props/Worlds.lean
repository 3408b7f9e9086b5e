import Verif.Proof.WorldIter
import Verif.Proof.WorldTopK
import Verif.Props.Iteration
import Verif.Props.Sdd

/-!
# Property theorem C81: tags say in which worlds a derived tuple holds

`worldOf v res` are the tuples of `res` whose tags are true in the world `v`. `p.inWorld v` is the program of that world: the same rules, over
the facts and inputs that are true in it, without tags. `Stratum.lfp unitProv` of it is the least family of sets closed under the rules
(`Verif/Spec/Fixpoint.lean`, `Verif/Spec/Worlds.lean`).
-/

namespace Scallop

open DnfCtx (HeapElem)

variable {V T W ι κ : Type*} [LinearOrder V] [LinearOrder W] [Fintype ι] [DecidableEq ι] {v P : T → Prop}

/-- C81, soundness for every way to stop (iteration limit, goals) and with early discarding: what a completed relation says to be true in a world can
be derived in that world. -/
theorem c81_sound (c : Prov T W) (hc : c.SoundAt v) (p : Stratum V T ι κ) (hok : p.Ok c) (hp : p.Plain)
    (hneg : ∀ u ∈ p.updates, c.NegSoundAt v ∨ u.2.noMinus) (fuel : Nat) (s : IterState V T ι) (h : p.run c fuel = .done s) (i : ι)
    (res : List (Elem (Tup V) T)) (hres : (s.rel i).complete c = some res) : Sorted res ∧ worldOf v res ⊆ (p.inWorld v).lfp unitProv i := by
  have hi := (init_inv c p).1
  obtain ⟨hfin, _, _⟩ := runLoop_spec c p hok fuel _ s hi h
  have hw := runLoop_world_sound c hc p hok hp hneg fuel _ s hi (init_world c hc p).1 h
  unfold Relation.complete at hres
  split at hres
  · cases hres
    have hs : ∀ b ∈ (s.rel i).stable.reverse, Sorted b := fun b hb => (hfin.wf i).stable b (List.mem_reverse.mp hb)
    refine ⟨(foldl_merge_spec c (s.rel i).stable.reverse [] List.Pairwise.nil hs).1, ?_⟩
    refine (foldl_merge_sound hc.add _ [] List.Pairwise.nil hs).trans ?_
    rintro x (⟨e, he, _⟩ | hx)
    · simp at he
    · rw [worldOfB_reverse] at hx
      exact hw i (.inl (.inl hx))
  · cases hres

/-- **C81.** When a stratum runs to completion, each relation can be completed, and in every world in which the tag operations are exact the
result has exactly the tuples that can be derived in that world. Either tags are linearly ordered, or no scan gallops (see `Relation.noGallop`);
without that it is refuted below. -/
theorem c81_worlds_partial (c : Prov T W) (hc : c.ExactAt P v) (p : Stratum V T ι κ) (hok : p.Ok c) (hp : p.Plain) (hkeep : p.keepsIn v c)
    (hPi : p.InputsIn P) (hPe : ∀ i facts, p.edb i = some facts → AllTags P facts)
    (hneg : ∀ u ∈ p.updates, (c.NegSoundAt v ∧ c.NegExactAt P v) ∨ u.2.noMinus) (hlim : p.iterLimit = none) (hgoal : p.stopAtGoal = false)
    (hq : (c.ExactAt (fun _ => True) v ∧ c.LinearAt v) ∨ ∀ s, p.Reached c s → ∀ i, (s.rel i).noGallop c)
    (fuel : Nat) (s : IterState V T ι) (h : p.run c fuel = .done s) (i : ι) :
    ∃ res, (s.rel i).complete c = some res ∧ Sorted res ∧ AllTags P res ∧ worldOf v res = (p.inWorld v).lfp unitProv i := by
  have hi := (init_inv c p).1
  obtain ⟨hfin, _, _⟩ := runLoop_spec c p hok fuel _ s hi h
  obtain ⟨hw0, hx0⟩ := init_world c hc.toSoundAt p
  obtain ⟨ht0, hc0⟩ := hx0 P hc hkeep hPe
  have h0 : ∀ i, ((p.init c).rel i).recent = [] ∧ ((p.init c).rel i).stable = [] := fun i => ⟨(hi.first rfl i).2, (hi.first rfl i).1⟩
  obtain ⟨hr, ht, hw⟩ := runLoop_world_exact c hc p hok hp hkeep hPi hneg hlim hgoal hq fuel _ s .init hw0 ht0 hc0
    (fun i => .inr (by rw [(h0 i).1, (h0 i).2]; simp [DisjointB])) h i
  have hs : ∀ b ∈ (s.rel i).stable.reverse, Sorted b := fun b hb => (hfin.wf i).stable b (List.mem_reverse.mp hb)
  have hPs : ∀ b ∈ (s.rel i).stable.reverse, AllTags P b := fun b hb => (Relation.tagsIn_iff.mp ht).1 b (List.mem_reverse.mp hb)
  have hE : AllTags P ([] : List (Elem (Tup V) T)) := fun e he => by simp at he
  refine ⟨(s.rel i).stable.reverse.foldl (merge c) [], by simp [Relation.complete, hr, hfin.toAdd i],
    (foldl_merge_spec c _ [] List.Pairwise.nil hs).1, ?_, ?_⟩
  · rw [allTags_iff]
    refine (foldl_merge_sound hc.notIn _ [] List.Pairwise.nil hs).trans ?_
    rintro x (⟨e, he, _⟩ | ⟨b, hb, e, he, _, hn⟩)
    · simp at he
    · exact absurd (hPs b hb e he) hn
  · rw [← hw, ← worldOfB_reverse]
    apply Set.Subset.antisymm
    · refine (foldl_merge_sound hc.add _ [] List.Pairwise.nil hs).trans ?_
      rintro x (⟨e, he, _⟩ | hx)
      · simp at he
      · exact hx
    · exact fun x hx => foldl_merge_exact hc _ [] List.Pairwise.nil hs hE hPs (Or.inr hx)

/-! ### Provenances -/

/-- The boolean tags: the only world is the one in which a tag is true if it is `true`. Negation is exact; scans may gallop. -/
theorem c81_boolean (p : Stratum V Bool ι κ) (hok : p.Ok boolProv) (hp : p.Plain) (hlim : p.iterLimit = none) (hgoal : p.stopAtGoal = false)
    (fuel : Nat) (s : IterState V Bool ι) (h : p.run boolProv fuel = .done s) (i : ι) :
    ∃ res, (s.rel i).complete boolProv = some res ∧ Sorted res ∧ worldOf (· = true) res = (p.inWorld (· = true)).lfp unitProv i := by
  have hx : boolProv.ExactAt (fun _ => True) (· = true) := by
    refine ⟨⟨?_, ?_⟩, trivial, fun _ _ _ _ => trivial, fun _ _ _ _ => trivial, rfl, ?_, ?_, ?_⟩ <;>
      · unfold boolProv
        simp only [Prov.AddSoundAt]
        decide
  have hl : boolProv.LinearAt (· = true) := by unfold boolProv Prov.LinearAt; decide
  have hn : boolProv.NegSoundAt (· = true) := by unfold boolProv Prov.NegSoundAt; decide
  have hn' : boolProv.NegExactAt (fun _ => True) (· = true) := by
    refine ⟨fun _ _ _ _ _ _ => trivial, ?_⟩
    unfold boolProv
    decide
  obtain ⟨res, h1, h2, _, h3⟩ := c81_worlds_partial boolProv hx p hok hp (fun _ t ht => by cases t <;> simp_all [boolProv]) (Stratum.inputsIn_all fun _ _ _ => trivial)
    (fun _ _ _ _ _ => trivial) (fun _ _ => .inl ⟨hn, hn'⟩) hlim hgoal (.inl ⟨hx, hl⟩) fuel s h i
  exact ⟨res, h1, h2, h3⟩

/-- Min-max probabilities, for rules without negation: for every threshold below 1, the tuples with a probability above the threshold are exactly
those that can be derived from the facts with a probability above it. So the probability of a tuple is the largest, over its derivations, of the
smallest probability of a fact used. -/
theorem c81_min_max {K : Type*} [Field K] [LinearOrder K] [IsStrictOrderedRing K] (p : Stratum V K ι κ) (hok : p.Ok (minMaxProv K)) (hp : p.Plain)
    (hneg : ∀ u ∈ p.updates, u.2.noMinus) (hlim : p.iterLimit = none) (hgoal : p.stopAtGoal = false) (fuel : Nat) (s : IterState V K ι)
    (h : p.run (minMaxProv K) fuel = .done s) (i : ι) :
    ∃ res, (s.rel i).complete (minMaxProv K) = some res ∧ Sorted res ∧
      ∀ θ : K, 0 ≤ θ → θ < 1 → worldOf (θ < ·) res = (p.inWorld (θ < ·)).lfp unitProv i := by
  have key : ∀ θ : K, 0 ≤ θ → θ < 1 → ∃ res, (s.rel i).complete (minMaxProv K) = some res ∧ Sorted res ∧
      worldOf (θ < ·) res = (p.inWorld (θ < ·)).lfp unitProv i := by
    intro θ h0 h1
    have hx : (minMaxProv K).ExactAt (fun _ => True) (θ < ·) := by
      refine ⟨⟨fun a b h => ?_, fun a b h => ?_⟩, trivial, fun _ _ _ _ => trivial, fun _ _ _ _ => trivial, h1, fun a b _ _ h => ?_, fun a b _ _ h h' => ?_,
        fun a b _ _ h h' => ?_⟩
      · exact lt_max_iff.mp h
      · exact lt_min_iff.mp h
      · exact lt_max_iff.mpr h
      · exact lt_min_iff.mpr ⟨h, h'⟩
      · have : a = max a b := by simpa [minMaxProv] using h
        rw [this]; exact lt_max_iff.mpr (.inr h')
    have hl : (minMaxProv K).LinearAt (θ < ·) := by
      intro a b h ha
      have hne : a ≠ max a b := by simpa [minMaxProv] using h
      have : a < b := by
        by_contra hc
        exact hne (max_eq_left (not_lt.mp hc)).symm
      exact lt_trans ha this
    obtain ⟨res, r1, r2, _, r3⟩ := c81_worlds_partial (minMaxProv K) hx p hok hp
      (fun _ t ht => not_lt.mpr ((of_decide_eq_true ht).trans h0)) (Stratum.inputsIn_all fun _ _ _ => trivial) (fun _ _ _ _ _ => trivial) (fun u hu => .inr (hneg u hu)) hlim hgoal
      (.inl ⟨hx, hl⟩) fuel s h i
    exact ⟨res, r1, r2, r3⟩
  obtain ⟨res, h1, h2, _⟩ := key 0 le_rfl zero_lt_one
  refine ⟨res, h1, h2, fun θ h0 h1' => ?_⟩
  obtain ⟨res', r1, _, r3⟩ := key θ h0 h1'
  rw [h1] at r1
  cases r1
  exact r3

/-- Sets of proofs, for rules without negation and runs in which no scan gallops: in every world in which no two facts of one exclusion are true. -/
theorem c81_proofs_partial (ds : Disjunctions) (hds : ∀ d ∈ ds.disjunctions, Asc d) (p : Stratum V Proofs ι κ) (hok : p.Ok (proofsProv ds)) (hp : p.Plain)
    (hneg : ∀ u ∈ p.updates, u.2.noMinus) (hlim : p.iterLimit = none) (hgoal : p.stopAtGoal = false)
    (hq : ∀ s, p.Reached (proofsProv ds) s → ∀ i, (s.rel i).noGallop (proofsProv ds))
    (fuel : Nat) (s : IterState V Proofs ι) (h : p.run (proofsProv ds) fuel = .done s) (i : ι) (w : Nat → Bool) (hw : consistent w ds.disjunctions) :
    ∃ res, (s.rel i).complete (proofsProv ds) = some res ∧ Sorted res ∧ worldOf (Proofs.holds w) res = (p.inWorld (Proofs.holds w)).lfp unitProv i := by
  have hx : (proofsProv ds).ExactAt (fun _ => True) (Proofs.holds w) := by
    refine ⟨⟨fun a b h => (c26_add ds w a b).mp h, fun a b h => (c26_mult ds hds w hw a b).mp h⟩, trivial, fun _ _ _ _ => trivial, fun _ _ _ _ => trivial,
      (c26_constants ds w).2, fun a b _ _ h => (c26_add ds w a b).mpr h, fun a b _ _ h h' => (c26_mult ds hds w hw a b).mpr ⟨h, h'⟩, fun a b _ _ h h' => ?_⟩
    have he : a = (proofsProv ds).add a b := by simpa [proofsProv] using h
    rw [he]; exact (c26_add ds w a b).mpr (.inr h')
  obtain ⟨res, r1, r2, _, r3⟩ := c81_worlds_partial (proofsProv ds) hx p hok hp
      (fun _ t ht => by
        have : t = [] := by simpa [proofsProv] using ht
        subst this
        exact (c26_constants ds w).1) (Stratum.inputsIn_all fun _ _ _ => trivial) (fun _ _ _ _ _ => trivial) (fun u hu => .inr (hneg u hu)) hlim hgoal
      (.inr hq) fuel s h i
  exact ⟨res, r1, r2, r3⟩

section topK

variable {K : Type*} [Field K] [LinearOrder K]

/-- Top-k proofs, negation included, any `k`, any way to stop: every world in which a tag is true is one in which the tuple can be derived. -/
theorem c81_top_k_sound (x : DnfCtx K) (hds : ∀ d ∈ x.disj.disjunctions, Asc d) (pop : List (HeapElem K) → Option (HeapElem K × List (HeapElem K)))
    (hpop : IsPop pop) (k : Nat) (p : Stratum V Dnf ι κ) (hok : p.Ok (topKProv x pop k)) (hp : p.Plain)
    (fuel : Nat) (s : IterState V Dnf ι) (h : p.run (topKProv x pop k) fuel = .done s) (i : ι)
    (res : List (Elem (Tup V) Dnf)) (hres : (s.rel i).complete (topKProv x pop k) = some res) (w : Nat → Bool) :
    worldOf (dnfHolds w) res ⊆ (p.inWorld (dnfHolds w)).lfp unitProv i :=
  (c81_sound _ (topK_soundAt x pop k w) p hok hp (fun _ _ => .inl (topK_negSoundAt x hds pop hpop k w)) fuel s h i res hres).2

/-- Top-k proofs, negation included, for `k` above a bound that depends on the number `n` of facts, in runs in which no scan gallops: in every
world in which no two facts of one exclusion are true, the tuples with a true tag are exactly those that can be derived in that world. -/
theorem c81_top_k_partial (x : DnfCtx K) (hds : ∀ d ∈ x.disj.disjunctions, Asc d) (pop : List (HeapElem K) → Option (HeapElem K × List (HeapElem K)))
    (hpop : IsPop pop) (n k : Nat) (hk : topKBound n < k) (p : Stratum V Dnf ι κ) (hok : p.Ok (topKProv x pop k)) (hp : p.Plain)
    (hPi : p.InputsIn (tagOver n)) (hPe : ∀ i facts, p.edb i = some facts → AllTags (tagOver n) facts)
    (hlim : p.iterLimit = none) (hgoal : p.stopAtGoal = false)
    (hq : ∀ s, p.Reached (topKProv x pop k) s → ∀ i, (s.rel i).noGallop (topKProv x pop k))
    (fuel : Nat) (s : IterState V Dnf ι) (h : p.run (topKProv x pop k) fuel = .done s) (i : ι) :
    ∃ res, (s.rel i).complete (topKProv x pop k) = some res ∧ Sorted res ∧ AllTags (tagOver n) res ∧
      ∀ w, consistent w x.disj.disjunctions → worldOf (dnfHolds w) res = (p.inWorld (dnfHolds w)).lfp unitProv i := by
  have key : ∀ w, consistent w x.disj.disjunctions → ∃ res, (s.rel i).complete (topKProv x pop k) = some res ∧ Sorted res ∧ AllTags (tagOver n) res ∧
      worldOf (dnfHolds w) res = (p.inWorld (dnfHolds w)).lfp unitProv i := fun w hw =>
    c81_worlds_partial _ (topK_exactAt x hds pop n k hk w hw) p hok hp (fun _ t ht => by
      have : t = [] := by simpa [topKProv] using ht
      subst this
      simp [dnfHolds]) hPi hPe
      (fun _ _ => .inl ⟨topK_negSoundAt x hds pop hpop k w, topK_negExactAt x hds pop hpop n k hk w hw⟩) hlim hgoal (.inr hq) fuel s h i
  obtain ⟨res, h1, h2, h3, _⟩ := key (fun _ => false) (fun d _ a _ b _ ha _ => by cases ha)
  refine ⟨res, h1, h2, h3, fun w hw => ?_⟩
  obtain ⟨res', r1, _, _, r4⟩ := key w hw
  rw [h1] at r1
  cases r1
  exact r4

/-- C81 and C53: the probability reported for a tuple is at most the probability that it can be derived, the facts being independent. `F` is any
finite set of facts that contains those of the tag. -/
theorem c81_probability_bound [IsStrictOrderedRing K] (x : DnfCtx K) (hds : ∀ d ∈ x.disj.disjunctions, Asc d)
    (hpr : ∀ f, 0 ≤ x.prob f ∧ x.prob f ≤ 1) (pop : List (HeapElem K) → Option (HeapElem K × List (HeapElem K)))
    (hpop : IsPop pop) (k : Nat) (p : Stratum V Dnf ι κ) (hok : p.Ok (topKProv x pop k)) (hp : p.Plain)
    (fuel : Nat) (s : IterState V Dnf ι) (h : p.run (topKProv x pop k) fuel = .done s) (i : ι)
    (res : List (Elem (Tup V) Dnf)) (hres : (s.rel i).complete (topKProv x pop k) = some res) (e : Elem (Tup V) Dnf) (he : e ∈ res)
    (F : Finset Nat) (hF : ∀ c ∈ e.tag, ∀ l ∈ c, l.factId ∈ F) :
    ∃ q, Dnf.wmc e.tag (Sdd.Diagram.realAlgebra K) x.prob = some q ∧
      q ≤ eventProb x.prob F (fun w => e.tuple ∈ (p.inWorld (dnfHolds w)).lfp unitProv i) := by
  refine ⟨_, c53_dnf e.tag x.prob F hF, Sdd.eventProb_mono (fun f _ => hpr f) (fun w hw => ?_)⟩
  exact c81_top_k_sound x hds pop hpop k p hok hp fuel s h i res hres w ⟨e, he, rfl, hw⟩

/-- C81 and C53: for `k` above the bound, in runs in which no scan gallops and without exclusions, the probability reported for a tuple is the
probability that it can be derived, the `n` facts being independent; and a tuple that is not reported cannot be derived in any world. -/
theorem c81_probability_partial (x : DnfCtx K) (hds : x.disj.disjunctions = []) (pop : List (HeapElem K) → Option (HeapElem K × List (HeapElem K)))
    (hpop : IsPop pop) (n k : Nat) (hk : topKBound n < k) (p : Stratum V Dnf ι κ) (hok : p.Ok (topKProv x pop k)) (hp : p.Plain)
    (hPi : p.InputsIn (tagOver n)) (hPe : ∀ i facts, p.edb i = some facts → AllTags (tagOver n) facts)
    (hlim : p.iterLimit = none) (hgoal : p.stopAtGoal = false)
    (hq : ∀ s, p.Reached (topKProv x pop k) s → ∀ i, (s.rel i).noGallop (topKProv x pop k))
    (fuel : Nat) (s : IterState V Dnf ι) (h : p.run (topKProv x pop k) fuel = .done s) (i : ι) :
    ∃ res, (s.rel i).complete (topKProv x pop k) = some res ∧
      (∀ e ∈ res, Dnf.wmc e.tag (Sdd.Diagram.realAlgebra K) x.prob =
        some (eventProb x.prob (Finset.range n) (fun w => e.tuple ∈ (p.inWorld (dnfHolds w)).lfp unitProv i))) ∧
      ∀ t, t ∉ tuples res → ∀ w, t ∉ (p.inWorld (dnfHolds w)).lfp unitProv i := by
  obtain ⟨res, h1, h2, h3, h4⟩ := c81_top_k_partial x (by simp [hds]) pop hpop n k hk p hok hp hPi hPe hlim hgoal hq fuel s h i
  have hcons : ∀ w, consistent w x.disj.disjunctions := by intro w; rw [hds]; intro d hd; simp at hd
  refine ⟨res, h1, fun e he => ?_, fun t ht w hw => ht ?_⟩
  · rw [c53_dnf e.tag x.prob (Finset.range n) (fun c hc l hl => Finset.mem_range.2 (((h3 e he).2 c hc).2 l hl))]
    congr 2
    funext w
    rw [← h4 w (hcons w)]
    apply propext
    constructor
    · intro hw; exact ⟨e, he, rfl, hw⟩
    · rintro ⟨e', he', het, hw⟩
      rw [← nodup_elem_eq (sorted_nodup h2) he' he het]; exact hw
  · rw [← h4 w (hcons w)] at hw
    exact worldOf_tuples _ hw

end topK

/-! ### Concrete programs -/

/-- Transitive closure of tagged edges. -/
def exPathT {T : Type*} (edges : List ((Nat × Nat) × T)) : Stratum Nat T Unit Unit where
  input := fun _ => edges.map (fun e => ⟨kv e.1.1 e.1.2, e.2⟩)
  edb := fun _ => none
  updates := [((), .input ()), ((), exPathRule)]
  sched := fun _ => .lfp
  goals := []
  iterLimit := none
  stopAtGoal := false
  earlyDiscard := true

theorem exPathT_ok {T W : Type*} (c : Prov T W) (hc : c.Uniform) (edges : List ((Nat × Nat) × T))
    (he : Sorted (edges.map (fun e => (⟨kv e.1.1 e.1.2, e.2⟩ : Elem (Tup Nat) T)))) : (exPathT edges).Ok c := by
  refine ⟨?_, ?_, fun _ => he, hc⟩
  · intro u hu
    simp only [exPathT, List.mem_cons, List.not_mem_nil, or_false] at hu
    rcases hu with rfl | rfl
    · simp [DF.wellSorted]
    · simp [exPathRule, DF.wellSorted, DF.outSortedLe]
  · intro u hu
    simp only [exPathT, List.mem_cons, List.not_mem_nil, or_false] at hu
    rcases hu with rfl | rfl
    · simp [DF.stratified]
    · simp [exPathRule, DF.stratified, DF.positive]

theorem exPathT_plain {T : Type*} (edges : List ((Nat × Nat) × T)) : (exPathT edges).Plain ∧ ∀ u ∈ (exPathT edges).updates, u.2.noMinus := by
  refine ⟨⟨?_, ?_, fun _ => rfl⟩, ?_⟩ <;>
  · intro u hu
    simp only [exPathT, List.mem_cons, List.not_mem_nil, or_false] at hu
    rcases hu with rfl | rfl
    · simp [DF.keepsTags, DF.sharp, DF.noMinus]
    · simp [exPathRule, DF.keepsTags, DF.sharp, DF.noMinus]

/-- It derives the same tuples as without tags. -/
theorem exPathT_lfp {T W : Type*} (c : Prov T W) (edges : List ((Nat × Nat) × T)) :
    (exPathT edges).lfp c = (exPath (edges.map Prod.fst) .lfp).lfp unitProv := by
  have ht : tuples (edges.map (fun e => (⟨kv e.1.1 e.1.2, e.2⟩ : Elem (Tup Nat) T))) =
      tuples ((edges.map Prod.fst).map (fun e => (⟨kv e.1 e.2, ()⟩ : Elem (Tup Nat) Unit))) := by
    ext x
    simp [tuples]
  have hcl : ∀ X, (exPathT edges).Closed c X ↔ (exPath (edges.map Prod.fst) .lfp).Closed unitProv X := by
    intro X
    simp only [Stratum.Closed, exPathT, exPath, exPathRule, List.mem_cons, List.not_mem_nil, or_false, forall_eq_or_imp, forall_eq, DF.sem, ht]
    simp
  funext i
  ext t
  exact ⟨fun h X hX => h X ((hcl X).mpr hX), fun h X hX => h X ((hcl X).mp hX)⟩

/-- The edges 1 → 2, 1 → 3 and 2 → 3. -/
def exTriangle {T : Type*} (a b d : T) : List ((Nat × Nat) × T) := [((1, 2), a), ((1, 3), b), ((2, 3), d)]

theorem exTriangle_sorted {T : Type*} (a b d : T) : Sorted ((exTriangle a b d).map (fun e => (⟨kv e.1.1 e.1.2, e.2⟩ : Elem (Tup Nat) T))) := by
  simp only [exTriangle, List.map_cons, List.map_nil, Sorted, List.pairwise_cons, List.mem_cons, List.not_mem_nil, or_false, forall_eq_or_imp, forall_eq]
  refine ⟨⟨?_, ?_⟩, ?_, ?_⟩ <;> first | decide +kernel | simp

theorem exTriangle_noGallop {T W : Type*} [LinearOrder W] (c : Prov T W) (hc : c.Uniform) (a b d : T) (s : IterState Nat T Unit)
    (hs : (exPathT (exTriangle a b d)).Reached c s) (i : Unit) : (s.rel i).noGallop c := by
  have hb := exPath_bound [(1, 2), (1, 3), (2, 3)] .lfp {(1, 2), (1, 3), (2, 3)} (by decide) (by
    intro a b h d hd
    simp only [List.mem_cons, Prod.mk.injEq, List.not_mem_nil, or_false] at hd
    simp only [Finset.mem_insert, Finset.mem_singleton, Prod.mk.injEq] at h ⊢
    omega)
  have he : (exPathT (exTriangle a b d)).lfp c = (exPath [(1, 2), (1, 3), (2, 3)] .lfp).lfp unitProv := exPathT_lfp c _
  refine reached_noGallop_small c _ (exPathT_ok c hc _ (exTriangle_sorted a b d)) ?_ ?_ hs i
  · intro i; rw [he]; exact (hb i).1
  · intro i; rw [he]; exact (hb i).2.trans (by decide)

/-- `c81_boolean`: the second edge is false, the other two are true; there are three paths. -/
example : (exPathT (exTriangle true false true)).Ok boolProv ∧ (exPathT (exTriangle true false true)).Plain ∧
    ((exPathT (exTriangle true false true)).run boolProv 6).result boolProv = some [⟨kv 1 2, true⟩, ⟨kv 1 3, true⟩, ⟨kv 2 3, true⟩] := by
  refine ⟨exPathT_ok _ (fun _ _ _ => rfl) _ (exTriangle_sorted _ _ _), (exPathT_plain _).1, by decide +kernel⟩

/-- `c81_min_max`: the path from 1 to 3 over 2 is better than the edge. -/
example : (exPathT (exTriangle (9/10 : ℚ) (2/5) (1/2))).Ok (minMaxProv ℚ) ∧ (exPathT (exTriangle (9/10 : ℚ) (2/5) (1/2))).Plain ∧
    ((exPathT (exTriangle (9/10 : ℚ) (2/5) (1/2))).run (minMaxProv ℚ) 6).result (minMaxProv ℚ) =
      some [⟨kv 1 2, 9/10⟩, ⟨kv 1 3, 1/2⟩, ⟨kv 2 3, 1/2⟩] := by
  refine ⟨exPathT_ok _ (fun _ _ _ => rfl) _ (exTriangle_sorted _ _ _), (exPathT_plain _).1, by decide +kernel⟩

/-- `c81_proofs_partial`: with the first two edges exclusive of each other. -/
example : (exPathT (exTriangle [[0]] [[1]] [[2]])).Ok (proofsProv ⟨[(7, 0)], [[0, 1]]⟩) ∧
    (∀ s, (exPathT (exTriangle [[0]] [[1]] [[2]])).Reached (proofsProv ⟨[(7, 0)], [[0, 1]]⟩) s → ∀ i, (s.rel i).noGallop (proofsProv ⟨[(7, 0)], [[0, 1]]⟩)) ∧
    ((exPathT (exTriangle [[0]] [[1]] [[2]])).run (proofsProv ⟨[(7, 0)], [[0, 1]]⟩) 6).result (proofsProv ⟨[(7, 0)], [[0, 1]]⟩) =
      some [⟨kv 1 2, [[0]]⟩, ⟨kv 1 3, [[0, 2], [1]]⟩, ⟨kv 2 3, [[2]]⟩] := by
  refine ⟨exPathT_ok _ (fun _ _ _ => rfl) _ (exTriangle_sorted _ _ _), fun s hs i => exTriangle_noGallop _ (fun _ _ _ => rfl) _ _ _ s hs i, by decide +kernel⟩

/-- Three facts with probability one half, without exclusions. -/
def exHalf : DnfCtx ℚ := ⟨fun _ => 1/2, ⟨[], []⟩⟩

/-- `c81_top_k_partial` and `c81_probability_partial`: the path from 1 to 3 has two proofs, and is reported with probability 5/8. -/
example (k : Nat) (_ : topKBound 3 < k) :
    (exPathT (exTriangle [[.pos 0]] [[.pos 1]] [[.pos 2]])).Ok (topKProv exHalf DnfCtx.popMax k) ∧
    (∀ s, (exPathT (exTriangle [[.pos 0]] [[.pos 1]] [[.pos 2]])).Reached (topKProv exHalf DnfCtx.popMax k) s →
      ∀ i, (s.rel i).noGallop (topKProv exHalf DnfCtx.popMax k)) ∧
    (∀ j, AllTags (tagOver 3) ((exPathT (exTriangle [[.pos 0]] [[.pos 1]] [[.pos 2]])).input j)) := by
  have hu : (topKProv exHalf DnfCtx.popMax k).Uniform := by
    intro a a' b
    show (((topKProv exHalf DnfCtx.popMax k).negate b).map _).isSome = (((topKProv exHalf DnfCtx.popMax k).negate b).map _).isSome
    simp
  refine ⟨exPathT_ok _ hu _ (exTriangle_sorted _ _ _), fun s hs i => exTriangle_noGallop _ hu _ _ _ s hs i, ?_⟩
  intro j e he
  simp only [exPathT, exTriangle, List.map_cons, List.map_nil, List.mem_cons, List.not_mem_nil, or_false] at he
  rcases he with rfl | rfl | rfl <;> simp [tagOver, Clause.Sorted, Literal.factId]
example : ((exPathT (exTriangle [[.pos 0]] [[.pos 1]] [[.pos 2]])).run (topKProv exHalf DnfCtx.popMax 9) 6).result (topKProv exHalf DnfCtx.popMax 9) =
      some [⟨kv 1 2, [[.pos 0]]⟩, ⟨kv 1 3, [[.pos 1], [.pos 0, .pos 2]]⟩, ⟨kv 2 3, [[.pos 2]]⟩] ∧
    Dnf.wmc [[.pos 1], [.pos 0, .pos 2]] (Sdd.Diagram.realAlgebra ℚ) exHalf.prob = some (5/8) := by decide +kernel

/-! ### C81 fails when the scan gallops -/

/-- Reachability: `reach(y) :- reach(x), edge(x, y)`. The facts `reach(1)`, ..., `reach(40)` are certain but for `reach(2)`, which has tag `a`. The
edges are certain but for the one from 70 to 60, which has tag `b`: 1 → 50, 1 → 70, 1 → 71, 2 → 60, 2 → 75, 70 → 1, 70 → 3, ..., 70 → 21, 70 → 60,
75 → 80 and 80 → 60. -/
def exLost {T : Type*} (one a b : T) : Stratum Nat T Unit Unit where
  input := fun _ => ([⟨kv 1 50, one⟩, ⟨kv 1 70, one⟩, ⟨kv 1 71, one⟩, ⟨kv 2 60, one⟩, ⟨kv 2 75, one⟩, ⟨kv 70 1, one⟩] : List (Elem (Tup Nat) T)) ++
    (List.range 19).map (fun i => ⟨kv 70 (i + 3), one⟩) ++ [⟨kv 70 60, b⟩, ⟨kv 75 80, one⟩, ⟨kv 80 60, one⟩]
  edb := fun _ => some ((List.range 40).map (fun i => ⟨kv (i + 1) 0, if i = 1 then a else one⟩))
  updates := [((), .project (.join (.rel ()) (.input ())) (fun t => match t with | .tup [_, _, y] => some (.tup [y, .val 0]) | _ => none))]
  sched := fun _ => .lfp
  goals := []
  iterLimit := none
  stopAtGoal := false
  earlyDiscard := true

theorem exLost_ok {T W : Type*} (c : Prov T W) (hc : c.Uniform) (one a b : T) : (exLost one a b).Ok c := by
  refine ⟨?_, ?_, fun _ => ?_, hc⟩
  · intro u hu
    simp only [exLost, List.mem_cons, List.not_mem_nil, or_false] at hu
    subst hu; simp [DF.wellSorted, DF.outSortedLe]
  · intro u hu
    simp only [exLost, List.mem_cons, List.not_mem_nil, or_false] at hu
    subst hu; simp [DF.stratified, DF.positive]
  · have h : ((exLost () () ()).input ()).Pairwise (fun a b => a.tuple < b.tuple) := by decide +kernel
    have hm : ((exLost one a b).input ()).map Elem.tuple = ((exLost () () ()).input ()).map Elem.tuple := by
      simp [exLost]
    unfold Sorted
    rw [← List.pairwise_map (f := Elem.tuple) (R := (· < ·)), hm, List.pairwise_map]
    exact h

/-- C81 is false in general. In the program above, with `k` above the bound, no exclusions and no negation: 60 is first reached from 2 with tag
`a`. When 70 is processed, 22 tuples are pending, more than four times as many as in the batch of 60, the scan gallops and misses 60, which is then
held twice: with tag `a` and with tag `b`. When 60 is reached again from 80 with tag `a`, the first occurrence marks the new one as redundant and
the second one is moved into it, so both are dropped. At the end 60 has tag `a` only, although it can be derived in every world in which `b` is true. -/
theorem c81_false : ∃ (p : Stratum Nat Dnf Unit Unit) (k fuel : Nat) (s : IterState Nat Dnf Unit) (res : List (Elem (Tup Nat) Dnf)) (w : Nat → Bool) (t : Tup Nat),
    topKBound 2 < k ∧ p.Ok (topKProv exHalf DnfCtx.popMax k) ∧ p.Plain ∧ (∀ u ∈ p.updates, u.2.noMinus) ∧ (∀ j, AllTags (tagOver 2) (p.input j)) ∧
    (∀ i facts, p.edb i = some facts → AllTags (tagOver 2) facts) ∧ p.iterLimit = none ∧ p.stopAtGoal = false ∧
    p.run (topKProv exHalf DnfCtx.popMax k) fuel = .done s ∧ (s.rel ()).complete (topKProv exHalf DnfCtx.popMax k) = some res ∧
    t ∈ (p.inWorld (dnfHolds w)).lfp unitProv () ∧ t ∉ worldOf (dnfHolds w) res := by
  have hrun : (match (exLost [[]] [[.pos 0]] [[.pos 1]] : Stratum Nat Dnf Unit Unit).run (topKProv exHalf DnfCtx.popMax 43046722) 10 with
    | .done s =>
      (match (s.rel ()).complete (topKProv exHalf DnfCtx.popMax 43046722) with
      | some res => res.all (fun e => decide (e.tuple = kv 60 0 → e.tag = [[Literal.pos 0]]))
      | none => false)
    | _ => false) = true := by decide +kernel
  have hu : (topKProv exHalf DnfCtx.popMax 43046722).Uniform := by
    intro a a' b
    show (((topKProv exHalf DnfCtx.popMax 43046722).negate b).map _).isSome = (((topKProv exHalf DnfCtx.popMax 43046722).negate b).map _).isSome
    simp
  have h0 : tagOver 2 [[]] := by simp [tagOver, Clause.Sorted]
  have h1 : ∀ f < 2, tagOver 2 [[.pos f]] := by intro f hf; simp [tagOver, Clause.Sorted, Literal.factId]; omega
  split at hrun
  · rename_i s hs
    split at hrun
    · rename_i res hres
      refine ⟨_, 43046722, 10, s, res, fun f => decide (f = 1), kv 60 0, by decide +kernel, exLost_ok _ hu _ _ _, ⟨?_, ?_, fun _ => rfl⟩, ?_, ?_, ?_, rfl, rfl, hs, hres,
        ?_, ?_⟩
      · intro u hu
        simp only [exLost, List.mem_cons, List.not_mem_nil, or_false] at hu
        subst hu; simp [DF.keepsTags]
      · intro u hu
        simp only [exLost, List.mem_cons, List.not_mem_nil, or_false] at hu
        subst hu; simp [DF.sharp]
      · intro u hu
        simp only [exLost, List.mem_cons, List.not_mem_nil, or_false] at hu
        subst hu; simp [DF.noMinus]
      · intro j e he
        simp only [exLost, List.mem_append, List.mem_cons, List.not_mem_nil, or_false, List.mem_map] at he
        rcases he with ((rfl | rfl | rfl | rfl | rfl | rfl) | ⟨i, _, rfl⟩) | rfl | rfl | rfl
        all_goals first | exact h0 | exact h1 1 (by decide)
      · intro i facts hf e he
        obtain rfl := Option.some.inj hf
        obtain ⟨i, _, rfl⟩ := List.mem_map.1 he
        dsimp only
        split
        · exact h1 0 (by decide)
        · exact h0
      · intro X hX
        have hr : ∀ (x y : Nat) (tag : Dnf), dnfHolds (fun f => decide (f = 1)) tag → (⟨kv x y, tag⟩ : Elem (Tup Nat) Dnf) ∈
            (exLost [[]] [[.pos 0]] [[.pos 1]] : Stratum Nat Dnf Unit Unit).input () → kv x 0 ∈ X () → kv y 0 ∈ X () := by
          intro x y tag ht hin hx
          refine hX.2 _ (List.mem_singleton.2 rfl) ?_
          refine ⟨.tup [.val x, .val 0, .val y], ⟨.val x, .val 0, .val y, rfl, ⟨_, hx, rfl, rfl⟩, ⟨kv x y, ?_, rfl, rfl⟩⟩, rfl⟩
          show kv x y ∈ tuples (inWorld _ _)
          rw [tuples_inWorld]
          exact ⟨_, hin, rfl, ht⟩
        have hone : dnfHolds (fun f => decide (f = 1)) [[]] := ⟨[], by simp, by intro l hl; simp at hl⟩
        have h1' : kv 1 0 ∈ X () := by
          refine hX.1 () _ rfl ?_
          show kv 1 0 ∈ tuples (inWorld _ _)
          rw [tuples_inWorld]
          exact ⟨_, List.mem_map.2 ⟨0, by simp, rfl⟩, rfl, hone⟩
        refine hr 70 60 [[.pos 1]] ⟨[.pos 1], by simp, by intro l hl; simp at hl; subst hl; simp [Literal.holds]⟩ (by simp [exLost]) ?_
        exact hr 1 70 [[]] hone (by simp [exLost]) h1'
      · rintro ⟨e, he, het, c, hc, hw⟩
        have := of_decide_eq_true (List.all_eq_true.1 hrun e he) het
        rw [this] at hc
        simp only [List.mem_cons, List.not_mem_nil, or_false] at hc
        subst hc
        have := hw (.pos 0) (by simp)
        simp [Literal.holds] at this
    · cases hrun
  · cases hrun

end Scallop
