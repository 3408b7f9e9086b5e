import Verif.Proof.TaggedRule
import Verif.Props.Worlds

/-!
# Property theorems C96: tagged rules

`p.derivable v en` are the tuples that follow from the facts that are true in the world `v`, where a tagged rule applies to the tuples of its body that `en` says
(`Verif/Spec/TaggedRule.lean`).
-/

namespace Scallop.Tagged

open DnfCtx (HeapElem)
open Scallop.Front (FExpr Formula Name)

variable {V T W ι κ K : Type*} [LinearOrder V] [LinearOrder W] [Fintype ι] [DecidableEq ι] {v P : T → Prop}

/-- C96, soundness for every way to stop: what a relation says to be true in a world follows in that world from rules with a true event. -/
theorem c96_sound (c : Prov T W) (ev : Nat → T) (hc : c.SoundAt v) (p : EStratum V T ι κ K) (hok : p.forget.Ok c) (hp : p.forget.Plain)
    (hneg : ∀ u ∈ p.updates, c.NegSoundAt v ∨ u.forget.2.noMinus) (fuel : Nat) (L : List (Event V K)) (s : IterState V T ι)
    (h : p.run c ev fuel = .done L s) (i : ι) (res : List (Elem (Tup V) T)) (hres : (s.rel i).complete c = some res) :
    Sorted res ∧ worldOf v res ⊆ p.derivable v (someEvent v ev L) i := by
  have hi := (init_inv c p.forget).1
  obtain ⟨_, hfin⟩ := eRunLoop_spec c ev p hok fuel _ L s hi h
  have hw := eRunLoop_sound c ev hc p hok hp hneg L fuel ([], p.forget.init c) s hi (init_world c hc (p.enable (someEvent v ev L))).1 h
  unfold Relation.complete at hres
  split at hres
  · cases hres
    have hs : ∀ b ∈ (s.rel i).stable.reverse, Sorted b := fun b hb => (hfin.wf i).stable b (List.mem_reverse.mp hb)
    refine ⟨(foldl_merge_spec c (s.rel i).stable.reverse [] List.Pairwise.nil hs).1, ?_⟩
    refine (foldl_merge_sound hc.add _ [] List.Pairwise.nil hs).trans ?_
    rintro x (⟨e, he, _⟩ | hx)
    · simp at he
    · rw [worldOfB_reverse] at hx
      exact hw i (.inl (.inl hx))
  · cases hres

/-- C96: a stratum that runs to completion says in every world in which the tag operations are exact at least what follows with the rules all of whose
events are true, and at most what follows with the rules some event of which is true. -/
theorem c96_bounds (c : Prov T W) (ev : Nat → T) (hc : c.ExactAt P v) (p : EStratum V T ι κ K) (hok : p.forget.Ok c) (hp : p.forget.Plain)
    (hkeep : p.forget.keepsIn v c) (hPi : p.forget.InputsIn P) (hPe : ∀ i facts, p.edb i = some facts → AllTags P facts)
    (hneg : ∀ u ∈ p.updates, (c.NegSoundAt v ∧ c.NegExactAt P v) ∨ u.forget.2.noMinus) (hlim : p.iterLimit = none) (hgoal : p.stopAtGoal = false)
    (hq : (c.ExactAt (fun _ => True) v ∧ c.LinearAt v) ∨ ∀ s, p.Reached c ev s → ∀ i, (s.2.rel i).noGallop c)
    (fuel : Nat) (L : List (Event V K)) (s : IterState V T ι) (h : p.run c ev fuel = .done L s) (hev : ∀ n < L.length, P (ev n)) (i : ι) :
    ∃ res, (s.rel i).complete c = some res ∧ Sorted res ∧ AllTags P res ∧
      p.derivable v (everyEvent v ev L) i ⊆ worldOf v res ∧ worldOf v res ⊆ p.derivable v (someEvent v ev L) i := by
  have hi := (init_inv c p.forget).1
  obtain ⟨_, hfin⟩ := eRunLoop_spec c ev p hok fuel _ L s hi h
  have hw0 := (init_world c hc.toSoundAt (p.enable (someEvent v ev L))).1
  obtain ⟨ht0, hc0⟩ := (init_world c hc.toSoundAt p.forget).2 P hc hkeep hPe
  have h0 : ∀ i, ((p.forget.init c).rel i).recent = [] ∧ ((p.forget.init c).rel i).stable = [] := fun i => ⟨(hi.first rfl i).2, (hi.first rfl i).1⟩
  have hc1 : EInvC v ev p L (p.forget.init c) := ⟨hc0.edb, fun hn => absurd rfl hn⟩
  obtain ⟨hr, ht, hw1, hw2⟩ := eRunLoop_exact c ev hc p hok hp hkeep hPi hneg hlim hgoal hq L hev fuel ([], p.forget.init c) s .init hw0 ht0 hc1
    (fun i => .inr (by rw [(h0 i).1, (h0 i).2]; simp [DisjointB])) h i
  have hs : ∀ b ∈ (s.rel i).stable.reverse, Sorted b := fun b hb => (hfin.wf i).stable b (List.mem_reverse.mp hb)
  have hPs : ∀ b ∈ (s.rel i).stable.reverse, AllTags P b := fun b hb => (Relation.tagsIn_iff.mp ht).1 b (List.mem_reverse.mp hb)
  have hE : AllTags P ([] : List (Elem (Tup V) T)) := fun e he => by simp at he
  refine ⟨(s.rel i).stable.reverse.foldl (merge c) [], by simp [Relation.complete, hr, hfin.toAdd i],
    (foldl_merge_spec c _ [] List.Pairwise.nil hs).1, ?_, ?_, ?_⟩
  · rw [allTags_iff]
    refine (foldl_merge_sound hc.notIn _ [] List.Pairwise.nil hs).trans ?_
    rintro x (⟨e, he, _⟩ | ⟨b, hb, e, he, _, hn⟩)
    · simp at he
    · exact absurd (hPs b hb e he) hn
  · intro x hx
    have := hw2 hx
    rw [← worldOfB_reverse] at this
    exact foldl_merge_exact hc _ [] List.Pairwise.nil hs hE hPs (Or.inr this)
  · refine (foldl_merge_sound hc.add _ [] List.Pairwise.nil hs).trans ?_
    rintro x (⟨e, he, _⟩ | hx)
    · simp at he
    · rw [worldOfB_reverse] at hx
      exact hw1 hx

/-- **C96.** If events for the same rule and tuple agree, the result in the world is what follows in it when a rule applies to the tuples with a true event.
Missing: runs in which they do not agree, see `c96_recursive_false`. -/
theorem c96_worlds_partial (c : Prov T W) (ev : Nat → T) (hc : c.ExactAt P v) (p : EStratum V T ι κ K) (hok : p.forget.Ok c) (hp : p.forget.Plain)
    (hkeep : p.forget.keepsIn v c) (hPi : p.forget.InputsIn P) (hPe : ∀ i facts, p.edb i = some facts → AllTags P facts)
    (hneg : ∀ u ∈ p.updates, (c.NegSoundAt v ∧ c.NegExactAt P v) ∨ u.forget.2.noMinus) (hlim : p.iterLimit = none) (hgoal : p.stopAtGoal = false)
    (hq : (c.ExactAt (fun _ => True) v ∧ c.LinearAt v) ∨ ∀ s, p.Reached c ev s → ∀ i, (s.2.rel i).noGallop c)
    (fuel : Nat) (L : List (Event V K)) (s : IterState V T ι) (h : p.run c ev fuel = .done L s) (hev : ∀ n < L.length, P (ev n))
    (hagree : Agree v ev L) (i : ι) :
    ∃ res, (s.rel i).complete c = some res ∧ Sorted res ∧ AllTags P res ∧ worldOf v res = p.derivable v (someEvent v ev L) i := by
  obtain ⟨res, h1, h2, h3, h4, h5⟩ := c96_bounds c ev hc p hok hp hkeep hPi hPe hneg hlim hgoal hq fuel L s h hev i
  refine ⟨res, h1, h2, h3, Set.Subset.antisymm h5 ((derivable_mono v p ?_ i).trans h4)⟩
  rintro rule i d f g _ t _ ⟨m, e, hm, hr, hi, hv⟩ n e' hn hr' hi'
  exact hagree m n e e' hm hn (hr.trans hr'.symm) (hi.trans hi'.symm) hv

/-- If every tagged rule reads its tuples from finished collections, the run makes exactly one event for each rule and each of its tuples with a tag, in the
order of the rules and the tuples. -/
theorem c96_one_event (c : Prov T W) (ev : Nat → T) (p : EStratum V T ι κ K) (hok : p.forget.Ok c) (hs : p.Separate) (fuel : Nat)
    (L : List (Event V K)) (s : IterState V T ι) (h : p.run c ev fuel = .done L s) :
    (L = if s.num = 0 then [] else p.events) ∧ OneEach L := by
  have := eRunLoop_log c ev p hok hs fuel _ L s (init_inv c p.forget).1 (by simp [Stratum.init]) h
  have hL : L = if s.num = 0 then [] else p.events := by simpa using this
  refine ⟨hL, ?_⟩
  rw [hL]
  split
  · intro m n d e hm; simp at hm
  · exact separate_oneEach p hs

/-- So the result of such a stratum is exact. -/
theorem c96_separate (c : Prov T W) (ev : Nat → T) (hc : c.ExactAt P v) (p : EStratum V T ι κ K) (hok : p.forget.Ok c) (hp : p.forget.Plain) (hs : p.Separate)
    (hkeep : p.forget.keepsIn v c) (hPi : p.forget.InputsIn P) (hPe : ∀ i facts, p.edb i = some facts → AllTags P facts)
    (hneg : ∀ u ∈ p.updates, (c.NegSoundAt v ∧ c.NegExactAt P v) ∨ u.forget.2.noMinus) (hlim : p.iterLimit = none) (hgoal : p.stopAtGoal = false)
    (hq : (c.ExactAt (fun _ => True) v ∧ c.LinearAt v) ∨ ∀ s, p.Reached c ev s → ∀ i, (s.2.rel i).noGallop c)
    (fuel : Nat) (L : List (Event V K)) (s : IterState V T ι) (h : p.run c ev fuel = .done L s) (hev : ∀ n < p.events.length, P (ev n)) (i : ι) :
    ∃ res, (s.rel i).complete c = some res ∧ Sorted res ∧ AllTags P res ∧ worldOf v res = p.derivable v (someEvent v ev L) i := by
  obtain ⟨hL, h1⟩ := c96_one_event c ev p hok hs fuel L s h
  refine c96_worlds_partial c ev hc p hok hp hkeep hPi hPe hneg hlim hgoal hq fuel L s h ?_ ?_ i
  · intro n hn
    rw [hL] at hn
    split at hn
    · simp at hn
    · exact hev n hn
  · intro m n d e hm hn hr hi hv
    rwa [← h1 m n d e hm hn hr hi]

/-- Min-max probabilities, also for recursive rules: the tuples with a probability above a threshold are those that follow from the facts and the rules with
a probability above it. Events repeat the probability of their rule and tuple, so that it does not matter how many are made. -/
theorem c96_min_max [Field K] [LinearOrder K] [IsStrictOrderedRing K] (ev : Nat → K) (p : EStratum V K ι κ K) (hok : p.forget.Ok (minMaxProv K))
    (hp : p.forget.Plain) (hnames : (p.updates.filterMap Upd.name).Nodup)
    (hneg : ∀ u ∈ p.updates, u.forget.2.noMinus) (hlim : p.iterLimit = none) (hgoal : p.stopAtGoal = false) (fuel : Nat) (L : List (Event V K))
    (s : IterState V K ι) (h : p.run (minMaxProv K) ev fuel = .done L s) (hev : ∀ (n : Nat) e, L[n]? = some e → ev n = e.prob) (i : ι) (θ : K) (h0 : 0 ≤ θ) (h1 : θ < 1) :
    ∃ res, (s.rel i).complete (minMaxProv K) = some res ∧ Sorted res ∧
      worldOf (θ < ·) res = p.derivable (θ < ·) (fun rule t => ∃ i d f g q, Upd.tagged rule i d f g ∈ p.updates ∧ f t = some (some q) ∧ θ < q) i := by
  have hx : (minMaxProv K).ExactAt (fun _ => True) (θ < ·) := by
    refine ⟨⟨fun a b h => ?_, fun a b h => ?_⟩, trivial, fun _ _ _ _ => trivial, fun _ _ _ _ => trivial, h1, fun a b _ _ h => ?_, fun a b _ _ h h' => ?_,
      fun a b _ _ h h' => ?_⟩
    · exact lt_max_iff.mp h
    · exact lt_min_iff.mp h
    · exact lt_max_iff.mpr h
    · exact lt_min_iff.mpr ⟨h, h'⟩
    · have : a = max a b := by simpa [minMaxProv] using h
      rw [this]; exact lt_max_iff.mpr (.inr h')
  have hl : (minMaxProv K).LinearAt (θ < ·) := by
    intro a b h ha
    have hne : a ≠ max a b := by simpa [minMaxProv] using h
    have : a < b := by
      by_contra hc
      exact hne (max_eq_left (not_lt.mp hc)).symm
    exact lt_trans ha this
  obtain ⟨res, r1, r2, _, r3, r4⟩ := c96_bounds (minMaxProv K) ev hx p hok hp
    (fun _ t ht => not_lt.mpr ((of_decide_eq_true ht).trans h0)) (Stratum.inputsIn_all fun _ _ _ => trivial) (fun _ _ _ _ _ => trivial) (fun u hu => .inr (hneg u hu)) hlim hgoal
    (.inl ⟨hx, hl⟩) fuel L s h (fun _ _ => trivial) i
  have hlog := eRunLoop_logOk (minMaxProv K) ev p fuel _ L s (fun e he => by simp at he) h
  refine ⟨res, r1, r2, Set.Subset.antisymm (r4.trans (derivable_mono _ p ?_ i)) ((derivable_mono _ p ?_ i).trans r3)⟩
  · rintro rule _ _ _ _ _ t _ ⟨n, e, hn, rfl, rfl, hv⟩
    obtain ⟨i', d', f', g', hm, hf⟩ := hlog e (List.mem_of_getElem? hn)
    exact ⟨i', d', f', g', e.prob, hm, hf, by rwa [hev n e hn] at hv⟩
  · rintro rule _ _ _ _ _ t _ ⟨i', d', f', g', q, hm, hf, hq⟩ n e hn rfl rfl
    obtain ⟨i2, d2, f2, g2, hm2, hf2⟩ := hlog e (List.mem_of_getElem? hn)
    have := names_unique hnames hm hm2
    subst this
    rw [hf] at hf2
    obtain rfl : q = e.prob := by simpa using hf2
    show θ < ev n
    rw [hev n e hn]; exact hq

section topK

variable [Field K] [LinearOrder K]

/-- Facts `n₀`, `n₀ + 1`, ... are the events of the run. -/
def eventTag (n₀ n : Nat) : Dnf := [[.pos (n₀ + n)]]

/-- The tagged rule has a true event for the tuple, when the events of the stratum are the facts from `n₀` on. -/
def EStratum.enabledIn (p : EStratum V Dnf ι κ K) (n₀ : Nat) (w : Nat → Bool) (rule : String) (t : Tup V) : Prop :=
  ∃ (m : Nat) (e : Event V K), p.events[m]? = some e ∧ e.rule = rule ∧ e.inst = t ∧ w (n₀ + m) = true

/-- Top-k proofs, any `k`, any way to stop and also for recursive rules: the probability reported for a tuple is at most the probability that it follows
with rules one of whose events is true. -/
theorem c96_probability_bound [IsStrictOrderedRing K] (x : DnfCtx K) (hds : ∀ d ∈ x.disj.disjunctions, Asc d)
    (hpr : ∀ f, 0 ≤ x.prob f ∧ x.prob f ≤ 1) (pop : List (HeapElem K) → Option (HeapElem K × List (HeapElem K)))
    (hpop : IsPop pop) (k n₀ : Nat) (p : EStratum V Dnf ι κ K) (hok : p.forget.Ok (topKProv x pop k)) (hp : p.forget.Plain)
    (fuel : Nat) (L : List (Event V K)) (s : IterState V Dnf ι) (h : p.run (topKProv x pop k) (eventTag n₀) fuel = .done L s) (i : ι)
    (res : List (Elem (Tup V) Dnf)) (hres : (s.rel i).complete (topKProv x pop k) = some res) (e : Elem (Tup V) Dnf) (he : e ∈ res)
    (F : Finset Nat) (hF : ∀ c ∈ e.tag, ∀ l ∈ c, l.factId ∈ F) :
    ∃ q, Dnf.wmc e.tag (Sdd.Diagram.realAlgebra K) x.prob = some q ∧
      q ≤ eventProb x.prob F (fun w => e.tuple ∈ p.derivable (dnfHolds w) (someEvent (dnfHolds w) (eventTag n₀) L) i) := by
  refine ⟨_, c53_dnf e.tag x.prob F hF, Sdd.eventProb_mono (fun f _ => hpr f) (fun w hw => ?_)⟩
  exact (c96_sound _ _ (topK_soundAt x pop k w) p hok hp (fun _ _ => .inl (topK_negSoundAt x hds pop hpop k w)) fuel L s h i res hres).2 ⟨e, he, rfl, hw⟩

/-- **C96 for top-k proofs.** For tagged rules over finished collections, `k` above the bound for the number `n` of facts and events, in runs in which no scan
gallops and without exclusions: the probability reported for a tuple is the probability that it follows from the true facts and the tagged rules with
a true event, there being one independent event for each rule and tuple. A tuple that is not reported follows in no world. -/
theorem c96_probability_partial (x : DnfCtx K) (hds : x.disj.disjunctions = []) (pop : List (HeapElem K) → Option (HeapElem K × List (HeapElem K)))
    (hpop : IsPop pop) (n₀ n k : Nat) (hk : topKBound n < k) (p : EStratum V Dnf ι κ K) (hn : n₀ + p.events.length ≤ n)
    (hok : p.forget.Ok (topKProv x pop k)) (hp : p.forget.Plain) (hs : p.Separate)
    (hPi : p.forget.InputsIn (tagOver n)) (hPe : ∀ i facts, p.edb i = some facts → AllTags (tagOver n) facts)
    (hlim : p.iterLimit = none) (hgoal : p.stopAtGoal = false)
    (hq : ∀ s, p.Reached (topKProv x pop k) (eventTag n₀) s → ∀ i, (s.2.rel i).noGallop (topKProv x pop k))
    (fuel : Nat) (L : List (Event V K)) (s : IterState V Dnf ι) (h : p.run (topKProv x pop k) (eventTag n₀) fuel = .done L s) (i : ι) :
    ∃ res, (s.rel i).complete (topKProv x pop k) = some res ∧
      (∀ e ∈ res, Dnf.wmc e.tag (Sdd.Diagram.realAlgebra K) x.prob =
        some (eventProb x.prob (Finset.range n) (fun w => e.tuple ∈ p.derivable (dnfHolds w) (p.enabledIn n₀ w) i))) ∧
      ∀ t, t ∉ tuples res → ∀ w, t ∉ p.derivable (dnfHolds w) (p.enabledIn n₀ w) i := by
  have hcons : ∀ w, consistent w x.disj.disjunctions := by intro w; rw [hds]; intro d hd; simp at hd
  have hL : L = p.events := by
    have h1 := (c96_one_event _ _ p hok hs fuel L s h).1
    rwa [if_neg (eRunLoop_num _ _ p hgoal fuel _ L s h)] at h1
  have hen : ∀ w, someEvent (dnfHolds w) (eventTag n₀) L = p.enabledIn n₀ w := by
    intro w
    funext r t
    subst hL
    simp [someEvent, EStratum.enabledIn, dnfHolds, eventTag, Clause.holds, Literal.holds]
  have key : ∀ w, ∃ res, (s.rel i).complete (topKProv x pop k) = some res ∧ Sorted res ∧ AllTags (tagOver n) res ∧
      worldOf (dnfHolds w) res = p.derivable (dnfHolds w) (p.enabledIn n₀ w) i := fun w => by
    rw [← hen w]
    exact c96_separate _ _ (topK_exactAt x (by simp [hds]) pop n k hk w (hcons w)) p hok hp hs (fun _ t ht => by
      have : t = [] := by simpa [topKProv] using ht
      subst this
      simp [dnfHolds]) hPi hPe
      (fun _ _ => .inl ⟨topK_negSoundAt x (by simp [hds]) pop hpop k w, topK_negExactAt x (by simp [hds]) pop hpop n k hk w (hcons w)⟩) hlim hgoal (.inr hq) fuel L s h
      (fun m hm => ⟨by simp [eventTag], fun c hc => by
        simp only [eventTag, List.mem_singleton] at hc
        subst hc
        exact ⟨by simp [Clause.Sorted], fun l hl => by simp only [List.mem_singleton] at hl; subst hl; simp only [Literal.factId]; omega⟩⟩) i
  obtain ⟨res, h1, h2, h3, _⟩ := key (fun _ => false)
  have h4 : ∀ w, worldOf (dnfHolds w) res = p.derivable (dnfHolds w) (p.enabledIn n₀ w) i := fun w => by
    obtain ⟨res', r1, _, _, r4⟩ := key w
    rw [h1] at r1
    cases r1
    exact r4
  refine ⟨res, h1, fun e he => ?_, fun t ht w hw => ht ?_⟩
  · rw [c53_dnf e.tag x.prob (Finset.range n) (fun c hc l hl => Finset.mem_range.2 (((h3 e he).2 c hc).2 l hl))]
    congr 2
    funext w
    rw [← h4 w]
    apply propext
    constructor
    · intro hw; exact ⟨e, he, rfl, hw⟩
    · rintro ⟨e', he', het, hw⟩
      rw [← nodup_elem_eq (sorted_nodup h2) he' he het]; exact hw
  · rw [← h4 w] at hw
    exact worldOf_tuples _ hw

end topK

end Scallop.Tagged
