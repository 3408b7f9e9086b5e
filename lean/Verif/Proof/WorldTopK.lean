import Verif.Spec.Worlds
import Verif.Props.Proofs
import Mathlib.Data.Finset.Powerset
import Mathlib.Algebra.Order.BigOperators.Group.List

/-!
# Top-k proofs in a world
-/

namespace Scallop

open DnfCtx (HeapElem)

variable {K : Type*} [Field K] [LinearOrder K]

/-! ### Soundness, for all tags -/

theorem mergeFrom_keeps {x : Literal} {xs : Clause} {rec : Clause → Option Clause}
    (hrec : ∀ ys c, rec ys = some c → ∀ l, l ∈ xs ∨ l ∈ ys → l ∈ c) :
    ∀ ys c, Clause.mergeFrom x rec ys = some c → ∀ l, l ∈ x :: xs ∨ l ∈ ys → l ∈ c := by
  intro ys
  induction ys with
  | nil =>
    intro c h l hl
    simp only [Clause.mergeFrom] at h
    obtain ⟨d, hd, rfl⟩ := Option.map_eq_some_iff.mp h
    have := hrec [] d hd l
    simp only [List.mem_cons, List.not_mem_nil, or_false] at hl this ⊢
    tauto
  | cons y ys ih =>
    intro c h l hl
    have heq : ∀ {a b : Literal}, a.factId = b.factId → a.sign = b.sign → a = b := Literal.eq_of
    unfold Clause.mergeFrom at h
    split at h
    · rename_i he
      split at h
      · rename_i h1 h2
        obtain ⟨d, hd, rfl⟩ := Option.map_eq_some_iff.mp h
        have hx : x = .pos x.factId := heq rfl h1
        have hy : y = .pos x.factId := heq he.symm h2
        have := hrec ys d hd l
        rw [← hx]
        have hxy : y = x := by rw [hy, ← hx]
        rw [hxy] at hl
        simp only [List.mem_cons] at hl ⊢
        tauto
      · rename_i h1 h2
        obtain ⟨d, hd, rfl⟩ := Option.map_eq_some_iff.mp h
        have hx : x = .neg x.factId := heq rfl h1
        have hy : y = .neg x.factId := heq he.symm h2
        have := hrec ys d hd l
        rw [← hx]
        have hxy : y = x := by rw [hy, ← hx]
        rw [hxy] at hl
        simp only [List.mem_cons] at hl ⊢
        tauto
      · cases h
    · split at h
      · obtain ⟨d, hd, rfl⟩ := Option.map_eq_some_iff.mp h
        have := hrec (y :: ys) d hd l
        simp only [List.mem_cons] at hl this ⊢
        tauto
      · obtain ⟨d, hd, rfl⟩ := Option.map_eq_some_iff.mp h
        have := ih d hd l
        simp only [List.mem_cons] at hl this ⊢
        tauto

/-- A merged conjunction has all literals of both, sorted or not. -/
theorem merge_keeps : ∀ (c1 c2 c : Clause), c1.merge c2 = some c → ∀ l, l ∈ c1 ∨ l ∈ c2 → l ∈ c := by
  intro c1
  induction c1 with
  | nil => intro c2 c h l hl; simp only [Clause.merge, Option.some.injEq] at h; subst h; simpa using hl
  | cons x xs ih => intro c2 c h; exact mergeFrom_keeps ih c2 c h

theorem topKMult_soundAt (x : DnfCtx K) (k : Nat) (t1 t2 : Dnf) (w : Nat → Bool) (h : dnfHolds w (x.topKMult k t1 t2)) :
    dnfHolds w t1 ∧ dnfHolds w t2 := by
  obtain ⟨c, hc, hw⟩ := h
  have hn : (x.retainNoConflict (t1.and t2).dedup).Nodup := by
    unfold DnfCtx.retainNoConflict; exact (dedup_nodup _).filter _
  have h1 := (retainTopK_spec x _ k hn).2.2.1 c hc
  have h2 := (mem_dedup _ c).mp ((mem_retainNoConflict x _ c).mp h1).1
  obtain ⟨c1, hc1, c2, hc2, hm⟩ := (mem_and t1 t2 c).mp h2
  have hk := merge_keeps c1 c2 c hm
  exact ⟨⟨c1, hc1, fun l hl => hw l (hk l (.inl hl))⟩, ⟨c2, hc2, fun l hl => hw l (hk l (.inr hl))⟩⟩

theorem topK_soundAt (x : DnfCtx K) (pop : List (HeapElem K) → Option (HeapElem K × List (HeapElem K))) (k : Nat) (w : Nat → Bool) :
    (topKProv x pop k).SoundAt (dnfHolds w) :=
  ⟨fun a b h => topKAdd_sound x k a b w h, fun a b h => topKMult_soundAt x k a b w h⟩

theorem topK_negSoundAt (x : DnfCtx K) (hds : ∀ d ∈ x.disj.disjunctions, Asc d)
    (pop : List (HeapElem K) → Option (HeapElem K × List (HeapElem K))) (hpop : IsPop pop) (k : Nat) (w : Nat → Bool) :
    (topKProv x pop k).NegSoundAt (dnfHolds w) := by
  intro a b t h ht
  obtain ⟨r, hr, hs⟩ := Option.map_eq_some_iff.mp h
  obtain ⟨r', hr', hdis, _⟩ := c28_negate x hds pop hpop b k
  have : r = r' := by
    have hr : x.topKNegate pop b k = some r := hr
    rw [hr'] at hr; exact (Option.some.inj hr).symm
  subst this
  subst hs
  have := topKMult_soundAt x k a r w ht
  exact ⟨this.1, fun hb => hdis w ⟨this.2, hb⟩⟩

/-! ### Exactness, if `k` is large -/

theorem Clause.sorted_nodup {c : Clause} (h : c.Sorted) : c.Nodup := List.Pairwise.imp (fun {a b} hab e => by subst e; exact lt_irrefl _ hab) h

theorem Clause.sorted_ext {c d : Clause} (hc : c.Sorted) (hd : d.Sorted) (h : ∀ l, l ∈ c ↔ l ∈ d) : c = d := by
  have hp : c.Perm d := (List.perm_ext_iff_of_nodup (sorted_nodup hc) (sorted_nodup hd)).mpr h
  exact hp.eq_of_pairwise (fun a b _ _ ha hb => (lt_asymm ha hb).elim) hc hd

/-- All literals over the first `n` facts. -/
def literalsOver (n : Nat) : Finset Literal := (Finset.range n).image Literal.pos ∪ (Finset.range n).image Literal.neg

theorem mem_literalsOver {n : Nat} {l : Literal} (h : l.factId < n) : l ∈ literalsOver n := by
  unfold literalsOver
  cases l with
  | pos f => exact Finset.mem_union_left _ (Finset.mem_image_of_mem _ (Finset.mem_range.2 h))
  | neg f => exact Finset.mem_union_right _ (Finset.mem_image_of_mem _ (Finset.mem_range.2 h))

theorem card_literalsOver (n : Nat) : (literalsOver n).card ≤ 2 * n := by
  refine (Finset.card_union_le _ _).trans ?_
  have h1 := Finset.card_image_le (s := Finset.range n) (f := Literal.pos)
  have h2 := Finset.card_image_le (s := Finset.range n) (f := Literal.neg)
  simp only [Finset.card_range] at h1 h2
  omega

/-- There are at most `4 ^ n` conjunctions over `n` facts. -/
theorem tagOver_length {n : Nat} {t : Dnf} (h : tagOver n t) : t.length ≤ 4 ^ n := by
  have h1 : (t.toFinset.image (fun c => c.toFinset)).card = t.length := by
    rw [Finset.card_image_of_injOn, List.toFinset_card_of_nodup h.1]
    intro c hc d hd hcd
    simp only [Finset.mem_coe, List.mem_toFinset] at hc hd
    refine Clause.sorted_ext (h.2 c hc).1 (h.2 d hd).1 (fun l => ?_)
    have := congrArg (fun s => l ∈ s) hcd
    simpa using this
  have h2 : (t.toFinset.image (fun c => c.toFinset)) ⊆ (literalsOver n).powerset := by
    intro s hs
    obtain ⟨c, hc, rfl⟩ := Finset.mem_image.1 hs
    rw [Finset.mem_powerset]
    intro l hl
    exact mem_literalsOver ((h.2 c (List.mem_toFinset.1 hc)).2 l (List.mem_toFinset.1 hl))
  have h3 := Finset.card_le_card h2
  rw [h1, Finset.card_powerset] at h3
  refine h3.trans ((Nat.pow_le_pow_right (by decide) (card_literalsOver n)).trans ?_)
  rw [Nat.pow_mul]

theorem sorted_length {n : Nat} {c : Clause} (hc : c.Sorted) (h : ∀ l ∈ c, l.factId < n) : c.length ≤ n := by
  have h1 : (c.map Literal.factId).Nodup := by
    unfold Clause.Sorted at hc
    have : (c.map Literal.factId).Pairwise (· < ·) := List.pairwise_map.mpr hc
    exact this.imp (fun h => ne_of_lt h)
  have h2 : c.map Literal.factId ⊆ List.range n := by
    intro f hf
    obtain ⟨l, hl, rfl⟩ := List.mem_map.1 hf
    exact List.mem_range.2 (h l hl)
  simpa using (List.subperm_of_subset h1 h2).length_le

theorem cnf2dnfLoop_length (x : DnfCtx K) (pop : List (HeapElem K) → Option (HeapElem K × List (HeapElem K))) (hpop : IsPop pop) (cnf : List Clause)
    (k : Nat) : ∀ fuel heap visited result r, LoopInv x cnf heap visited result → result.length ≤ visited.length →
    DnfCtx.cnf2dnfLoop x pop cnf k fuel heap visited result = some r → r.length ≤ (cnf.map List.length).prod := by
  intro fuel
  induction fuel with
  | zero => intro heap visited result r _ _ h; simp [DnfCtx.cnf2dnfLoop] at h
  | succ fuel ih =>
    intro heap visited result r hinv hlen h
    unfold DnfCtx.cnf2dnfLoop at h
    split at h
    · split at h
      · obtain rfl := Option.some.inj h
        exact hlen.trans (visited_length hinv)
      · rename_i e rest hp
        obtain ⟨hperm, _⟩ := hpop.some heap e rest hp
        split at h
        · rename_i hv
          exact ih _ _ _ _ (loopInv_skip hinv hperm hv) hlen h
        · rename_i hv
          refine ih _ _ _ _ (loopInv_visit hinv hperm hv) ?_ h
          split
          · simp only [List.length_append, List.length_cons, List.length_nil]; omega
          · simp only [List.length_cons]; omega
    · obtain rfl := Option.some.inj h
      exact hlen.trans (visited_length hinv)

theorem cnf2dnfK_length (x : DnfCtx K) (pop : List (HeapElem K) → Option (HeapElem K × List (HeapElem K))) (hpop : IsPop pop) (f : List Clause)
    (k : Nat) (r : Dnf) (h : x.cnf2dnfK pop f k = some r) : r.length ≤ (f.map List.length).prod := by
  have hlen : ((f.map (DnfCtx.sortDesc x.literalProb)).map List.length) = f.map List.length := by
    rw [List.map_map]
    exact List.map_congr_left (fun c _ => (sortDesc_perm x.literalProb c).length_eq)
  have hempty : (f.map (DnfCtx.sortDesc x.literalProb)).isEmpty = f.isEmpty := by cases f <;> rfl
  unfold DnfCtx.cnf2dnfK at h
  simp only [hempty] at h
  split at h
  · rename_i he
    have : f = [] := List.isEmpty_iff.mp he
    subst this
    cases h; simp
  · split at h
    · cases h; simp
    · rename_i hany
      obtain ⟨first, hfirst⟩ := createElement_zero x _ (Bool.eq_false_iff.mpr hany)
      simp only [hfirst] at h
      rw [← hlen]
      exact cnf2dnfLoop_length x pop hpop _ k _ _ _ _ r (init_loopInv x _ first hfirst) (by simp) h

theorem le_topKBound (n : Nat) : 4 ^ n ≤ topKBound n := by
  unfold topKBound
  cases n with
  | zero => decide
  | succ n => exact (Nat.lt_two_pow_self).le.trans (Nat.pow_le_pow_left (by omega) _)

theorem prod_le_pow (m : Nat) : ∀ l : List Nat, (∀ a ∈ l, a ≤ m) → l.prod ≤ m ^ l.length := by
  intro l
  induction l with
  | nil => simp
  | cons a l ih =>
    intro h
    rw [List.prod_cons, List.length_cons, Nat.pow_succ, Nat.mul_comm]
    exact Nat.mul_le_mul (ih (fun b hb => h b (by simp [hb]))) (h a (by simp))

theorem negate_length (x : DnfCtx K) (pop : List (HeapElem K) → Option (HeapElem K × List (HeapElem K))) (hpop : IsPop pop) {n : Nat} {t : Dnf}
    (ht : tagOver n t) (k : Nat) (r : Dnf) (h : x.topKNegate pop t k = some r) : r.length ≤ topKBound n := by
  refine (cnf2dnfK_length x pop hpop _ k r h).trans ?_
  have h1 : ((t.map (fun c => c.map Literal.negate)).map List.length) = t.map List.length := by
    rw [List.map_map]; exact List.map_congr_left (fun c _ => by simp)
  rw [h1]
  refine (prod_le_pow (n + 1) _ ?_).trans ?_
  · intro a ha
    obtain ⟨c, hc, rfl⟩ := List.mem_map.1 ha
    exact (sorted_length (ht.2 c hc).1 (ht.2 c hc).2).trans (by omega)
  · rw [List.length_map]
    exact Nat.pow_le_pow_right (by omega) (tagOver_length ht)

theorem tagOver_mult (x : DnfCtx K) (hds : ∀ d ∈ x.disj.disjunctions, Asc d) (k : Nat) {n : Nat} {a b : Dnf} (hsa : ∀ c ∈ a, c.Sorted ∧ ∀ l ∈ c, l.factId < n)
    (hsb : ∀ c ∈ b, c.Sorted ∧ ∀ l ∈ c, l.factId < n) : tagOver n (x.topKMult k a b) := by
  obtain ⟨_, h2, h3, _⟩ := c27_mult x hds k a b (fun c hc => (hsa c hc).1) (fun c hc => (hsb c hc).1)
  refine ⟨h2, fun c hc => ?_⟩
  obtain ⟨c1, hc1, c2, hc2, hs, hm⟩ := h3 c hc
  refine ⟨hs, fun l hl => ?_⟩
  rcases (hm l).mp hl with h | h
  · exact (hsa c1 hc1).2 l h
  · exact (hsb c2 hc2).2 l h

theorem topK_exactAt (x : DnfCtx K) (hds : ∀ d ∈ x.disj.disjunctions, Asc d)
    (pop : List (HeapElem K) → Option (HeapElem K × List (HeapElem K))) (n k : Nat) (hk : topKBound n < k) (w : Nat → Bool)
    (hw : consistent w x.disj.disjunctions) : (topKProv x pop k).ExactAt (tagOver n) (dnfHolds w) := by
  have hadd : ∀ a b, tagOver n a → tagOver n b → tagOver n (x.topKAdd k a b) := by
    intro a b ha hb
    obtain ⟨_, h2, h3, _⟩ := c27_add x k a b
    exact ⟨h2, fun c hc => (h3 c hc).elim (ha.2 c) (hb.2 c)⟩
  have hlt : ∀ t, tagOver n t → t.length < k := fun t ht => ((tagOver_length ht).trans (le_topKBound n)).trans_lt hk
  have hadd' : ∀ a b, tagOver n a → tagOver n b → (dnfHolds w (x.topKAdd k a b) ↔ dnfHolds w a ∨ dnfHolds w b) := fun a b ha hb =>
    (c27_add x k a b).2.2.2.2.1 (.inl (hlt _ (hadd a b ha hb))) w
  refine ⟨topK_soundAt x pop k w, ?_, hadd, fun a b ha hb => tagOver_mult x hds k ha.2 hb.2, ?_, fun a b ha hb h => (hadd' a b ha hb).mpr h, ?_, ?_⟩
  · exact ⟨by simp [topKProv], fun c hc => by
      simp only [topKProv, List.mem_cons, List.not_mem_nil, or_false] at hc; subst hc; exact ⟨List.Pairwise.nil, by simp⟩⟩
  · exact ⟨[], by simp [topKProv], fun l hl => by simp at hl⟩
  · intro a b ha hb h1 h2
    exact ((c27_mult x hds k a b (fun c hc => (ha.2 c hc).1) (fun c hc => (hb.2 c hc).1)).2.2.2.2.1
      (.inl (hlt _ (tagOver_mult x hds k ha.2 hb.2))) w hw).mpr ⟨h1, h2⟩
  · intro a b ha hb h hv
    have he : a = x.topKAdd k a b := of_decide_eq_true h
    rw [he]
    exact (hadd' a b ha hb).mpr (.inr hv)

theorem topK_negExactAt (x : DnfCtx K) (hds : ∀ d ∈ x.disj.disjunctions, Asc d)
    (pop : List (HeapElem K) → Option (HeapElem K × List (HeapElem K))) (hpop : IsPop pop) (n k : Nat) (hk : topKBound n < k) (w : Nat → Bool)
    (hw : consistent w x.disj.disjunctions) : (topKProv x pop k).NegExactAt (tagOver n) (dnfHolds w) := by
  have hneg : ∀ b, tagOver n b → ∃ r, x.topKNegate pop b k = some r ∧ (∀ c ∈ r, c.Sorted ∧ ∀ l ∈ c, l.factId < n) ∧
      (dnfHolds w r ↔ ¬ dnfHolds w b) := by
    intro b hb
    obtain ⟨r, hr, _, hc, _⟩ := cnf2dnfK_spec x hds pop hpop (b.map (fun c => c.map Literal.negate)) k
    obtain ⟨r', hr', _, _, _, _, hex⟩ := c28_negate x hds pop hpop b k
    obtain rfl : r = r' := Option.some.inj (hr.symm.trans hr')
    refine ⟨r, hr, fun c hcr => ⟨(hc c hcr).1, fun l hl => ?_⟩, hex ((negate_length x pop hpop hb k r hr).trans_lt hk) w hw⟩
    obtain ⟨d, hd, hld⟩ := (hc c hcr).2.2.1 l hl
    obtain ⟨d', hd', rfl⟩ := List.mem_map.1 hd
    obtain ⟨l', hl', rfl⟩ := List.mem_map.1 hld
    have := (hb.2 d' hd').2 l' hl'
    cases l' <;> exact this
  have hminus : ∀ a b r, x.topKNegate pop b k = some r → (topKProv x pop k).minus a b = some (x.topKMult k a r) := by
    intro a b r hr
    have : (topKProv x pop k).negate b = some r := hr
    simp only [topKProv] at this ⊢
    rw [this]; rfl
  constructor
  · intro a b t ha hb h
    obtain ⟨r, hr, hs, _⟩ := hneg b hb
    rw [hminus a b r hr] at h
    cases h
    exact tagOver_mult x hds k ha.2 hs
  · intro a b ha hb h1 h2
    obtain ⟨r, hr, hs, hx⟩ := hneg b hb
    refine ⟨_, hminus a b r hr, ?_⟩
    have hov := tagOver_mult x hds k ha.2 hs
    exact ((c27_mult x hds k a r (fun c hc => (ha.2 c hc).1) (fun c hc => (hs c hc).1)).2.2.2.2.1
      (.inl (((tagOver_length hov).trans (le_topKBound n)).trans_lt hk)) w hw).mpr ⟨h1, hx.mpr h2⟩

end Scallop
