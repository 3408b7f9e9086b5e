import Verif.Proof.TopBottom
import Verif.Proof.SddTop

/-!
# Proofs about the operations of top-bottom-k tags
-/

namespace Scallop

open DnfCtx (HeapElem)

variable {K : Type*} [Field K] [LinearOrder K]

/-- The world with all facts the other way round. -/
def flipWorld (w : Nat → Bool) : Nat → Bool := fun i => !w i

theorem Literal.holds_flip (w : Nat → Bool) (l : Literal) : l.holds (flipWorld w) ↔ ¬ l.holds w := by
  cases l <;> simp [Literal.holds, flipWorld]

theorem cnfHolds_flip (w : Nat → Bool) (f : List Clause) : cnfHolds (flipWorld w) f ↔ ¬ dnfHolds w f := by
  unfold cnfHolds dnfHolds Clause.holds
  simp only [Literal.holds_flip]
  push Not
  rfl

theorem dnfHolds_flip (w : Nat → Bool) (f : List Clause) : dnfHolds (flipWorld w) f ↔ ¬ cnfHolds w f := by
  unfold cnfHolds dnfHolds Clause.holds
  simp only [Literal.holds_flip]
  push Not
  rfl

theorem dnf2cnfK_spec (x : DnfCtx K) {pop : List (HeapElem K) → Option (HeapElem K × List (HeapElem K))} (hpop : IsPop pop)
    (f : List Clause) (k : Nat) :
    ∃ r, x.dnf2cnfK pop f k = some r ∧ (f ≠ [] → r.length ≤ k) ∧ (f = [] → r = [[]]) ∧ (∀ c ∈ r, ∀ l ∈ c, ∃ d ∈ f, l ∈ d) ∧
      (∀ w, dnfHolds w f → cnfHolds w r) ∧ (r.length < k ∨ f = [] → ∀ w, cnfHolds w r → dnfHolds w f) := by
  obtain ⟨r, hr, hlen, hc, hex⟩ := cnf2dnfK_spec x.dual (by simp [DnfCtx.dual, Disjunctions.new]) pop hpop f k
  refine ⟨r, hr, hlen, ?_, fun c h => (hc c h).2.2.1, ?_, ?_⟩
  · rintro rfl
    simpa [DnfCtx.cnf2dnfK] using hr.symm
  · intro w hw
    by_contra hno
    obtain ⟨c, hcr, hcw⟩ := (dnfHolds_flip w r).mpr hno
    exact (cnfHolds_flip w f).mp ((hc c hcr).2.2.2 _ hcw) hw
  · intro hk w hw
    by_contra hno
    exact (dnfHolds_flip w r).mp (hex hk (flipWorld w) (by simp [consistent, DnfCtx.dual, Disjunctions.new]) ((cnfHolds_flip w f).mpr hno)) hw

theorem CnfDnf.negate_holds (w : Nat → Bool) (t : CnfDnf) : t.negate.holds w ↔ ¬ t.holds w := by
  have key : ∀ cs : List Clause, CnfDnf.holds w ⟨t.kind.counterpart, cs.map (fun c => c.map Literal.negate)⟩ ↔ ¬ CnfDnf.holds w ⟨t.kind, cs⟩ := by
    intro cs
    cases ht : t.kind
    · show dnfHolds w _ ↔ ¬ cnfHolds w _
      unfold cnfHolds dnfHolds Clause.holds
      simp only [List.mem_map, exists_exists_and_eq_and, forall_exists_index, and_imp, forall_apply_eq_imp_iff₂, Literal.holds_negate]
      push Not
      rfl
    · exact cnfHolds_negate w cs
  unfold CnfDnf.negate
  split
  · rename_i l h
    have : t = ⟨t.kind, [[l]]⟩ := by rw [← h]
    rw [this]
    cases t.kind <;> simp [CnfDnf.holds, cnfHolds, dnfHolds, Clause.holds, Literal.holds_negate]
  · exact key t.clauses

theorem mergeK_dnf (x : DnfCtx K) (k : Nat) (f1 f2 : List Clause) :
    (∀ w, dnfHolds w (x.mergeK k f1 f2) → dnfHolds w f1 ∨ dnfHolds w f2) ∧
    ((x.mergeK k f1 f2).length < k ∨ f1.length + f2.length ≤ k → ∀ w, dnfHolds w f1 ∨ dnfHolds w f2 → dnfHolds w (x.mergeK k f1 f2)) := by
  obtain ⟨_, h2, h3⟩ := mergeK_spec x k f1 f2
  constructor
  · rintro w ⟨c, hc, hw⟩
    exact (h2 c hc).imp (fun h => ⟨c, h, hw⟩) (fun h => ⟨c, h, hw⟩)
  · rintro hk w (⟨c, hc, hw⟩ | ⟨c, hc, hw⟩)
    · exact ⟨c, (h3 hk).1 c (.inl hc), hw⟩
    · exact ⟨c, (h3 hk).1 c (.inr hc), hw⟩

theorem mergeK_cnf (x : DnfCtx K) (k : Nat) (f1 f2 : List Clause) :
    (∀ w, cnfHolds w f1 → cnfHolds w f2 → cnfHolds w (x.mergeK k f1 f2)) ∧
    ((x.mergeK k f1 f2).length < k ∨ f1.length + f2.length ≤ k → ∀ w, cnfHolds w (x.mergeK k f1 f2) → cnfHolds w f1 ∧ cnfHolds w f2) := by
  obtain ⟨_, h2, h3⟩ := mergeK_spec x k f1 f2
  constructor
  · intro w h1 h1' c hc
    exact (h2 c hc).elim (h1 c) (h1' c)
  · intro hk w h
    exact ⟨fun c hc => h c ((h3 hk).1 c (.inl hc)), fun c hc => h c ((h3 hk).1 c (.inr hc))⟩

/-- Literals of a list of clauses. -/
def LitsIn (r : List Clause) (f : List Clause) : Prop := ∀ c ∈ r, ∀ l ∈ c, ∃ d ∈ f, l ∈ d

theorem mergeK_lits (x : DnfCtx K) (k : Nat) (f1 f2 : List Clause) : LitsIn (x.mergeK k f1 f2) (f1 ++ f2) := by
  intro c hc l hl
  exact ⟨c, List.mem_append.mpr ((mergeK_spec x k f1 f2).2.1 c hc), hl⟩

theorem LitsIn.trans {r g f : List Clause} (h1 : LitsIn r g) (h2 : LitsIn g f) : LitsIn r f := by
  intro c hc l hl
  obtain ⟨d, hd, hl'⟩ := h1 c hc l hl
  exact h2 d hd l hl'

/-- The sum of two tags. -/
theorem topBottomKAdd_spec (x : DnfCtx K) (hds : ∀ d ∈ x.disj.disjunctions, Asc d)
    {pop : List (HeapElem K) → Option (HeapElem K × List (HeapElem K))} (hpop : IsPop pop) (k : Nat) (t1 t2 : CnfDnf) :
    ∃ r, x.topBottomKAdd pop k t1 t2 = some r ∧ LitsIn r.clauses (t1.clauses ++ t2.clauses) ∧
      (0 < k → t1.clauses.length ≤ k → r.clauses.length ≤ k) ∧
      (t1.kind = .dnf ∨ t2.kind = .dnf → r.kind = .dnf ∧ r.clauses.length ≤ k ∧ (∀ w, r.holds w → t1.holds w ∨ t2.holds w) ∧
        (r.clauses.length < k → ∀ w, consistent w x.disj.disjunctions → t1.holds w ∨ t2.holds w → r.holds w)) ∧
      (t1.kind = .cnf → t2.kind = .cnf → r.kind = .cnf ∧
        (t1.clauses ≠ [] → t2.clauses ≠ [] → (t1 ≠ t2 → r.clauses.length ≤ k) ∧ (∀ w, t1.holds w ∨ t2.holds w → r.holds w) ∧
          (t1 = t2 ∨ r.clauses.length < k → ∀ w, r.holds w → t1.holds w ∨ t2.holds w)) ∧
        (t1.clauses = [] ∨ t2.clauses = [] → r.clauses = [[]])) := by
  obtain ⟨k1, c1⟩ := t1
  obtain ⟨k2, c2⟩ := t2
  cases k1 <;> cases k2
  · obtain ⟨r, hr, h1, h2, h3, h4, h5⟩ := multFormulaBottomK_spec x hpop c1 c2 k
    refine ⟨⟨.cnf, r⟩, by simp [DnfCtx.topBottomKAdd, hr], ?_, ?_, by simp, fun _ _ => ⟨rfl, ?_, h4⟩⟩
    · intro c hc l hl
      by_cases e : c1 = [] ∨ c2 = []
      · rw [h4 e] at hc
        simp only [List.mem_cons, List.not_mem_nil, or_false] at hc
        subst hc; simp at hl
      · push Not at e
        rcases h5 e.1 e.2 c hc with ⟨_, hc⟩ | ⟨a, ha, b, hb, rfl, _⟩
        · exact ⟨c, List.mem_append.mpr (.inl hc), hl⟩
        · rcases (Clause.mergeUnchecked_mem a b l).mp hl with hl | hl
          · exact ⟨a, List.mem_append.mpr (.inl ha), hl⟩
          · exact ⟨b, List.mem_append.mpr (.inr hb), hl⟩
    · intro hk hl1
      by_cases e : c1 = [] ∨ c2 = []
      · simp only [h4 e, List.length_cons, List.length_nil]; omega
      · push Not at e
        by_cases e' : c1 = c2
        · subst e'
          have : r = c1 := by
            have := hr
            simp only [DnfCtx.multFormulaBottomK, List.length_eq_zero_iff, or_self, e.1, if_false, if_true] at this
            exact (Option.some.inj this).symm
          subst this; exact hl1
        · exact h1 e.1 e.2 e'
    · intro e1 e2
      refine ⟨fun hne => h1 e1 e2 (fun e => hne (by rw [e])), h2 e1 e2, fun hk => h3 e1 e2 (hk.imp (fun e => ?_) id)⟩
      exact (CnfDnf.mk.inj e).2
  · obtain ⟨r, hr, hlen, hc, hex⟩ := cnf2dnfK_spec x hds pop hpop c1 k
    have hm := mergeK_spec x k r c2
    have hd := mergeK_dnf x k r c2
    refine ⟨⟨.dnf, x.mergeK k r c2⟩, by simp [DnfCtx.topBottomKAdd, DnfCtx.addFormulaTopK, hr], ?_, fun _ _ => hm.1, fun _ => ⟨rfl, hm.1, ?_, ?_⟩,
      by simp⟩
    · refine (mergeK_lits x k r c2).trans ?_
      intro c hc' l hl
      rcases List.mem_append.mp hc' with h | h
      · obtain ⟨d, hd, hl⟩ := (hc c h).2.2.1 l hl
        exact ⟨d, List.mem_append.mpr (.inl hd), hl⟩
      · exact ⟨c, List.mem_append.mpr (.inr h), hl⟩
    · intro w hw
      refine (hd.1 w hw).imp ?_ id
      rintro ⟨c, hc', hcw⟩
      exact (hc c hc').2.2.2 w hcw
    · intro hk w hw h
      refine hd.2 (.inl hk) w (h.imp (fun h => hex (.inl ?_) w hw h) id)
      exact lt_of_le_of_lt (hm.2.2 (.inl hk)).2.1 hk
  · obtain ⟨r, hr, hlen, hc, hex⟩ := cnf2dnfK_spec x hds pop hpop c2 k
    have hm := mergeK_spec x k c1 r
    have hd := mergeK_dnf x k c1 r
    refine ⟨⟨.dnf, x.mergeK k c1 r⟩, by simp [DnfCtx.topBottomKAdd, DnfCtx.addFormulaTopK, hr], ?_, fun _ _ => hm.1, fun _ => ⟨rfl, hm.1, ?_, ?_⟩,
      by simp⟩
    · refine (mergeK_lits x k c1 r).trans ?_
      intro c hc' l hl
      rcases List.mem_append.mp hc' with h | h
      · exact ⟨c, List.mem_append.mpr (.inl h), hl⟩
      · obtain ⟨d, hd, hl⟩ := (hc c h).2.2.1 l hl
        exact ⟨d, List.mem_append.mpr (.inr hd), hl⟩
    · intro w hw
      refine (hd.1 w hw).imp id ?_
      rintro ⟨c, hc', hcw⟩
      exact (hc c hc').2.2.2 w hcw
    · intro hk w hw h
      refine hd.2 (.inl hk) w (h.imp id (fun h => hex (.inl ?_) w hw h))
      exact lt_of_le_of_lt (hm.2.2 (.inl hk)).2.2 hk
  · have hm := mergeK_spec x k c1 c2
    have hd := mergeK_dnf x k c1 c2
    exact ⟨⟨.dnf, x.mergeK k c1 c2⟩, rfl, mergeK_lits x k c1 c2, fun _ _ => hm.1,
      fun _ => ⟨rfl, hm.1, hd.1, fun hk w _ h => hd.2 (.inl hk) w h⟩, by simp⟩

/-- The product of two tags. -/
theorem topBottomKMult_spec (x : DnfCtx K) (hds : ∀ d ∈ x.disj.disjunctions, Asc d)
    {pop : List (HeapElem K) → Option (HeapElem K × List (HeapElem K))} (hpop : IsPop pop) (k : Nat) (t1 t2 : CnfDnf) :
    ∃ r, x.topBottomKMult pop k t1 t2 = some r ∧ LitsIn r.clauses (t1.clauses ++ t2.clauses) ∧
      (t1.clauses.length ≤ k → r.clauses.length ≤ k) ∧
      (t1.kind = .dnf → t2.kind = .dnf → r.kind = .dnf ∧ (t1 ≠ t2 → r.clauses.length ≤ k) ∧ (∀ w, r.holds w → t1.holds w ∧ t2.holds w) ∧
        (t1 = t2 ∨ r.clauses.length < k → ∀ w, consistent w x.disj.disjunctions → t1.holds w → t2.holds w → r.holds w)) ∧
      (t1.kind = .cnf ∨ t2.kind = .cnf → r.kind = .cnf ∧ r.clauses.length ≤ k ∧ (∀ w, t1.holds w → t2.holds w → r.holds w) ∧
        (r.clauses.length < k → ∀ w, r.holds w → t1.holds w ∧ t2.holds w)) := by
  obtain ⟨k1, c1⟩ := t1
  obtain ⟨k2, c2⟩ := t2
  cases k1 <;> cases k2
  · have hm := mergeK_spec x.dual k c1 c2
    have hd := mergeK_cnf x.dual k c1 c2
    exact ⟨⟨.cnf, x.dual.mergeK k c1 c2⟩, rfl, mergeK_lits x.dual k c1 c2, fun _ => hm.1, by simp,
      fun _ => ⟨rfl, hm.1, hd.1, fun hk w h => hd.2 (.inl hk) w h⟩⟩
  · obtain ⟨r, hr, -, -, hl', hsub, hex⟩ := dnf2cnfK_spec x hpop c2 k
    have hm := mergeK_spec x.dual k c1 r
    have hd := mergeK_cnf x.dual k c1 r
    refine ⟨⟨.cnf, x.dual.mergeK k c1 r⟩, by simp [DnfCtx.topBottomKMult, DnfCtx.addFormulaBottomK, hr], ?_, fun _ => hm.1, by simp,
      fun _ => ⟨rfl, hm.1, fun w h1 h2 => hd.1 w h1 (hsub w h2), fun hk w h => ?_⟩⟩
    · refine (mergeK_lits x.dual k c1 r).trans ?_
      intro c hc' l hl
      rcases List.mem_append.mp hc' with h | h
      · exact ⟨c, List.mem_append.mpr (.inl h), hl⟩
      · obtain ⟨d, hd, hl⟩ := hl' c h l hl
        exact ⟨d, List.mem_append.mpr (.inr hd), hl⟩
    · exact (hd.2 (.inl hk) w h).imp id (hex (.inl (lt_of_le_of_lt (hm.2.2 (.inl hk)).2.2 hk)) w)
  · obtain ⟨r, hr, -, -, hl', hsub, hex⟩ := dnf2cnfK_spec x hpop c1 k
    have hm := mergeK_spec x.dual k r c2
    have hd := mergeK_cnf x.dual k r c2
    refine ⟨⟨.cnf, x.dual.mergeK k r c2⟩, by simp [DnfCtx.topBottomKMult, DnfCtx.addFormulaBottomK, hr], ?_, fun _ => hm.1, by simp,
      fun _ => ⟨rfl, hm.1, fun w h1 h2 => hd.1 w (hsub w h1) h2, fun hk w h => ?_⟩⟩
    · refine (mergeK_lits x.dual k r c2).trans ?_
      intro c hc' l hl
      rcases List.mem_append.mp hc' with h | h
      · obtain ⟨d, hd, hl⟩ := hl' c h l hl
        exact ⟨d, List.mem_append.mpr (.inl hd), hl⟩
      · exact ⟨c, List.mem_append.mpr (.inr h), hl⟩
    · exact (hd.2 (.inl hk) w h).imp (hex (.inl (lt_of_le_of_lt (hm.2.2 (.inl hk)).2.1 hk)) w) id
  · obtain ⟨r, hr, h1, h2, h3, h4, h5⟩ := multFormulaTopK_spec x hds hpop c1 c2 k
    refine ⟨⟨.dnf, r⟩, by simp [DnfCtx.topBottomKMult, hr], ?_, ?_, fun _ _ => ⟨rfl, ?_, h2, ?_⟩, by simp⟩
    · intro c hc l hl
      by_cases e : c1 = c2
      · subst e
        rw [h5 rfl] at hc
        exact ⟨c, List.mem_append.mpr (.inl hc), hl⟩
      · obtain ⟨a, ha, b, hb, rfl, _⟩ := h4 e c hc
        rcases (Clause.mergeUnchecked_mem a b l).mp hl with hl | hl
        · exact ⟨a, List.mem_append.mpr (.inl ha), hl⟩
        · exact ⟨b, List.mem_append.mpr (.inr hb), hl⟩
    · intro hl
      by_cases e : c1 = c2
      · rw [h5 e]; exact hl
      · exact h1 e
    · intro hne
      exact h1 (fun e => hne (by rw [e]))
    · intro hk
      refine h3 (hk.imp (fun e => ?_) id)
      exact (CnfDnf.mk.inj e).2

/-! ### Histories -/

/-- Invariant of the states of histories. -/
structure TopBottomInv (k : Nat) (prob : Nat → K) (ops : List TagOp) (s : TopBottomState K) : Prop where
  next : s.numFacts = (exclusions ops).length
  disj : DisjInv (exclusions ops) s.ctx.disj
  prob : s.ctx.prob = prob
  lits : ∀ t ∈ s.tags, ∀ c ∈ t.clauses, ∀ l ∈ c, l.factId < s.numFacts
  len : 0 < k → ∀ t ∈ s.tags, t.clauses.length ≤ k

theorem TopBottomInv.push {k : Nat} {prob : Nat → K} {ops : List TagOp} {s : TopBottomState K} (h : TopBottomInv k prob ops s) (op : TagOp)
    (hop : exclusions (ops ++ [op]) = exclusions ops) (t : CnfDnf) (ht : ∀ c ∈ t.clauses, ∀ l ∈ c, l.factId < s.numFacts)
    (hl : 0 < k → t.clauses.length ≤ k) : TopBottomInv k prob (ops ++ [op]) { s with tags := s.tags ++ [t] } := by
  refine ⟨by rw [hop]; exact h.next, by rw [hop]; exact h.disj, h.prob, ?_, ?_⟩
  · intro t' ht'
    rcases List.mem_append.mp ht' with ht' | ht'
    · exact h.lits t' ht'
    · simp only [List.mem_cons, List.not_mem_nil, or_false] at ht'
      subst ht'; exact ht
  · intro hk t' ht'
    rcases List.mem_append.mp ht' with ht' | ht'
    · exact h.len hk t' ht'
    · simp only [List.mem_cons, List.not_mem_nil, or_false] at ht'
      subst ht'; exact hl hk

theorem topBottomTagging_inv {k : Nat} {prob : Nat → K} {ops : List TagOp} {s : TopBottomState K} (h : TopBottomInv k prob ops s)
    (e : Option Nat) :
    ∃ s', s.tagging e = some s' ∧ TopBottomInv k prob (ops ++ [.tag e]) s' ∧ s'.tags = s.tags ++ [.dnfSingleton s.numFacts] ∧
      s'.numFacts = s.numFacts + 1 := by
  have hlits : ∀ t ∈ s.tags ++ [CnfDnf.dnfSingleton s.numFacts], ∀ c ∈ t.clauses, ∀ l ∈ c, l.factId < s.numFacts + 1 := by
    intro t ht c hc l hl
    rcases List.mem_append.mp ht with ht | ht
    · exact Nat.lt_succ_of_lt (h.lits t ht c hc l hl)
    · simp only [List.mem_cons, List.not_mem_nil, or_false] at ht
      subst ht
      simp only [CnfDnf.dnfSingleton, List.mem_cons, List.not_mem_nil, or_false] at hc
      subst hc
      simp only [List.mem_cons, List.not_mem_nil, or_false] at hl
      subst hl
      simp [Literal.factId]
  have hnext : s.numFacts + 1 = (exclusions (ops ++ [.tag e])).length := by rw [exclusions_append]; simp [h.next]
  have hlen : 0 < k → ∀ t ∈ s.tags ++ [CnfDnf.dnfSingleton s.numFacts], t.clauses.length ≤ k := by
    intro hk t ht
    rcases List.mem_append.mp ht with ht | ht
    · exact h.len hk t ht
    · simp only [List.mem_cons, List.not_mem_nil, or_false] at ht
      subst ht; exact hk
  cases e with
  | none =>
    refine ⟨_, rfl, ⟨hnext, ?_, h.prob, hlits, hlen⟩, rfl, rfl⟩
    rw [exclusions_append]; exact h.disj.tag_none
  | some e =>
    obtain ⟨ds', h1, h2⟩ := h.disj.tag_some e
    refine ⟨⟨s.numFacts + 1, { s.ctx with disj := ds' }, s.tags ++ [.dnfSingleton s.numFacts]⟩, ?_, ⟨hnext, ?_, h.prob, hlits, hlen⟩, rfl, rfl⟩
    · simp only [TopBottomState.tagging]; rw [h.next, h1]; rfl
    · rw [exclusions_append]; exact h2

theorem CnfDnf.negate_length (t : CnfDnf) : t.negate.clauses.length = t.clauses.length := by
  unfold CnfDnf.negate
  split
  · rename_i h; simp [h]
  · simp

theorem CnfDnf.negate_lits (t : CnfDnf) (n : Nat) (h : ∀ c ∈ t.clauses, ∀ l ∈ c, l.factId < n) : ∀ c ∈ t.negate.clauses, ∀ l ∈ c, l.factId < n := by
  have hn : ∀ l : Literal, l.negate.factId = l.factId := by intro l; cases l <;> rfl
  unfold CnfDnf.negate
  split
  · rename_i a e
    have := h [a] (by rw [e]; simp) a (by simp)
    simpa [hn] using this
  · intro c hc l hl
    simp only [List.mem_map] at hc
    obtain ⟨d, hd, rfl⟩ := hc
    obtain ⟨m, hm, rfl⟩ := List.mem_map.mp hl
    rw [hn]; exact h d hd m hm

theorem LitsIn.bound {r f1 f2 : List Clause} {n : Nat} (h : LitsIn r (f1 ++ f2)) (h1 : ∀ c ∈ f1, ∀ l ∈ c, l.factId < n)
    (h2 : ∀ c ∈ f2, ∀ l ∈ c, l.factId < n) : ∀ c ∈ r, ∀ l ∈ c, l.factId < n := by
  intro c hc l hl
  obtain ⟨d, hd, hl⟩ := h c hc l hl
  rcases List.mem_append.mp hd with hd | hd
  · exact h1 d hd l hl
  · exact h2 d hd l hl

/-- Every operation on existing tags succeeds, and keeps the invariant; `t` is the new tag. -/
theorem topBottomStep_inv {pop : List (HeapElem K) → Option (HeapElem K × List (HeapElem K))} (hpop : IsPop pop) {k : Nat} {prob : Nat → K}
    {ops : List TagOp} {s s' : TopBottomState K} (h : TopBottomInv k prob ops s) (op : TagOp) (hs : s.step pop k op = some s') :
    TopBottomInv k prob (ops ++ [op]) s' := by
  cases op with
  | tag e =>
    obtain ⟨s1, h1, h2, _⟩ := topBottomTagging_inv h e
    simp only [TopBottomState.step] at hs
    rw [h1] at hs
    obtain rfl := Option.some.inj hs
    exact h2
  | zero =>
    obtain rfl := Option.some.inj hs
    exact h.push _ (by rw [exclusions_append]; simp) _ (by simp [CnfDnf.dnfZero]) (by simp [CnfDnf.dnfZero])
  | one =>
    obtain rfl := Option.some.inj hs
    exact h.push _ (by rw [exclusions_append]; simp) _ (by simp [CnfDnf.dnfOne]) (fun hk => hk)
  | add i j =>
    simp only [TopBottomState.step] at hs
    split at hs
    · rename_i a b hi hj
      obtain ⟨r, hr, hl, hlen, _⟩ := topBottomKAdd_spec s.ctx h.disj.asc hpop k a b
      rw [hr] at hs
      obtain rfl := Option.some.inj hs
      exact h.push _ (by rw [exclusions_append]; simp) _
        (hl.bound (h.lits a (List.mem_of_getElem? hi)) (h.lits b (List.mem_of_getElem? hj)))
        (fun hk => hlen hk (h.len hk a (List.mem_of_getElem? hi)))
    · cases hs
  | mult i j =>
    simp only [TopBottomState.step] at hs
    split at hs
    · rename_i a b hi hj
      obtain ⟨r, hr, hl, hlen, _⟩ := topBottomKMult_spec s.ctx h.disj.asc hpop k a b
      rw [hr] at hs
      obtain rfl := Option.some.inj hs
      exact h.push _ (by rw [exclusions_append]; simp) _
        (hl.bound (h.lits a (List.mem_of_getElem? hi)) (h.lits b (List.mem_of_getElem? hj)))
        (fun hk => hlen (h.len hk a (List.mem_of_getElem? hi)))
    · cases hs
  | negate i =>
    simp only [TopBottomState.step] at hs
    obtain ⟨a, ha, rfl⟩ := Option.map_eq_some_iff.mp hs
    exact h.push _ (by rw [exclusions_append]; simp) _ (CnfDnf.negate_lits a _ (h.lits a (List.mem_of_getElem? ha)))
      (fun hk => by rw [CnfDnf.negate_length]; exact h.len hk a (List.mem_of_getElem? ha))

theorem topBottomRun_inv {pop : List (HeapElem K) → Option (HeapElem K × List (HeapElem K))} (hpop : IsPop pop) (k : Nat) (prob : Nat → K) :
    ∀ (ops : List TagOp) (s : TopBottomState K), TopBottomState.run pop k prob ops = some s → TopBottomInv k prob ops s := by
  intro ops
  induction ops using List.reverseRecOn with
  | nil =>
    intro s h
    obtain rfl := Option.some.inj h
    exact ⟨rfl, DisjInv.empty, rfl, by simp, by simp⟩
  | append_singleton ops op ih =>
    intro s h
    unfold TopBottomState.run at h
    rw [foldlM_append_singleton, Option.bind_eq_some_iff] at h
    obtain ⟨s1, h1, h2⟩ := h
    exact topBottomStep_inv hpop (ih s1 h1) op h2

/-- A history succeeds exactly if the truth values of its tags are defined. -/
theorem topBottomRun_defined {pop : List (HeapElem K) → Option (HeapElem K × List (HeapElem K))} (hpop : IsPop pop) (k : Nat) (prob : Nat → K)
    (w : Nat → Bool) : ∀ (ops : List TagOp) (n : Nat) (vals : List Bool), evalWorld w ops = some (n, vals) →
      ∃ s, TopBottomState.run pop k prob ops = some s ∧ s.numFacts = n ∧ s.tags.length = vals.length := by
  intro ops
  induction ops using List.reverseRecOn with
  | nil =>
    intro n vals h
    simp only [evalWorld, List.foldlM_nil, Option.pure_def, Option.some.injEq, Prod.mk.injEq] at h
    obtain ⟨rfl, rfl⟩ := h
    exact ⟨_, rfl, rfl, rfl⟩
  | append_singleton ops op ih =>
    intro n vals h
    unfold evalWorld at h
    rw [foldlM_append_singleton, Option.bind_eq_some_iff] at h
    obtain ⟨⟨n1, v1⟩, h1, h2⟩ := h
    obtain ⟨s1, hs1, rfl, hl⟩ := ih n1 v1 h1
    have hinv := topBottomRun_inv hpop k prob ops s1 hs1
    have hget : ∀ (i : Nat) (b : Bool), v1[i]? = some b → ∃ t, s1.tags[i]? = some t := by
      intro i b hb
      have := (List.getElem?_eq_some_iff.mp hb).1
      exact ⟨_, List.getElem?_eq_getElem (by omega)⟩
    suffices hstep : ∃ s, s1.step pop k op = some s ∧ s.numFacts = n ∧ s.tags.length = vals.length by
      obtain ⟨s, h3, h4, h5⟩ := hstep
      refine ⟨s, ?_, h4, h5⟩
      unfold TopBottomState.run
      rw [foldlM_append_singleton, Option.bind_eq_some_iff]
      exact ⟨s1, hs1, h3⟩
    cases op with
    | tag e =>
      obtain ⟨s2, h3, _, h4, h5⟩ := topBottomTagging_inv hinv e
      simp only [evalStep, Option.some.injEq, Prod.mk.injEq] at h2
      obtain ⟨rfl, rfl⟩ := h2
      exact ⟨s2, h3, h5, by rw [h4]; simp [hl]⟩
    | zero =>
      simp only [evalStep, Option.some.injEq, Prod.mk.injEq] at h2
      obtain ⟨rfl, rfl⟩ := h2
      exact ⟨_, rfl, rfl, by simp [hl]⟩
    | one =>
      simp only [evalStep, Option.some.injEq, Prod.mk.injEq] at h2
      obtain ⟨rfl, rfl⟩ := h2
      exact ⟨_, rfl, rfl, by simp [hl]⟩
    | add i j =>
      simp only [evalStep, Option.bind_eq_bind, Option.bind_eq_some_iff, Option.some.injEq, Prod.mk.injEq] at h2
      obtain ⟨a, ha, b, hb, rfl, rfl⟩ := h2
      obtain ⟨t1, ht1⟩ := hget i a ha
      obtain ⟨t2, ht2⟩ := hget j b hb
      obtain ⟨r, hr, _⟩ := topBottomKAdd_spec s1.ctx hinv.disj.asc hpop k t1 t2
      exact ⟨{ s1 with tags := s1.tags ++ [r] }, by simp [TopBottomState.step, ht1, ht2, hr], rfl, by simp [hl]⟩
    | mult i j =>
      simp only [evalStep, Option.bind_eq_bind, Option.bind_eq_some_iff, Option.some.injEq, Prod.mk.injEq] at h2
      obtain ⟨a, ha, b, hb, rfl, rfl⟩ := h2
      obtain ⟨t1, ht1⟩ := hget i a ha
      obtain ⟨t2, ht2⟩ := hget j b hb
      obtain ⟨r, hr, _⟩ := topBottomKMult_spec s1.ctx hinv.disj.asc hpop k t1 t2
      exact ⟨{ s1 with tags := s1.tags ++ [r] }, by simp [TopBottomState.step, ht1, ht2, hr], rfl, by simp [hl]⟩
    | negate i =>
      simp only [evalStep, Option.bind_eq_bind, Option.bind_eq_some_iff, Option.some.injEq, Prod.mk.injEq] at h2
      obtain ⟨a, ha, rfl, rfl⟩ := h2
      obtain ⟨t, ht⟩ := hget i a ha
      exact ⟨{ s1 with tags := s1.tags ++ [t.negate] }, by simp [TopBottomState.step, ht], rfl, by simp [hl]⟩

/-- A relation between tags and truth values that all operations keep holds of all histories. -/
theorem topBottomRun_rel {pop : List (HeapElem K) → Option (HeapElem K × List (HeapElem K))} (hpop : IsPop pop) (k : Nat) (prob : Nat → K)
    (w : Nat → Bool) (P : Disjunctions → Prop) (R : CnfDnf → Bool → Prop) (all : List CnfDnf)
    (htag : ∀ n, R (.dnfSingleton n) (w n)) (hzero : R .dnfZero false) (hone : R .dnfOne true)
    (ops : List TagOp)
    (hctx : ∀ ops' s', ops' <+: ops → TopBottomState.run pop k prob ops' = some s' → P s'.ctx.disj)
    (hadd : ∀ (y : DnfCtx K) a b r va vb, (∀ d ∈ y.disj.disjunctions, Asc d) → P y.disj → r ∈ all → a ∈ all → b ∈ all →
      y.topBottomKAdd pop k a b = some r → R a va → R b vb → R r (va || vb))
    (hmult : ∀ (y : DnfCtx K) a b r va vb, (∀ d ∈ y.disj.disjunctions, Asc d) → P y.disj → r ∈ all → a ∈ all → b ∈ all →
      y.topBottomKMult pop k a b = some r → R a va → R b vb → R r (va && vb))
    (hneg : ∀ a va i, TagOp.negate i ∈ ops → R a va → R a.negate (!va)) :
    ∀ (ops' : List TagOp) (s : TopBottomState K), ops' <+: ops → TopBottomState.run pop k prob ops' = some s → (∀ t ∈ s.tags, t ∈ all) →
      ∃ vals, evalWorld w ops' = some (s.numFacts, vals) ∧ List.Forall₂ R s.tags vals := by
  have hget : ∀ {tags : List CnfDnf} {vals : List Bool}, List.Forall₂ R tags vals → ∀ {i : Nat} {t : CnfDnf}, tags[i]? = some t →
      ∃ v, vals[i]? = some v ∧ R t v := by
    intro tags vals h
    induction h with
    | nil => intro i t h; simp at h
    | cons h _ ih =>
      intro i t ht
      cases i with
      | zero => simp only [List.getElem?_cons_zero, Option.some.injEq] at ht; subst ht; exact ⟨_, by simp, h⟩
      | succ i => simp only [List.getElem?_cons_succ] at ht ⊢; exact ih ht
  intro ops'
  induction ops' using List.reverseRecOn with
  | nil =>
    intro s _ h _
    obtain rfl := Option.some.inj h
    exact ⟨[], rfl, .nil⟩
  | append_singleton ops' op ih =>
    intro s hp h hall
    have hp' : ops' <+: ops := (List.prefix_append _ _).trans hp
    have hmem : op ∈ ops := hp.subset (by simp)
    unfold TopBottomState.run at h
    rw [foldlM_append_singleton, Option.bind_eq_some_iff] at h
    obtain ⟨s1, h1, h2⟩ := h
    have hinv := topBottomRun_inv hpop k prob ops' s1 h1
    have hcons : P s1.ctx.disj := hctx ops' s1 hp' h1
    have hpush : ∀ t, s.tags = s1.tags ++ [t] → (∀ t ∈ s1.tags, t ∈ all) ∧ t ∈ all :=
      fun t e => ⟨fun u hu => hall u (by rw [e]; simp [hu]), hall t (by rw [e]; simp)⟩
    suffices hstep : ∃ t, s.tags = s1.tags ++ [t] ∧ ∀ vals, List.Forall₂ R s1.tags vals → (∀ t ∈ s1.tags, t ∈ all) → t ∈ all →
        ∃ v, evalStep w (s1.numFacts, vals) op = some (s.numFacts, vals ++ [v]) ∧ R t v by
      obtain ⟨t, he, hv⟩ := hstep
      obtain ⟨ha, ht⟩ := hpush t he
      obtain ⟨vals, hev, hR⟩ := ih s1 hp' h1 ha
      obtain ⟨v, h3, h4⟩ := hv vals hR ha ht
      refine ⟨vals ++ [v], ?_, by rw [he]; exact List.rel_append hR (.cons h4 .nil)⟩
      unfold evalWorld
      rw [foldlM_append_singleton, Option.bind_eq_some_iff]
      exact ⟨_, hev, h3⟩
    cases op with
    | tag e =>
      obtain ⟨s2, h3, _, h4, h5⟩ := topBottomTagging_inv hinv e
      simp only [TopBottomState.step] at h2
      rw [h3] at h2
      obtain rfl := Option.some.inj h2
      exact ⟨_, h4, fun vals _ _ _ => ⟨w s1.numFacts, by simp [evalStep, h5], htag _⟩⟩
    | zero =>
      obtain rfl := Option.some.inj h2
      exact ⟨_, rfl, fun vals _ _ _ => ⟨false, rfl, hzero⟩⟩
    | one =>
      obtain rfl := Option.some.inj h2
      exact ⟨_, rfl, fun vals _ _ _ => ⟨true, rfl, hone⟩⟩
    | add i j =>
      simp only [TopBottomState.step] at h2
      split at h2
      · rename_i a b hi hj
        obtain ⟨r, hr, rfl⟩ := Option.map_eq_some_iff.mp h2
        refine ⟨r, rfl, fun vals hR ha ht => ?_⟩
        obtain ⟨va, hva, ra⟩ := hget hR hi
        obtain ⟨vb, hvb, rb⟩ := hget hR hj
        exact ⟨va || vb, by simp [evalStep, hva, hvb],
          hadd s1.ctx a b r va vb hinv.disj.asc hcons ht (ha a (List.mem_of_getElem? hi)) (ha b (List.mem_of_getElem? hj)) hr ra rb⟩
      · cases h2
    | mult i j =>
      simp only [TopBottomState.step] at h2
      split at h2
      · rename_i a b hi hj
        obtain ⟨r, hr, rfl⟩ := Option.map_eq_some_iff.mp h2
        refine ⟨r, rfl, fun vals hR ha ht => ?_⟩
        obtain ⟨va, hva, ra⟩ := hget hR hi
        obtain ⟨vb, hvb, rb⟩ := hget hR hj
        exact ⟨va && vb, by simp [evalStep, hva, hvb],
          hmult s1.ctx a b r va vb hinv.disj.asc hcons ht (ha a (List.mem_of_getElem? hi)) (ha b (List.mem_of_getElem? hj)) hr ra rb⟩
      · cases h2
    | negate i =>
      simp only [TopBottomState.step] at h2
      obtain ⟨a, ha, rfl⟩ := Option.map_eq_some_iff.mp h2
      refine ⟨a.negate, rfl, fun vals hR _ _ => ?_⟩
      obtain ⟨va, hva, ra⟩ := hget hR ha
      exact ⟨!va, by simp [evalStep, hva], hneg a va i hmem ra⟩

/-- Histories without negation. -/
theorem topBottomRun_below {pop : List (HeapElem K) → Option (HeapElem K × List (HeapElem K))} (hpop : IsPop pop) (k : Nat) (prob : Nat → K)
    (ops : List TagOp) (hneg : negationFree ops) (s : TopBottomState K) (h : TopBottomState.run pop k prob ops = some s) (w : Nat → Bool) :
    ∃ vals, evalWorld w ops = some (s.numFacts, vals) ∧ List.Forall₂ (fun t v => t.kind = .dnf ∧ (t.holds w → v = true)) s.tags vals := by
  refine topBottomRun_rel hpop k prob w (fun _ => True) (fun t v => t.kind = .dnf ∧ (t.holds w → v = true)) s.tags ?_ ?_ ?_ ops
    (fun _ _ _ _ => trivial) ?_ ?_ ?_ ops s (List.prefix_refl _) h (fun t ht => ht)
  · intro n
    refine ⟨rfl, ?_⟩
    rintro ⟨c, hc, hw⟩
    simp only [CnfDnf.dnfSingleton, List.mem_cons, List.not_mem_nil, or_false] at hc
    subst hc
    exact hw (.pos n) (by simp)
  · exact ⟨rfl, fun ⟨c, hc, _⟩ => absurd hc (by simp [CnfDnf.dnfZero])⟩
  · exact ⟨rfl, fun _ => rfl⟩
  · intro y a b r va vb hasc _ _ _ _ hr ra rb
    obtain ⟨r', hr', _, _, h1, _⟩ := topBottomKAdd_spec y hasc hpop k a b
    rw [hr] at hr'
    obtain rfl := Option.some.inj hr'
    obtain ⟨h2, _, h3, _⟩ := h1 (.inl ra.1)
    exact ⟨h2, fun hw => by rcases h3 w hw with e | e <;> simp [ra.2, rb.2, e]⟩
  · intro y a b r va vb hasc _ _ _ _ hr ra rb
    obtain ⟨r', hr', _, _, h1, _⟩ := topBottomKMult_spec y hasc hpop k a b
    rw [hr] at hr'
    obtain rfl := Option.some.inj hr'
    obtain ⟨h2, _, h3, _⟩ := h1 ra.1 rb.1
    exact ⟨h2, fun hw => by simp [ra.2 (h3 w hw).1, rb.2 (h3 w hw).2]⟩
  · intro a va i hi
    exact absurd rfl (hneg _ hi i)

theorem worldOk_of_prefix {ops' ops : List TagOp} (hp : ops' <+: ops) {w : Nat → Bool} (h : worldOk ops w) : worldOk ops' w := by
  obtain ⟨l, rfl⟩ := hp
  induction l using List.reverseRecOn with
  | nil => simpa using h
  | append_singleton l op ih =>
    rw [← List.append_assoc] at h
    exact ih (worldOk_prefix h)

/-- Histories in which every tag has room. -/
theorem topBottomRun_exact {pop : List (HeapElem K) → Option (HeapElem K × List (HeapElem K))} (hpop : IsPop pop) (k : Nat) (prob : Nat → K)
    (ops : List TagOp) (s : TopBottomState K) (h : TopBottomState.run pop k prob ops = some s)
    (hroom : ∀ t ∈ s.tags, t.clauses.length < k) (hcnf : ∀ t ∈ s.tags, t ≠ ⟨.cnf, []⟩) (w : Nat → Bool) (hw : worldOk ops w) :
    ∃ vals, evalWorld w ops = some (s.numFacts, vals) ∧ List.Forall₂ (fun t v => t.holds w ↔ v = true) s.tags vals := by
  refine topBottomRun_rel hpop k prob w (fun d => consistent w d.disjunctions) (fun t v => t.holds w ↔ v = true) s.tags ?_ ?_ ?_ ops
    ?_ ?_ ?_ ?_ ops s (List.prefix_refl _) h (fun t ht => ht)
  · intro n
    simp [CnfDnf.dnfSingleton, CnfDnf.holds, dnfHolds, Clause.holds, Literal.holds]
  · simp [CnfDnf.dnfZero, CnfDnf.holds, dnfHolds]
  · simp [CnfDnf.dnfOne, CnfDnf.holds, dnfHolds, Clause.holds]
  · intro ops' s' hp hs'
    refine consistent_of_log (topBottomRun_inv hpop k prob ops' s' hs').disj w ?_
    intro a b e h1 h2
    exact worldOk_of_prefix hp hw a b ⟨e, h1, h2⟩
  · intro y a b r va vb hasc hc hr ha hb he ra rb
    obtain ⟨r', hr', _, _, h1, h2⟩ := topBottomKAdd_spec y hasc hpop k a b
    rw [he] at hr'
    obtain rfl := Option.some.inj hr'
    have hiff : r.holds w ↔ a.holds w ∨ b.holds w := by
      by_cases hk : a.kind = .dnf ∨ b.kind = .dnf
      · obtain ⟨_, _, h3, h4⟩ := h1 hk
        exact ⟨h3 w, h4 (hroom r hr) w hc⟩
      · push Not at hk
        have hk1 : a.kind = .cnf := by cases e : a.kind <;> simp_all
        have hk2 : b.kind = .cnf := by cases e : b.kind <;> simp_all
        have hne : ∀ t ∈ s.tags, t.kind = .cnf → t.clauses ≠ [] := by
          rintro ⟨kd, cs⟩ ht e e'
          simp only at e e'
          subst e e'
          exact hcnf _ ht rfl
        obtain ⟨_, h3, h4⟩ := (h2 hk1 hk2).2.1 (hne a ha hk1) (hne b hb hk2)
        exact ⟨h4 (.inr (hroom r hr)) w, h3 w⟩
    rw [hiff, ra, rb, Bool.or_eq_true]
  · intro y a b r va vb hasc hc hr ha hb he ra rb
    obtain ⟨r', hr', _, _, h1, h2⟩ := topBottomKMult_spec y hasc hpop k a b
    rw [he] at hr'
    obtain rfl := Option.some.inj hr'
    have hiff : r.holds w ↔ a.holds w ∧ b.holds w := by
      by_cases hk : a.kind = .cnf ∨ b.kind = .cnf
      · obtain ⟨_, _, h3, h4⟩ := h2 hk
        exact ⟨h4 (hroom r hr) w, fun h => h3 w h.1 h.2⟩
      · push Not at hk
        have hk1 : a.kind = .dnf := by cases e : a.kind <;> simp_all
        have hk2 : b.kind = .dnf := by cases e : b.kind <;> simp_all
        obtain ⟨_, _, h3, h4⟩ := h1 hk1 hk2
        exact ⟨h3 w, fun h => h4 (.inr (hroom r hr)) w hc h.1 h.2⟩
    rw [hiff, ra, rb, Bool.and_eq_true]
  · intro a va i _ ra
    rw [CnfDnf.negate_holds, ra]
    cases va <;> simp

/-! ### The output -/

theorem cnfAsBooleanFormula_eval (w : Nat → Bool) (t : List Clause) : (cnfAsBooleanFormula t).eval w = true ↔ cnfHolds w t := by
  simp only [cnfAsBooleanFormula, Sdd.bfConjunction_eval, List.all_map, List.all_eq_true, Function.comp, Sdd.bfDisjunction_eval, List.any_map,
    List.any_eq_true, cnfHolds]
  have hl : ∀ l : Literal, l.asBooleanFormula.eval w = true ↔ l.holds w := by
    intro l; cases l <;> simp [Literal.asBooleanFormula, BoolForm.eval, Literal.holds]
  simp only [hl]

theorem mem_cnf_collectVars (t : List Clause) (v : Nat) : v ∈ (cnfAsBooleanFormula t).collectVars ↔ ∃ c ∈ t, ∃ l ∈ c, l.factId = v := by
  rw [BoolForm.collectVars, Sdd.mem_collectVarsHelper]
  simp only [List.not_mem_nil, false_or, cnfAsBooleanFormula, Sdd.fvars_bfConjunction, List.mem_map, exists_exists_and_eq_and,
    Sdd.fvars_bfDisjunction]
  have : ∀ l : Literal, v ∈ Sdd.fvars l.asBooleanFormula ↔ l.factId = v := by
    intro l; cases l <;> simp [Literal.asBooleanFormula, Sdd.fvars, Literal.factId, eq_comm]
  simp only [this]

theorem CnfDnf.asBooleanFormula_eval (w : Nat → Bool) (t : CnfDnf) : t.asBooleanFormula.eval w = true ↔ t.holds w := by
  obtain ⟨kd, cs⟩ := t
  cases kd
  · exact cnfAsBooleanFormula_eval w cs
  · exact Sdd.asBooleanFormula_eval w cs

theorem CnfDnf.mem_collectVars (t : CnfDnf) (v : Nat) : v ∈ t.asBooleanFormula.collectVars ↔ ∃ c ∈ t.clauses, ∃ l ∈ c, l.factId = v := by
  obtain ⟨kd, cs⟩ := t
  cases kd
  · exact mem_cnf_collectVars cs v
  · exact Sdd.mem_dnf_collectVars cs v

theorem CnfDnf.wmc_spec {L : Type*} [CommRing L] (t : CnfDnf) (p : Nat → L) (V : Finset Nat) (hV : ∀ c ∈ t.clauses, ∀ l ∈ c, l.factId ∈ V) :
    t.wmc (Sdd.Diagram.realAlgebra L) p = some (eventProb p V (fun w => t.holds w)) := by
  have h := Sdd.wmc_spec t.asBooleanFormula p
  obtain ⟨nd, ho⟩ := Sdd.collectVars_spec t.asBooleanFormula
  rw [Sdd.prob_extend nd ho (V := V) (fun v hv => by
    obtain ⟨c, hc, l, hl, rfl⟩ := (t.mem_collectVars v).1 hv
    exact hV c hc l hl), Sdd.prob_eq_eventProb] at h
  rw [CnfDnf.wmc, h]
  congr 2
  funext w
  exact propext (t.asBooleanFormula_eval w)

/-- The weights of disjunctions in the model are the probabilities that they are false. -/
theorem dual_clauseProb (x : DnfCtx K) (c : Clause) : x.dual.clauseProb c = 1 - x.disjunctionProb c := by
  have : ∀ l : Literal, x.dual.literalProb l = x.literalProb l.negate := by
    intro l; cases l <;> simp [DnfCtx.literalProb, DnfCtx.dual, Literal.negate]
  simp [DnfCtx.clauseProb, DnfCtx.disjunctionProb, this]

/-- Merging lists in descending order keeps the most probable clauses. -/
theorem mergeK_best (x : DnfCtx K) : ∀ (k : Nat) (f1 f2 : List Clause), f1.Pairwise (fun a b => x.clauseProb b ≤ x.clauseProb a) →
    f2.Pairwise (fun a b => x.clauseProb b ≤ x.clauseProb a) →
    (x.mergeK k f1 f2).Pairwise (fun a b => x.clauseProb b ≤ x.clauseProb a) ∧
    ∀ c, c ∈ f1 ∨ c ∈ f2 → c ∉ x.mergeK k f1 f2 → (x.mergeK k f1 f2).length = k ∧ ∀ d ∈ x.mergeK k f1 f2, x.clauseProb c ≤ x.clauseProb d := by
  intro k f1 f2
  have step : ∀ (k : Nat) (a : Clause) (g1 g2 : List Clause), (∀ c, c ∈ g1 ∨ c ∈ g2 → x.clauseProb c ≤ x.clauseProb a) →
      ((x.mergeK k g1 g2).Pairwise (fun a b => x.clauseProb b ≤ x.clauseProb a) ∧
        ∀ c, c ∈ g1 ∨ c ∈ g2 → c ∉ x.mergeK k g1 g2 → (x.mergeK k g1 g2).length = k ∧ ∀ d ∈ x.mergeK k g1 g2, x.clauseProb c ≤ x.clauseProb d) →
      (a :: x.mergeK k g1 g2).Pairwise (fun a b => x.clauseProb b ≤ x.clauseProb a) ∧
        ∀ c, c = a ∨ c ∈ g1 ∨ c ∈ g2 → c ∉ a :: x.mergeK k g1 g2 →
          (a :: x.mergeK k g1 g2).length = k + 1 ∧ ∀ d ∈ a :: x.mergeK k g1 g2, x.clauseProb c ≤ x.clauseProb d := by
    intro k a g1 g2 hmax ih
    refine ⟨List.pairwise_cons.mpr ⟨fun d hd => hmax d ((mergeK_spec x k g1 g2).2.1 d hd), ih.1⟩, ?_⟩
    intro c hc hn
    simp only [List.mem_cons, not_or] at hn
    have hc' := hc.resolve_left hn.1
    obtain ⟨h1, h2⟩ := ih.2 c hc' hn.2
    refine ⟨by simp [h1], fun d hd => ?_⟩
    rcases List.mem_cons.mp hd with rfl | hd
    · exact hmax c hc'
    · exact h2 d hd
  induction k, f1, f2 using DnfCtx.mergeK.induct x with
  | case1 f1 f2 => intro _ _; simp [DnfCtx.mergeK]
  | case2 k => intro _ _; simp [DnfCtx.mergeK]
  | case3 k a as ih =>
    intro h1 h2
    have := step k a as [] (fun c hc => (List.pairwise_cons.mp h1).1 c (by simpa using hc)) (ih (List.pairwise_cons.mp h1).2 h2)
    simp only [DnfCtx.mergeK]
    refine ⟨this.1, fun c hc => this.2 c ?_⟩
    simpa using hc
  | case4 k b bs ih =>
    intro h1 h2
    have := step k b [] bs (fun c hc => (List.pairwise_cons.mp h2).1 c (by simpa using hc)) (ih h1 (List.pairwise_cons.mp h2).2)
    simp only [DnfCtx.mergeK]
    refine ⟨this.1, fun c hc => this.2 c ?_⟩
    simpa using hc
  | case5 k as a bs ih =>
    intro h1 h2
    have := step k a as bs (fun c hc => hc.elim ((List.pairwise_cons.mp h1).1 c) ((List.pairwise_cons.mp h2).1 c))
      (ih (List.pairwise_cons.mp h1).2 (List.pairwise_cons.mp h2).2)
    simp only [DnfCtx.mergeK, if_true]
    refine ⟨this.1, fun c hc => this.2 c ?_⟩
    simp only [List.mem_cons] at hc
    tauto
  | case6 k a as b bs hab hlt ih =>
    intro h1 h2
    have := step k a as (b :: bs) (fun c hc => ?_) (ih (List.pairwise_cons.mp h1).2 h2)
    · simp only [DnfCtx.mergeK, hab, hlt, if_true, if_false]
      refine ⟨this.1, fun c hc => this.2 c ?_⟩
      simp only [List.mem_cons] at hc ⊢
      tauto
    · rcases hc with hc | hc
      · exact (List.pairwise_cons.mp h1).1 c hc
      · rcases List.mem_cons.mp hc with rfl | hc
        · exact hlt.le
        · exact ((List.pairwise_cons.mp h2).1 c hc).trans hlt.le
  | case7 k a as b bs hab hlt ih =>
    intro h1 h2
    have hle : x.clauseProb a ≤ x.clauseProb b := not_lt.mp hlt
    have := step k b (a :: as) bs (fun c hc => ?_) (ih h1 (List.pairwise_cons.mp h2).2)
    · simp only [DnfCtx.mergeK, hab, hlt, if_false]
      refine ⟨this.1, fun c hc => this.2 c ?_⟩
      simp only [List.mem_cons] at hc ⊢
      tauto
    · rcases hc with hc | hc
      · rcases List.mem_cons.mp hc with rfl | hc
        · exact hle
        · exact ((List.pairwise_cons.mp h1).1 c hc).trans hle
      · exact (List.pairwise_cons.mp h2).1 c hc

end Scallop
