import Verif.Proof.TopBottomOps

/-!
# C95: top-bottom-k clauses

A tag says something about the possible worlds (`Spec/TopBottom.lean`). `pop` is any priority queue that pops a greatest element
(`Spec/Heap.lean`), and `x` any state of the provenance: the probabilities of the facts and the groups of exclusive facts.
-/

namespace Scallop

open DnfCtx (HeapElem)

variable {K : Type*} [Field K] [LinearOrder K]

/-- The negation of a tag is true exactly where the tag is false, in every world. Unlike the negation of top-k proofs, it loses nothing. -/
theorem c95_negate (w : Nat → Bool) (t : CnfDnf) : t.negate.holds w ↔ ¬ t.holds w := CnfDnf.negate_holds w t

example : CnfDnf.negate ⟨.dnf, [[.pos 0, .neg 1], [.pos 2]]⟩ = ⟨.cnf, [[.neg 0, .pos 1], [.neg 2]]⟩ := by decide
example : CnfDnf.negate (.dnfSingleton 3) = ⟨.dnf, [[.neg 3]]⟩ := by decide

/-- A sum with a disjunction of conjunctions is a disjunction of at most `k` conjunctions. It is true only where a summand is, and if it has
fewer than `k` conjunctions it is true where a summand is, in every world that respects the exclusions. -/
theorem c95_add (x : DnfCtx K) (hds : ∀ d ∈ x.disj.disjunctions, Asc d)
    (pop : List (HeapElem K) → Option (HeapElem K × List (HeapElem K))) (hpop : IsPop pop) (k : Nat) (t1 t2 : CnfDnf)
    (hd : t1.kind = .dnf ∨ t2.kind = .dnf) :
    ∃ r, x.topBottomKAdd pop k t1 t2 = some r ∧ r.kind = .dnf ∧ r.clauses.length ≤ k ∧ (∀ w, r.holds w → t1.holds w ∨ t2.holds w) ∧
      (r.clauses.length < k → ∀ w, consistent w x.disj.disjunctions → (r.holds w ↔ t1.holds w ∨ t2.holds w)) := by
  obtain ⟨r, hr, _, _, h, _⟩ := topBottomKAdd_spec x hds hpop k t1 t2
  obtain ⟨h1, h2, h3, h4⟩ := h hd
  exact ⟨r, hr, h1, h2, h3, fun hk w hw => ⟨h3 w, h4 hk w hw⟩⟩

/-- A sum of two conjunctions of disjunctions, none of them the empty conjunction, is a conjunction of disjunctions. It is true wherever a
summand is, and only there if it has fewer than `k` disjunctions. Missing: the empty conjunction (`c95_true_false`). -/
theorem c95_add_cnf_partial (x : DnfCtx K) (hds : ∀ d ∈ x.disj.disjunctions, Asc d)
    (pop : List (HeapElem K) → Option (HeapElem K × List (HeapElem K))) (hpop : IsPop pop) (k : Nat) (f1 f2 : List Clause) (h1 : f1 ≠ [])
    (h2 : f2 ≠ []) :
    ∃ r, x.topBottomKAdd pop k ⟨.cnf, f1⟩ ⟨.cnf, f2⟩ = some ⟨.cnf, r⟩ ∧ (f1 ≠ f2 → r.length ≤ k) ∧
      (∀ w, cnfHolds w f1 ∨ cnfHolds w f2 → cnfHolds w r) ∧
      (f1 = f2 ∨ r.length < k → ∀ w, cnfHolds w r ↔ cnfHolds w f1 ∨ cnfHolds w f2) := by
  obtain ⟨⟨rk, r⟩, hr, _, _, _, h⟩ := topBottomKAdd_spec x hds hpop k ⟨.cnf, f1⟩ ⟨.cnf, f2⟩
  obtain ⟨hk, h3, _⟩ := h rfl rfl
  obtain ⟨h4, h5, h6⟩ := h3 h1 h2
  simp only at hk
  subst hk
  refine ⟨r, hr, fun hne => h4 (fun e => hne (CnfDnf.mk.inj e).2), h5, fun hk w => ⟨h6 (hk.imp (fun e => by rw [e]) id) w, h5 w⟩⟩

/-- The empty conjunction is true, but a sum of it and any conjunction of disjunctions is the conjunction with an empty disjunction, which is
false, in every world, and is discarded. -/
theorem c95_true_false (x : DnfCtx K) (pop : List (HeapElem K) → Option (HeapElem K × List (HeapElem K))) (k : Nat) (f : List Clause) :
    (∀ w, CnfDnf.holds w ⟨.cnf, []⟩) ∧ x.topBottomKAdd pop k ⟨.cnf, []⟩ ⟨.cnf, f⟩ = some ⟨.cnf, [[]]⟩ ∧
      x.topBottomKAdd pop k ⟨.cnf, f⟩ ⟨.cnf, []⟩ = some ⟨.cnf, [[]]⟩ ∧ (∀ w, ¬ CnfDnf.holds w ⟨.cnf, [[]]⟩) ∧
      CnfDnf.isZero ⟨.cnf, [[]]⟩ = true := by
  refine ⟨?_, ?_, ?_, ?_, rfl⟩
  · intro w c hc; cases hc
  · simp [DnfCtx.topBottomKAdd, DnfCtx.multFormulaBottomK]
  · simp [DnfCtx.topBottomKAdd, DnfCtx.multFormulaBottomK]
  · intro w h
    obtain ⟨l, hl, _⟩ := h [] (by simp)
    cases hl

/-- `c95_true_false` is reached by tagging two facts `a` and `b`: `¬(a ∧ b) ∨ ¬(¬a ∧ ¬b)` is true in every world, its tag is the empty
conjunction, and the sum of that tag and `¬(a ∧ b)`, still true in every world, is false. No tag was cut off: `k` is 3. -/
theorem c95_history_true_false : ∃ ops s, TopBottomState.run DnfCtx.popMax 3 (fun _ => (1/2 : ℚ)) ops = some s ∧
    (∀ w, ∃ vals, evalWorld w ops = some (2, vals) ∧ vals.getLast? = some true) ∧
    (∃ t, s.tags.getLast? = some t ∧ t.isZero = true ∧ ∀ w, ¬ t.holds w) := by
  refine ⟨[.tag none, .tag none, .mult 0 1, .negate 2, .negate 0, .negate 1, .mult 4 5, .negate 6, .add 3 7, .add 8 3],
    ⟨2, ⟨fun _ => 1/2, Disjunctions.new⟩, [.dnfSingleton 0, .dnfSingleton 1, ⟨.dnf, [[.pos 0, .pos 1]]⟩, ⟨.cnf, [[.neg 0, .neg 1]]⟩,
      ⟨.dnf, [[.neg 0]]⟩, ⟨.dnf, [[.neg 1]]⟩, ⟨.dnf, [[.neg 0, .neg 1]]⟩, ⟨.cnf, [[.pos 0, .pos 1]]⟩, ⟨.cnf, []⟩, ⟨.cnf, [[]]⟩]⟩, ?_, ?_, ?_⟩
  · have h : (TopBottomState.run DnfCtx.popMax 3 (fun _ => (1/2 : ℚ)) [.tag none, .tag none, .mult 0 1, .negate 2, .negate 0, .negate 1,
        .mult 4 5, .negate 6, .add 3 7, .add 8 3]).map (fun s => (s.numFacts, s.ctx.disj.idMap, s.ctx.disj.disjunctions, s.tags)) =
        some (2, [], [], [.dnfSingleton 0, .dnfSingleton 1, ⟨.dnf, [[.pos 0, .pos 1]]⟩, ⟨.cnf, [[.neg 0, .neg 1]]⟩,
          ⟨.dnf, [[.neg 0]]⟩, ⟨.dnf, [[.neg 1]]⟩, ⟨.dnf, [[.neg 0, .neg 1]]⟩, ⟨.cnf, [[.pos 0, .pos 1]]⟩, ⟨.cnf, []⟩, ⟨.cnf, [[]]⟩]) := by
      decide +kernel
    obtain ⟨⟨n, ⟨p, ⟨d1, d2⟩⟩, tags⟩, hs, he⟩ := Option.map_eq_some_iff.mp h
    have hp := (topBottomRun_inv popMax_isPop 3 _ _ _ hs).prob
    simp only [Prod.mk.injEq] at he
    obtain ⟨rfl, rfl, rfl, rfl⟩ := he
    simp only at hp
    subst hp
    exact hs
  · intro w
    refine ⟨_, rfl, ?_⟩
    cases w 0 <;> cases w 1 <;> rfl
  · refine ⟨_, rfl, rfl, ?_⟩
    intro w h
    obtain ⟨l, hl, _⟩ := h [] (by simp)
    cases hl

/-- A product of two disjunctions of conjunctions has at most `k` of them, unless the two are the same. It is true only where both factors
are, and if it has fewer than `k` conjunctions it is true where both are, in every world that respects the exclusions. -/
theorem c95_mult (x : DnfCtx K) (hds : ∀ d ∈ x.disj.disjunctions, Asc d)
    (pop : List (HeapElem K) → Option (HeapElem K × List (HeapElem K))) (hpop : IsPop pop) (k : Nat) (f1 f2 : List Clause) :
    ∃ r, x.topBottomKMult pop k ⟨.dnf, f1⟩ ⟨.dnf, f2⟩ = some ⟨.dnf, r⟩ ∧ (f1 ≠ f2 → r.length ≤ k) ∧
      (∀ w, dnfHolds w r → dnfHolds w f1 ∧ dnfHolds w f2) ∧
      (f1 = f2 ∨ r.length < k → ∀ w, consistent w x.disj.disjunctions → (dnfHolds w r ↔ dnfHolds w f1 ∧ dnfHolds w f2)) := by
  obtain ⟨⟨rk, r⟩, hr, _, _, h, _⟩ := topBottomKMult_spec x hds hpop k ⟨.dnf, f1⟩ ⟨.dnf, f2⟩
  obtain ⟨hk, h4, h5, h6⟩ := h rfl rfl
  simp only at hk
  subst hk
  exact ⟨r, hr, fun hne => h4 (fun e => hne (CnfDnf.mk.inj e).2), h5,
    fun hk w hw => ⟨h5 w, fun h => h6 (hk.imp (fun e => by rw [e]) id) w hw h.1 h.2⟩⟩

/-- A product with a conjunction of disjunctions is a conjunction of at most `k` disjunctions. It is true wherever both factors are, and only
there if it has fewer than `k` disjunctions. -/
theorem c95_mult_cnf (x : DnfCtx K) (hds : ∀ d ∈ x.disj.disjunctions, Asc d)
    (pop : List (HeapElem K) → Option (HeapElem K × List (HeapElem K))) (hpop : IsPop pop) (k : Nat) (t1 t2 : CnfDnf)
    (hc : t1.kind = .cnf ∨ t2.kind = .cnf) :
    ∃ r, x.topBottomKMult pop k t1 t2 = some r ∧ r.kind = .cnf ∧ r.clauses.length ≤ k ∧ (∀ w, t1.holds w → t2.holds w → r.holds w) ∧
      (r.clauses.length < k → ∀ w, r.holds w ↔ t1.holds w ∧ t2.holds w) := by
  obtain ⟨r, hr, _, _, _, h⟩ := topBottomKMult_spec x hds hpop k t1 t2
  obtain ⟨h1, h2, h3, h4⟩ := h hc
  exact ⟨r, hr, h1, h2, h3, fun hk w => ⟨h4 hk w, fun h => h3 w h.1 h.2⟩⟩

/-- Probabilities 0.9, 0.8, 0.85 for facts 0, 1, 2; facts 0 and 1 exclude each other. -/
private abbrev xc95 : DnfCtx ℚ := ⟨fun f => if f = 0 then 9/10 else if f = 1 then 8/10 else 85/100, ⟨[(7, 0)], [[0, 1]]⟩⟩

example : ∀ d ∈ xc95.disj.disjunctions, Asc d := by simp [Asc]
example : xc95.topBottomKAdd DnfCtx.popMax 2 ⟨.dnf, [[.pos 0], [.pos 1]]⟩ ⟨.dnf, [[.pos 2], [.pos 1]]⟩ = some ⟨.dnf, [[.pos 0], [.pos 2]]⟩ := by
  decide +kernel
example : xc95.topBottomKAdd DnfCtx.popMax 2 ⟨.cnf, [[.pos 0, .pos 2], [.pos 1]]⟩ ⟨.dnf, [[.neg 2]]⟩ =
    some ⟨.dnf, [[.pos 1, .pos 2], [.neg 2]]⟩ := by decide +kernel
example : xc95.topBottomKAdd DnfCtx.popMax 3 ⟨.cnf, [[.neg 0], [.neg 2]]⟩ ⟨.cnf, [[.neg 1], [.pos 0]]⟩ =
    some ⟨.cnf, [[.neg 0, .neg 1], [.neg 1, .neg 2], [.pos 0, .neg 2]]⟩ := by decide +kernel
example : xc95.topBottomKMult DnfCtx.popMax 2 ⟨.dnf, [[.pos 0], [.pos 1]]⟩ ⟨.dnf, [[.pos 2], [.pos 1]]⟩ =
    some ⟨.dnf, [[.pos 0, .pos 2], [.pos 1]]⟩ := by decide +kernel
example : xc95.topBottomKMult DnfCtx.popMax 2 ⟨.cnf, [[.neg 0, .neg 2]]⟩ ⟨.dnf, [[.pos 2], [.pos 1]]⟩ =
    some ⟨.cnf, [[.neg 0, .neg 2], [.pos 1, .pos 2]]⟩ := by decide +kernel

/-- A sum of two disjunctions whose conjunctions are in descending order of probability is in that order, and what it leaves out is at most as
probable as anything it keeps. -/
theorem c95_add_best_partial (x : DnfCtx K) (pop : List (HeapElem K) → Option (HeapElem K × List (HeapElem K))) (k : Nat) (f1 f2 : List Clause)
    (h1 : f1.Pairwise (fun a b => x.clauseProb b ≤ x.clauseProb a)) (h2 : f2.Pairwise (fun a b => x.clauseProb b ≤ x.clauseProb a)) :
    ∃ r, x.topBottomKAdd pop k ⟨.dnf, f1⟩ ⟨.dnf, f2⟩ = some ⟨.dnf, r⟩ ∧ (∀ c ∈ r, c ∈ f1 ∨ c ∈ f2) ∧
      r.Pairwise (fun a b => x.clauseProb b ≤ x.clauseProb a) ∧
      ∀ c, c ∈ f1 ∨ c ∈ f2 → c ∉ r → r.length = k ∧ ∀ d ∈ r, x.clauseProb c ≤ x.clauseProb d :=
  ⟨_, rfl, (mergeK_spec x k f1 f2).2.1, (mergeK_best x k f1 f2 h1 h2).1, (mergeK_best x k f1 f2 h1 h2).2⟩

/-- A product of two conjunctions of disjunctions, each in ascending order of probability, keeps the least probable disjunctions. -/
theorem c95_mult_best_partial (x : DnfCtx K) (pop : List (HeapElem K) → Option (HeapElem K × List (HeapElem K))) (k : Nat) (f1 f2 : List Clause)
    (h1 : f1.Pairwise (fun a b => 1 - x.disjunctionProb b ≤ 1 - x.disjunctionProb a))
    (h2 : f2.Pairwise (fun a b => 1 - x.disjunctionProb b ≤ 1 - x.disjunctionProb a)) :
    ∃ r, x.topBottomKMult pop k ⟨.cnf, f1⟩ ⟨.cnf, f2⟩ = some ⟨.cnf, r⟩ ∧ (∀ c ∈ r, c ∈ f1 ∨ c ∈ f2) ∧
      ∀ c, c ∈ f1 ∨ c ∈ f2 → c ∉ r → r.length = k ∧ ∀ d ∈ r, 1 - x.disjunctionProb c ≤ 1 - x.disjunctionProb d := by
  simp only [← dual_clauseProb] at h1 h2 ⊢
  exact ⟨_, rfl, (mergeK_spec x.dual k f1 f2).2.1, (mergeK_best x.dual k f1 f2 h1 h2).2⟩

example : List.Pairwise (fun a b => xc95.clauseProb b ≤ xc95.clauseProb a) [[.pos 0], [.pos 2], [.pos 1]] := by decide +kernel
example : List.Pairwise (fun a b => 1 - xc95.disjunctionProb b ≤ 1 - xc95.disjunctionProb a) [[.neg 0], [.neg 1], [.pos 0, .pos 1]] := by
  decide +kernel

/-- A product does not keep the most probable conjunctions, even if both factors are in descending order: of `(a ∨ b) ∧ (c ∨ b)` with
probabilities 0.9, 0.8 and 0.85, `a ∧ c` of probability 0.765 is kept for `k = 1`, and not `b` of probability 0.8. -/
theorem c95_best_false : ∃ (x : DnfCtx ℚ) (f1 f2 : List Clause), x.disj.disjunctions = [] ∧
    f1.Pairwise (fun a b => x.clauseProb b ≤ x.clauseProb a) ∧ f2.Pairwise (fun a b => x.clauseProb b ≤ x.clauseProb a) ∧
    x.topBottomKMult DnfCtx.popMax 1 ⟨.dnf, f1⟩ ⟨.dnf, f2⟩ = some ⟨.dnf, [[.pos 0, .pos 2]]⟩ ∧
    [.pos 1] ∈ f1 ∧ [.pos 1] ∈ f2 ∧ x.clauseProb [.pos 0, .pos 2] < x.clauseProb [.pos 1] :=
  ⟨⟨fun f => if f = 0 then 9/10 else if f = 1 then 8/10 else 85/100, Disjunctions.new⟩, [[.pos 0], [.pos 1]], [[.pos 2], [.pos 1]], by
    decide +kernel⟩

/-! ### Histories -/

/-- A history without negation: every tag is a disjunction of conjunctions, and true only in worlds where the Boolean combination of facts it
stands for is true. -/
theorem c95_history (pop : List (HeapElem K) → Option (HeapElem K × List (HeapElem K))) (hpop : IsPop pop) (k : Nat) (prob : Nat → K)
    (ops : List TagOp) (hneg : negationFree ops) (s : TopBottomState K) (h : TopBottomState.run pop k prob ops = some s) (w : Nat → Bool) :
    ∃ vals, evalWorld w ops = some (s.numFacts, vals) ∧
      List.Forall₂ (fun t v => t.kind = .dnf ∧ (t.holds w → v = true)) s.tags vals :=
  topBottomRun_below hpop k prob ops hneg s h w

/-- A history with or without negation in which every tag has fewer than `k` clauses, and none is the empty conjunction: every tag is true in
exactly the worlds, among those that respect the exclusions, in which the Boolean combination of facts it stands for is. Missing: histories
that cut tags off (`c95_history_false`), or reach the empty conjunction (`c95_history_true_false`). -/
theorem c95_history_exact_partial (pop : List (HeapElem K) → Option (HeapElem K × List (HeapElem K))) (hpop : IsPop pop) (k : Nat)
    (prob : Nat → K) (ops : List TagOp) (s : TopBottomState K) (h : TopBottomState.run pop k prob ops = some s)
    (hroom : ∀ t ∈ s.tags, t.clauses.length < k) (hcnf : ∀ t ∈ s.tags, t ≠ ⟨.cnf, []⟩) (w : Nat → Bool) (hw : worldOk ops w) :
    ∃ vals, evalWorld w ops = some (s.numFacts, vals) ∧ List.Forall₂ (fun t v => t.holds w ↔ v = true) s.tags vals :=
  topBottomRun_exact hpop k prob ops s h hroom hcnf w hw

/-- A history does not panic, and its loops end, if its operations are applied to tags that exist. -/
theorem c95_total (pop : List (HeapElem K) → Option (HeapElem K × List (HeapElem K))) (hpop : IsPop pop) (k : Nat) (prob : Nat → K)
    (ops : List TagOp) (w : Nat → Bool) (n : Nat) (vals : List Bool) (h : evalWorld w ops = some (n, vals)) :
    ∃ s, TopBottomState.run pop k prob ops = some s ∧ s.numFacts = n ∧ s.tags.length = vals.length :=
  topBottomRun_defined hpop k prob w ops n vals h

/-- Every tag of a history has at most `k` clauses, if `k` is positive. -/
theorem c95_at_most_k (pop : List (HeapElem K) → Option (HeapElem K × List (HeapElem K))) (hpop : IsPop pop) (k : Nat) (hk : 0 < k)
    (prob : Nat → K) (ops : List TagOp) (s : TopBottomState K) (h : TopBottomState.run pop k prob ops = some s) :
    ∀ t ∈ s.tags, t.clauses.length ≤ k :=
  (topBottomRun_inv hpop k prob ops s h).len hk

/-- The probability reported for a tag of a history is the exact probability that the tag is true, the facts being independent. -/
theorem c95_output (pop : List (HeapElem K) → Option (HeapElem K × List (HeapElem K))) (hpop : IsPop pop) (k : Nat) (prob : Nat → K)
    (ops : List TagOp) (s : TopBottomState K) (h : TopBottomState.run pop k prob ops = some s) :
    ∀ t ∈ s.tags, t.wmc (Sdd.Diagram.realAlgebra K) prob = some (eventProb prob (Finset.range s.numFacts) (fun w => t.holds w)) := by
  intro t ht
  exact t.wmc_spec prob _ (fun c hc l hl => Finset.mem_range.2 ((topBottomRun_inv hpop k prob ops s h).lits t ht c hc l hl))

/-- Without negation, the probability reported for a tag is at most the exact probability of the Boolean combination of facts it stands
for. -/
theorem c95_lower_bound [IsStrictOrderedRing K] (pop : List (HeapElem K) → Option (HeapElem K × List (HeapElem K))) (hpop : IsPop pop)
    (k : Nat) (prob : Nat → K) (hp : ∀ f, 0 ≤ prob f ∧ prob f ≤ 1) (ops : List TagOp) (hneg : negationFree ops) (s : TopBottomState K)
    (h : TopBottomState.run pop k prob ops = some s) (i : Nat) (t : CnfDnf) (ht : s.tags[i]? = some t) :
    ∃ q, t.wmc (Sdd.Diagram.realAlgebra K) prob = some q ∧
      q ≤ eventProb prob (Finset.range s.numFacts) (fun w => ∃ n vals, evalWorld w ops = some (n, vals) ∧ vals[i]? = some true) := by
  refine ⟨_, c95_output pop hpop k prob ops s h t (List.mem_of_getElem? ht), ?_⟩
  apply Sdd.eventProb_mono (fun v _ => hp v)
  intro w hw
  obtain ⟨vals, hv, hb⟩ := c95_history pop hpop k prob ops hneg s h w
  obtain ⟨hi, rfl⟩ := List.getElem?_eq_some_iff.mp ht
  have hl := hb.length_eq
  have hr := (List.forall₂_iff_get.mp hb).2 i hi (by omega)
  refine ⟨_, vals, hv, ?_⟩
  rw [List.getElem?_eq_getElem (by omega)]
  exact congrArg some (hr.2 hw)

private abbrev ops95 : List TagOp := [.tag none, .tag none, .tag (some 4), .tag (some 4), .mult 0 1, .negate 4, .mult 5 2, .negate 3, .add 6 7]

example : (TopBottomState.run DnfCtx.popMax 5 (fun f => if f = 0 then (9/10 : ℚ) else if f = 1 then 8/10 else 1/2) ops95).map (·.tags) =
    some [.dnfSingleton 0, .dnfSingleton 1, .dnfSingleton 2, .dnfSingleton 3, ⟨.dnf, [[.pos 0, .pos 1]]⟩, ⟨.cnf, [[.neg 0, .neg 1]]⟩,
      ⟨.cnf, [[.neg 0, .neg 1], [.pos 2]]⟩, ⟨.dnf, [[.neg 3]]⟩, ⟨.dnf, [[.neg 3], [.neg 1, .pos 2], [.neg 0, .pos 2]]⟩] := by
  decide +kernel
example : worldOk ops95 (fun f => f == 3) := by
  rintro a b _ ha hb
  simp at ha hb
  rw [ha, hb]
example : negationFree [.tag none, .tag (some 4), .tag (some 4), .mult 0 1, .add 2 3] := by simp [negationFree]
example : (TopBottomState.run DnfCtx.popMax 5 (fun _ => (1/2 : ℚ)) ops95).map (fun s => s.tags.map
    (fun t => t.wmc (Sdd.Diagram.realAlgebra ℚ) (fun _ => 1/2))) =
    some [some (1/2), some (1/2), some (1/2), some (1/2), some (1/4), some (3/4), some (3/8), some (1/2), some (11/16)] := by
  decide +kernel

/-- With negation, a tag can be true where the combination of facts it stands for is false: for `k = 1`, `a ∨ b` is cut off to `a`, and
`¬ (a ∨ b)` is `¬ a`, true in the world with only `b`. -/
theorem c95_history_false : ∃ ops s w t, TopBottomState.run DnfCtx.popMax 1 (fun f => if f = 0 then (9/10 : ℚ) else 1/2) ops = some s ∧
    s.tags.getLast? = some t ∧ t.holds w ∧ ∃ vals, evalWorld w ops = some (2, vals) ∧ vals.getLast? = some false := by
  have h : (TopBottomState.run DnfCtx.popMax 1 (fun f => if f = 0 then (9/10 : ℚ) else 1/2) [.tag none, .tag none, .add 0 1, .negate 2]).map
      (fun s => s.tags.getLast?) = some (some ⟨.dnf, [[.neg 0]]⟩) := by decide +kernel
  obtain ⟨s, hs, he⟩ := Option.map_eq_some_iff.mp h
  exact ⟨_, s, fun f => f == 1, _, hs, he, ⟨_, List.mem_singleton.mpr rfl, by simp [Clause.holds, Literal.holds]⟩, _, rfl, rfl⟩

/-- With negation, a tag can keep conjunctions of facts that exclude each other: `¬ (¬ (a ∧ ¬ c) ∨ ¬ (b ∧ ¬ d))` with `a` and `b` exclusive
has the conjunction of all four, and a positive probability, although it is false in every world that respects the exclusion. -/
theorem c95_exclusive_false : ∃ ops s t, TopBottomState.run DnfCtx.popMax 3 (fun _ => (1/2 : ℚ)) ops = some s ∧ s.tags.getLast? = some t ∧
    t.isZero = false ∧ t.wmc (Sdd.Diagram.realAlgebra ℚ) (fun _ => 1/2) = some (1/16) ∧ ∀ w, worldOk ops w → ¬ t.holds w := by
  have h : (TopBottomState.run DnfCtx.popMax 3 (fun _ => (1/2 : ℚ)) [.tag (some 1), .tag (some 1), .tag none, .tag none, .negate 2, .negate 3,
      .mult 0 4, .mult 1 5, .negate 6, .negate 7, .add 8 9, .negate 10]).map
      (fun s => s.tags.getLast?) = some (some ⟨.dnf, [[.pos 0, .pos 1, .neg 2, .neg 3]]⟩) := by decide +kernel
  obtain ⟨s, hs, he⟩ := Option.map_eq_some_iff.mp h
  refine ⟨_, s, _, hs, he, rfl, by decide +kernel, ?_⟩
  rintro w hw ⟨c, hc, hh⟩
  simp only [List.mem_cons, List.not_mem_nil, or_false] at hc
  subst hc
  have := hw 0 1 ⟨1, by decide, by decide⟩ (hh (.pos 0) (by simp)) (hh (.pos 1) (by simp))
  omega

end Scallop
