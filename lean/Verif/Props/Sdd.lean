import Verif.Proof.SddTop
import Verif.Proof.Proofs
import Verif.Spec.History

/-!
# Property theorems C21-C23, C53, C54: decision diagrams and probabilities
-/

namespace Scallop

open Sdd (configure)

/-! ### C23 -/

/-- **C23.** For at least one variable, each kind of variable tree is built without a panic; its leaves are exactly the given variables in
order, and no two nodes have the same index. -/
theorem c23_leaves (vars : List Nat) (h : vars ≠ []) (kind : VTree.Kind) :
    ∃ t, VTree.newWithType vars kind = some t ∧ t.leaves.map Prod.snd = vars ∧ t.inOrder.Nodup := by
  obtain ⟨t, h1, h2, h3⟩ := VTree.newWithType_spec h kind
  exact ⟨t, h1, h2, h3⟩

example : VTree.newWithType [7, 5, 9] .balanced = some (.branch 4 (.leaf 0 7) (.branch 3 (.leaf 1 5) (.leaf 2 9))) := by decide +kernel
example : VTree.newWithType [7, 5, 9] .left = some (.branch 4 (.branch 2 (.leaf 0 7) (.leaf 1 5)) (.leaf 3 9)) := by decide +kernel
example : VTree.newWithType [7, 5, 9] .right = some (.branch 4 (.leaf 3 7) (.branch 2 (.leaf 1 5) (.leaf 0 9))) := by decide +kernel

/-! ### C21 -/

/-- **C21.** For every formula over a list of distinct variables, every kind of variable tree, with or without garbage collection: the builder
constructs a diagram without a panic, and under every assignment of the variables the diagram evaluates to the value of the formula (in
particular some prime of each visited node holds, so evaluation does not panic). -/
theorem c21_eval (vars : List Nat) (nd : vars.Nodup) (kind : VTree.Kind) (hk : vars ≠ [] ∨ kind = .balanced) (f : BoolForm)
    (ho : f.Over vars) (gc : Bool) :
    ∃ b d, configure vars kind = some b ∧ b.build f gc = some d ∧
      ∀ (assign : Nat → Option Bool) (w : Nat → Bool), (∀ v ∈ vars, assign v = some (w v)) → d.eval assign = some (f.eval w) := by
  obtain ⟨b, d, h1, h2, h3, -⟩ := Sdd.build_correct (K := ℤ) nd hk ho gc
  exact ⟨b, d, h1, h2, h3⟩

/-- `(x7 ∧ ¬x5) ∨ ¬(x9 ∨ x5)`. -/
def exForm : BoolForm := .or (.and (.pos 7) (.neg 5)) (.not (.or (.pos 9) (.pos 5)))

example : exForm.Over [7, 5, 9] := by simp [exForm, BoolForm.Over]
example : ((configure [7, 5, 9] .balanced).bind (fun b => (b.build exForm true).bind (fun d =>
    d.eval (fun v => some (decide (v = 7)))))) = some true := by decide +kernel

/-! ### C22 -/

/-- **C22.** The weighted model count computed on the diagram is the exact probability of the formula: the sum, over all assignments that
satisfy it, of the products of the weights `p v` of the true variables and `1 - p v` of the false ones. -/
theorem c22_count {K : Type*} [CommRing K] (vars : List Nat) (nd : vars.Nodup) (kind : VTree.Kind) (hk : vars ≠ [] ∨ kind = .balanced)
    (f : BoolForm) (ho : f.Over vars) (gc : Bool) (p : Nat → K) :
    ∃ b d, configure vars kind = some b ∧ b.build f gc = some d ∧
      d.evalT (Sdd.Diagram.realAlgebra K) p = some (f.prob p vars.toFinset) := by
  obtain ⟨b, d, h1, h2, -, h4⟩ := Sdd.build_correct (K := K) nd hk ho gc
  exact ⟨b, d, h1, h2, h4 p⟩

/-- C22 for dual numbers: the count carries the probability and, in each component, its partial derivative. -/
theorem c22_gradient {K : Type*} [Field K] [LinearOrder K] (f : BoolForm) (p : Nat → K) :
    ∃ x, f.wmc (Sdd.Diagram.dualAlgebra K) (fun v => DualNumber.singleton (p v) v) = some x ∧
      x.real = f.prob p f.collectVars.toFinset ∧
      ∀ j, x.deriv j = (MvPolynomial.pderiv j (f.probPoly K f.collectVars.toFinset)).eval p := by
  obtain ⟨x, h1, h2, h3⟩ := Sdd.wmc_dual_spec f p
  exact ⟨x, h1, by rw [h2, Sdd.prob_eval], h3⟩

example : exForm.wmc (Sdd.Diagram.realAlgebra ℚ) (fun v => if v = 7 then 1/2 else if v = 5 then 1/4 else 1/3) = some (5/8) := by
  decide +kernel
example : ((exForm.wmc (Sdd.Diagram.dualAlgebra ℚ) (fun v => DualNumber.singleton (if v = 7 then 1/2 else if v = 5 then 1/4 else 1/3) v)).map
    (fun x => (x.real, x.deriv 5, x.deriv 7, x.deriv 9))) = some (5/8, -5/6, 1/4, -3/8) := by
  decide +kernel

/-! ### C53 -/

/-- **C53.** The probability reported for a tag (a disjunction of proofs) is the exact probability that one of its proofs holds, the facts
being independent; `V` is any finite set of facts that contains those of the tag. -/
theorem c53_dnf {K : Type*} [CommRing K] (t : Dnf) (p : Nat → K) (V : Finset Nat) (hV : ∀ c ∈ t, ∀ l ∈ c, l.factId ∈ V) :
    t.wmc (Sdd.Diagram.realAlgebra K) p = some (eventProb p V (fun w => dnfHolds w t)) := by
  have h := Sdd.wmc_spec t.asBooleanFormula p
  obtain ⟨nd, ho⟩ := Sdd.collectVars_spec t.asBooleanFormula
  rw [Sdd.prob_extend nd ho (V := V) (fun v hv => by
    obtain ⟨c, hc, l, hl, rfl⟩ := (Sdd.mem_dnf_collectVars t v).1 hv
    exact hV c hc l hl), Sdd.prob_eq_eventProb] at h
  rw [Dnf.wmc, h]
  congr 2
  funext w
  exact propext (Sdd.asBooleanFormula_eval w t)

/-- C53 for whole histories of top-k proofs: whatever was tagged, added, multiplied and negated, recovering a tag does not panic and gives
the exact probability of its proofs over the facts tagged so far. -/
theorem c53_topk_output {K : Type*} [Field K] [LinearOrder K]
    (pop : List (DnfCtx.HeapElem K) → Option (DnfCtx.HeapElem K × List (DnfCtx.HeapElem K)))
    (hpop : IsPop pop) (k : Nat) (prob : Nat → K) (ops : List TagOp) (s : TopKState K) (h : TopKState.run pop k prob ops = some s) :
    ∀ t ∈ s.tags, t.wmc (Sdd.Diagram.realAlgebra K) prob = some (eventProb prob (Finset.range s.numFacts) (fun w => dnfHolds w t)) := by
  intro t ht
  have hinv := topKRun_inv hpop k prob ops s h
  exact c53_dnf t prob _ (fun c hc l hl => Finset.mem_range.2 ((hinv.ok t ht c hc).2.1 l hl))

/-- C53 and C27 together: without negation, the probability reported for each tag is at most the exact probability of the Boolean combination
of facts it stands for. -/
theorem c53_topk_lower_bound {K : Type*} [Field K] [LinearOrder K] [IsStrictOrderedRing K]
    (pop : List (DnfCtx.HeapElem K) → Option (DnfCtx.HeapElem K × List (DnfCtx.HeapElem K))) (hpop : IsPop pop) (k : Nat) (prob : Nat → K)
    (hp : ∀ f, 0 ≤ prob f ∧ prob f ≤ 1) (ops : List TagOp) (hneg : negationFree ops) (s : TopKState K)
    (h : TopKState.run pop k prob ops = some s) (i : Nat) (t : Dnf) (ht : s.tags[i]? = some t) :
    ∃ q, t.wmc (Sdd.Diagram.realAlgebra K) prob = some q ∧
      q ≤ eventProb prob (Finset.range s.numFacts) (fun w => ∃ n vals, evalWorld w ops = some (n, vals) ∧ vals[i]? = some true) := by
  refine ⟨_, c53_topk_output pop hpop k prob ops s h t (List.mem_of_getElem? ht), ?_⟩
  apply Sdd.eventProb_mono (fun v _ => hp v)
  intro w hw
  obtain ⟨vals, hv, hb⟩ := topKRun_below hpop k prob w ops s hneg h
  obtain ⟨v, hv1, hv2⟩ := Below.get hb ht
  exact ⟨_, vals, hv, by rw [hv1, hv2 hw]⟩

example : (TopKState.run DnfCtx.popMax 1 (fun _ => (1/2 : ℚ)) [.tag none, .tag none, .add 0 1]).map (fun s => s.tags.map
    (fun t => t.wmc (Sdd.Diagram.realAlgebra ℚ) (fun _ => 1/2))) = some [some (1/2), some (1/2), some (1/2)] := by decide +kernel
example : Dnf.wmc [[.pos 0, .neg 2], [.pos 1]] (Sdd.Diagram.realAlgebra ℚ) (fun _ => 1/2) = some (5/8) := by decide +kernel

/-! ### C54 -/

/-- C54 fails in the code: with counting of mutual exclusions switched on and two exclusive facts, each of probability 1/2, a tag without any
proof, and so false in every world, is reported with probability 1/2; a tag with proof `a ∧ b` of two exclusive facts with probability 1/2. -/
theorem c54_refuted : ∃ (t : Dnf) (groups : List (List Nat)) (p : Nat → ℚ), (∀ f, p f = 1/2) ∧ (∀ w, ¬ dnfHolds w t) ∧
    t.wmcWithDisjunctions (Sdd.Diagram.realAlgebra ℚ) p groups = some (1/2) := by
  refine ⟨[], [[0, 1]], fun _ => 1/2, fun _ => rfl, ?_, by decide +kernel⟩
  rintro w ⟨c, hc, -⟩
  cases hc

/-- C54, the part that holds: without exclusions, the count with exclusions is the exact probability of the proofs. Missing: any program with
an exclusion (`c54_refuted`). -/
theorem c54_no_exclusions_partial {K : Type*} [CommRing K] (t : Dnf) (p : Nat → K) (V : Finset Nat)
    (hV : ∀ c ∈ t, ∀ l ∈ c, l.factId ∈ V) :
    t.wmcWithDisjunctions (Sdd.Diagram.realAlgebra K) p [] = some (eventProb p V (fun w => dnfHolds w t)) := by
  exact c53_dnf t p V hV

/-- C54: what is reported instead is the probability that a proof holds *or* one of the exclusion formulas does. -/
theorem c54_actual {K : Type*} [CommRing K] (t : Dnf) (groups : List (List Nat)) (p : Nat → K) (V : Finset Nat)
    (hV : ∀ c ∈ t, ∀ l ∈ c, l.factId ∈ V) (hG : ∀ g ∈ groups, ∀ n ∈ g, n ∈ V) :
    t.wmcWithDisjunctions (Sdd.Diagram.realAlgebra K) p groups =
      some (eventProb p V (fun w => dnfHolds w t ∨ ∃ g ∈ groups, ∀ n ∈ g, ∃ i ∈ g, if i = n then w i = false else w i = true)) := by
  refine (Sdd.wmc_spec _ p).trans ?_
  obtain ⟨nd, ho⟩ := Sdd.collectVars_spec (bfDisjunction (t.asBooleanFormula :: groups.map exclusionFormula))
  rw [Sdd.prob_extend nd ho (V := V) (fun v hv => by
    rw [BoolForm.collectVars, Sdd.mem_collectVarsHelper, Sdd.fvars_bfDisjunction] at hv
    simp only [List.not_mem_nil, false_or, List.mem_cons, List.mem_map] at hv
    obtain ⟨f, rfl | ⟨g, hg, rfl⟩, hvf⟩ := hv
    · obtain ⟨c, hc, l, hl, rfl⟩ := (Sdd.mem_dnf_collectVars t v).1 (by
        rw [BoolForm.collectVars, Sdd.mem_collectVarsHelper]; exact .inr hvf)
      exact hV c hc l hl
    · simp only [exclusionFormula, Sdd.fvars_bfConjunction, List.mem_map, exists_exists_and_eq_and, Sdd.fvars_bfDisjunction] at hvf
      obtain ⟨n, -, i, hi, hvi⟩ := hvf
      have : v = i := by split at hvi <;> simpa [Sdd.fvars] using hvi
      exact this ▸ hG g hg i hi), Sdd.prob_eq_eventProb]
  congr 2
  funext w
  apply propext
  have hex : ∀ g, (exclusionFormula g).eval w = true ↔ ∀ n ∈ g, ∃ i ∈ g, if i = n then w i = false else w i = true := by
    intro g
    simp only [exclusionFormula, Sdd.bfConjunction_eval, List.all_map, List.all_eq_true, Function.comp, Sdd.bfDisjunction_eval, List.any_map,
      List.any_eq_true]
    refine forall_congr' fun n => imp_congr_right fun _ => exists_congr fun i => and_congr_right fun _ => ?_
    split <;> simp [BoolForm.eval]
  rw [Sdd.bfDisjunction_eval, List.any_cons, Bool.or_eq_true, Sdd.asBooleanFormula_eval]
  simp only [List.any_map, List.any_eq_true, Function.comp, hex]

example : Dnf.wmcWithDisjunctions [[.pos 0, .neg 2], [.pos 1]] (Sdd.Diagram.realAlgebra ℚ) (fun _ => 1/2) [] = some (5/8) := by decide +kernel

end Scallop
