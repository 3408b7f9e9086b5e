import Verif.Proof.QuantCheck

/-!
# The check of universal quantification: the properties

C124: a `forall` over anything else than an implication is refused, with a message that says so; every other `forall` is replaced before aggregates are looked up.
What a replaced `forall` means is C36.
-/

namespace Scallop.Front

variable {F : Type}

/-! ## Test data -/

private abbrev A : Formula Empty := .atom "a" [.var (.user "x")]
private abbrev B : Formula Empty := .atom "b" [.var (.user "x")]
private abbrev v : List (Option Name) := [some (.user "v")]

/-- The registry of aggregates has no `forall`: the hypotheses of the theorems below are met. -/
example : stdKnown "forall" = false ∧ stdKnown "exists" = true := by decide +kernel

/-- **C124**, the check: the message about implications is given exactly if the body has, at any depth, an aggregation `vs := forall(b)` where `b` is not an
implication, and it names exactly those aggregations. -/
theorem c124_check (known : String → Bool) (f : Formula F) :
    ((∃ es, checkForall known f = .notImplies es) ↔ ∃ g, Inside g f ∧ g.IsForallOther) ∧
      ∀ es, checkForall known f = .notImplies es → ∀ g, g ∈ es ↔ Inside g f ∧ g.IsForallOther := by
  have hm : ∀ g, g ∈ forallErrors f ↔ Inside g f ∧ g.IsForallOther := fun g => ⟨errors_sub f g, fun h => mem_errors h.1 h.2⟩
  have he : ∀ es, checkForall known f = .notImplies es ↔ forallErrors f = es ∧ es ≠ [] := by
    intro es
    unfold checkForall
    split
    · rename_i e es' h
      simp only [Checked.notImplies.injEq, h]
      exact ⟨fun h => ⟨h, by simp [← h]⟩, fun h => h.1⟩
    · rename_i h
      simp only [h]
      constructor
      · intro h'
        split at h' <;> [split at h'; skip] <;> simp at h'
      · rintro ⟨rfl, h⟩
        exact (h rfl).elim
  refine ⟨⟨?_, ?_⟩, ?_⟩
  · rintro ⟨es, h⟩
    obtain ⟨h, hne⟩ := (he es).mp h
    obtain ⟨g, hg⟩ := List.exists_mem_of_ne_nil es hne
    exact ⟨g, (hm g).mp (h ▸ hg)⟩
  · rintro ⟨g, hg⟩
    exact ⟨_, (he _).mpr ⟨rfl, List.ne_nil_of_mem ((hm g).mpr hg)⟩⟩
  · intro es h g
    rw [← hm g, ((he es).mp h).1]

/-- `a(x) or (b(x) and v := forall(x: a(x)))` is refused, for the aggregation; `v := forall(x: a(x) implies b(x))` is not. -/
example : checkForall stdKnown (.disj [A, .conj [B, .reduce v "forall" [] [.user "x"] A [] []]]) =
      .notImplies [.reduce v "forall" [] [.user "x"] A [] []] ∧
    ¬ ∃ es, checkForall stdKnown (.reduce v "forall" [] [.user "x"] (.implies A B) [] []) = .notImplies es := by
  refine ⟨rfl, ?_⟩
  rintro ⟨es, h⟩
  obtain ⟨g, hi, ho⟩ := (c124_check stdKnown _).1.mp ⟨es, h⟩
  have := mem_errors hi ho
  simp [forallErrors, Formula.implication, forallErrors.all] at this

/-- **C124**, what is accepted: if no aggregate is named `forall`, then in a body that passes the check, the transformations and the lookup of aggregates every
`forall`, at any depth, is over an implication (with one variable for the result if it is an aggregation), and none is left. -/
theorem c124_accepted (known : String → Bool) (hk : known "forall" = false) (f f' : Formula F) (h : checkForall known f = .passed f') :
    (∀ g, Inside g f → g.Right) ∧ ∀ g, Inside g f' → ¬ g.IsForall := by
  unfold checkForall at h
  split at h
  · simp at h
  · split at h
    · rename_i f₁ hd
      split at h
      · rename_i hops
        simp only [Checked.passed.injEq] at h
        subst h
        have hn : ∀ g, Inside g f₁ → ¬ g.IsForall := by
          rintro g hg ⟨left, args, bindings, b, gv, gb, rfl⟩
          have hmem := mem_reduceOps hg rfl
          have := List.filter_eq_nil_iff.mp hops _ hmem
          simp [hk] at this
        exact ⟨(allIn_iff f).mp ((walk_right _ f f₁ hd).mp ((allIn_iff f₁).mpr hn)), hn⟩
      · simp at h
    · simp at h

/-- **C124**, what is refused: if every `forall` of the body is over an implication (with one variable for the result), then neither message about `forall` is
given, whatever the depth: the body passes, the compiler panics (C36), or only other aggregates are unknown. -/
theorem c124_right (known : String → Bool) (f : Formula F) (hr : ∀ g, Inside g f → g.Right) :
    (∀ es, checkForall known f ≠ .notImplies es) ∧ ∀ names, checkForall known f = .unknown names → "forall" ∉ names := by
  have hno : ¬ ∃ g, Inside g f ∧ g.IsForallOther := by
    rintro ⟨g, hi, left, args, bindings, b, gv, gb, rfl, hb⟩
    exact hb (hr _ hi rfl).2
  refine ⟨fun es h => hno ((c124_check known f).1.mp ⟨es, h⟩), fun names h hmem => ?_⟩
  unfold checkForall at h
  split at h
  · simp at h
  · split at h
    · rename_i f₁ hd
      split at h
      · simp at h
      · rename_i n ns hops
        simp only [Checked.unknown.injEq] at h
        rw [← h, ← hops, List.mem_filter] at hmem
        have hn := (walk_right _ f f₁ hd).mpr ((allIn_iff f).mpr hr)
        exact reduceOps_no f₁ hn hmem.1
    · simp at h

/-- `v := forall(x: a(x) implies b(x)) and not forall(x: b(x) implies a(x))` passes, and has no `forall` any more: only `exists` is looked up. -/
private def both : Formula Empty :=
  .conj [.reduce v "forall" [] [.user "x"] (.implies A B) [] [], .quant 0 true "forall" [.user "x"] (.implies B A) [] []]
example : (∃ f', checkForall stdKnown both = .passed f' ∧ reduceOps f' = ["exists", "exists"]) ∧ ∀ g, Inside g both → g.Right := by
  have h : ∃ f', checkForall stdKnown both = .passed f' ∧ reduceOps f' = ["exists", "exists"] := by
    refine ⟨_, rfl, by decide +kernel⟩
  refine ⟨h, ?_⟩
  obtain ⟨f', hf, _⟩ := h
  exact (c124_accepted stdKnown (by decide +kernel) both f' hf).1

/-- Refutes **C124** for quantifiers: `forall(x: a(x))`, without a variable for the result, is not seen by the check. The program is refused all the same, but
with the message that the aggregate `forall` is unknown. -/
theorem c124_message_false :
    ∃ f : Formula Empty, (∃ n b, f = .quant n false "forall" [.user "x"] b [] [] ∧ ¬ b.IsImplies) ∧
      (∀ es, checkForall stdKnown f ≠ .notImplies es) ∧ checkForall stdKnown f = .unknown ["forall"] := by
  have h : checkForall stdKnown (.quant 0 false "forall" [.user "x"] A [] []) = .unknown ["forall"] := rfl
  refine ⟨_, ⟨0, A, rfl, fun h => h⟩, fun es => ?_, h⟩
  rw [h]
  simp

/-- Refutes **C124** for ignored results: `_ := forall(x: a(x) implies b(x))` is over an implication but is refused, as an unknown aggregate. -/
theorem c124_ignored_false :
    ∃ f : Formula Empty, (∃ l r, f = .reduce [none] "forall" [] [.user "x"] (.implies l r) [] []) ∧ checkForall stdKnown f = .unknown ["forall"] :=
  ⟨_, ⟨A, B, rfl⟩, rfl⟩

/-- **C124**, rules of one aggregation: for an aggregate of the registry, `rel r = op(...)` fares as a rule whose body is `outs := op(...)`. -/
theorem c124_rule (known : String → Bool) (op : String) (hk : known op = true) (ho : op ≠ "forall") (outs args bindings : List Name) (body : Formula F)
    (gv : List Name) (gb : List (Formula F)) :
    checkReduceRule known outs op args bindings body gv gb = checkForall known (.reduce (outs.map some) op args bindings body gv gb) := by
  simp only [checkReduceRule, checkForall, forallErrors, ho, false_and, if_false, hk, if_true]

/-- Refutes **C124** for rules of one aggregation: no rule `rel r = forall(...)` is ever accepted, whatever its body, since the variable for the result is only
added for aggregates of the registry, before `forall` is replaced. -/
theorem c124_rule_false (outs args bindings : List Name) (body : Formula F) (gv : List Name) (gb : List (Formula F)) (f' : Formula F) :
    checkReduceRule stdKnown outs "forall" args bindings body gv gb ≠ .passed f' := by
  have hk : stdKnown "forall" = false := by decide +kernel
  intro h
  unfold checkReduceRule at h
  split at h
  · simp at h
  · simp only [hk, Bool.false_eq_true, if_false] at h
    split at h
    · rename_i f₁ hd
      obtain ⟨b', hb, hd⟩ := ok_bind hd
      obtain ⟨g', hg, hd⟩ := ok_bind hd
      simp only [Outcome.ok.injEq] at hd
      subst hd
      simp [reduceOps, hk] at h
    · simp at h

/-- `rel r = forall(x: a(x) implies b(x))` is refused as an unknown aggregate; `rel r = exists(x: a(x))` passes. -/
example : checkReduceRule stdKnown [.user "v"] "forall" [] [.user "x"] (.implies A B) [] [] = .unknown ["forall"] ∧
    checkReduceRule stdKnown [.user "v"] "exists" [] [.user "x"] A [] [] = .passed (.reduce v "exists" [] [.user "x"] A [] []) :=
  ⟨rfl, rfl⟩

end Scallop.Front
