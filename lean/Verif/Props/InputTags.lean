import Verif.Proof.InputTags
import Mathlib.Algebra.Order.Field.Basic
import Mathlib.Algebra.Order.Ring.Rat

/-!
# C97: a fact holds with the probability its tag says

`DynTag.says` (specification) is what a tag says: a probability and a choice. `taken` is what a provenance takes from it.
-/

namespace Scallop.Input

variable {K V : Type*} [Field K] [LinearOrder K] [IsStrictOrderedRing K]

/-! ## Reading a tag -/

/-- C97: the differentiable provenances with proofs take from every tag what it says. -/
theorem c97_full (t : DynTag K) : taken (ofDyn .exclusiveDiffProb t) = t.says := by
  rcases t with _ | _ | _ | (_ | _) | (_ | n) | _ | _ | _ | _ | _ <;> simp [ofDyn, taken, DynTag.says, InTag.says, ofBool]

/-- C97: the provenances with proofs (top-k, sampled, exact) take what a tag says exactly if it is neither `false` nor 0 nor a probability with an identifier. -/
theorem c97_exclusive_prob (t : DynTag K) : taken (ofDyn .exclusiveProb t) = t.says ↔
    t ≠ .bool false ∧ t ≠ .natural 0 ∧ (∀ id f, t = .floatWithId id f → f = 1) ∧ ∀ id f e, t ≠ .exclusiveFloatWithId id f e := by
  rcases t with _ | _ | _ | (_ | _) | (_ | n) | _ | _ | _ | _ | _ <;> simp [ofDyn, taken, DynTag.says, InTag.says, eq_comm]

/-- C97: the differentiable provenances on single probabilities take the probability of every tag (the choice is not theirs). -/
theorem c97_diff_prob (t : DynTag K) : (taken (ofDyn .diffProb t)).1 = t.says.1 := by
  rcases t with _ | _ | _ | (_ | _) | (_ | n) | _ | _ | _ | _ | _ <;> simp [ofDyn, taken, DynTag.says, InTag.says, ofBool]

/-- C97: the other provenances on single probabilities take the probability exactly of these tags. -/
theorem c97_float (t : DynTag K) : (taken (ofDyn .float t)).1 = t.says.1 ↔
    t ≠ .bool false ∧ t ≠ .natural 0 ∧ (∀ id f, t = .floatWithId id f → f = 1) ∧ (∀ id f e, t = .exclusiveFloatWithId id f e → f = 1) ∧
      ∀ f, t = .tensor f → f = 1 := by
  rcases t with _ | _ | _ | (_ | _) | (_ | n) | _ | _ | _ | _ | _ <;> simp [ofDyn, taken, DynTag.says, InTag.says, eq_comm]

/-- C97: counting provenances take every fact as possible that is possible, and no other, except for tensors. -/
theorem c97_natural (t : DynTag K) : (0 < (taken (ofDyn .natural t)).1 ↔ 0 < t.says.1) ↔ ∀ f, t = .tensor f → 0 < f := by
  have h : ∀ f : K, (0 < (InTag.says (K := K) (.natural (if 0 < f then 1 else 0))).1) ↔ 0 < f := by
    intro f; by_cases hf : 0 < f <;> simp [hf, InTag.says]
  rcases t with _ | _ | _ | (_ | _) | (_ | n) | _ | _ | _ | _ | _ <;> simp [ofDyn, taken, DynTag.says, h] <;> simp [InTag.says]

/-- C97: Boolean provenance takes as true every fact, unless its tag is `false`: an impossible fact with another tag is taken as true. -/
theorem c97_bool (t : DynTag K) : (0 < (taken (ofDyn .bool t)).1 ↔ 0 < t.says.1) ↔ t = .bool false ∨ 0 < t.says.1 := by
  rcases t with _ | _ | _ | (_ | _) | (_ | n) | _ | _ | _ | _ | _ <;> simp [ofDyn, taken, DynTag.says, InTag.says]

/-- C97: the provenance of proofs without probabilities takes the choice of every tag, unless it has an identifier. -/
theorem c97_exclusion (t : DynTag K) : (taken (ofDyn .exclusion t)).2 = t.says.2 ↔ ∀ id f e, t ≠ .exclusiveFloatWithId id f e := by
  rcases t with _ | _ | _ | (_ | _) | (_ | n) | _ | _ | _ | _ | _ <;> simp [ofDyn, taken, DynTag.says, InTag.says]

/-- C97: the debugging provenance takes what a tag says only if the tag has an identifier (or says nothing). -/
theorem c97_with_id (t : DynTag K) : taken (ofDyn .exclusiveDiffProbWithId t) = t.says ↔
    (∃ id f, t = .floatWithId id f) ∨ (∃ id f e, t = .exclusiveFloatWithId id f e) ∨ t.says = (1, none) := by
  rcases t with _ | _ | _ | (_ | _) | (_ | n) | _ | _ | _ | _ | _ <;> simp [ofDyn, taken, DynTag.says, InTag.says, eq_comm]

/-- C97 refuted for the provenances with proofs: a fact tagged `false`, or tagged with a probability and an identifier, holds with probability 1. -/
theorem c97_false_refuted : taken (ofDyn .exclusiveProb (.bool false : DynTag K)) = (1, none) ∧ (DynTag.says (.bool false : DynTag K)) = (0, none) ∧
    ∀ id (f : K), taken (ofDyn .exclusiveProb (.floatWithId id f)) = (1, none) := ⟨rfl, rfl, fun _ _ => rfl⟩

/-- C97 refuted for Boolean provenance: a fact of probability 0 is true. -/
theorem c97_zero_refuted : taken (ofDyn .bool (.float 0 : DynTag K)) = (1, none) ∧ DynTag.says (.float 0 : DynTag K) = (0, none) := ⟨rfl, rfl⟩

/-! ## Alternatives -/

/-- C97: an alternative of a choice keeps its probability. -/
theorem c97_alternative_prob (t : DynTag K) (e : Nat) : (t.withExclusivity e).says.1 = t.says.1 := by
  rcases t with _ | _ | _ | (_ | _) | (_ | n) | _ | _ | _ | _ | _ <;> rfl

/-- C97: an alternative belongs to its choice exactly if it has no tag or a probability (or belonged to it before). -/
theorem c97_alternative_choice (t : DynTag K) (e : Nat) : (t.withExclusivity e).says.2 = some e ↔
    t = .none ∨ (∃ f, t = .float f) ∨ (∃ f d, t = .exclusiveFloat f d) ∨ t = .exclusive e ∨ ∃ id f, t = .exclusiveFloatWithId id f e := by
  rcases t with _ | _ | _ | (_ | _) | (_ | n) | _ | _ | _ | _ | _ <;> simp [DynTag.withExclusivity, DynTag.says]

/-! ## Facts as written -/

/-- C97 (partial): a written fact with constant arguments gets the tag it is written with, if this is a Boolean or a number; no tag, if it has none. -/
theorem c97_written_partial (n : Nat) (w : WrittenTag K) (p : K) (h : w.says = some p) :
    ∃ t, compileFact n true (some w) = .fact t ∧ t.says = (p, none) := by
  rcases w with (_ | _) | _ | _ | _ <;> simp only [WrittenTag.says, Option.some.injEq, reduceCtorEq] at h <;> subst h
  · exact ⟨.bool false, rfl, rfl⟩
  · exact ⟨.bool true, rfl, rfl⟩
  · exact ⟨.float _, rfl, rfl⟩

/-- C97 (partial): a written fact without a tag is certain: a fact without a tag or a rule without a tag. -/
theorem c97_untagged_partial (n : Nat) (c : Bool) : compileFact n c (none : Option (WrittenTag K)) = if c then .fact .none else .rule false false := by
  cases c <;> rfl

/-- C97 refuted: a fact whose tag is an expression (`rel (1.0 - 0.7)::p(1)`) is certain. -/
theorem c97_expression_refuted (n : Nat) : ∃ t, compileFact n true (some (.expr : WrittenTag K)) = .fact t ∧ t.says = (1, none) := ⟨.none, rfl, rfl⟩

/-- C97 refuted: a fact with a tag and computed arguments (`rel 0.5::p(1 + 1)`) becomes a rule whose tag predicate is registered nowhere: it never holds. -/
theorem c97_computed_refuted (n : Nat) (w : WrittenTag K) : compileFact n false (some w) = .rule true false := by
  simp [compileFact]

/-! ## Cloning a context with another provenance -/

/-- C97: the tags of inputs keep what they say when a context is cloned with a provenance with proofs and probabilities. -/
theorem c97_clone (k : Kind) (hk : k = .exclusiveProb ∨ k = .exclusiveDiffProb) (t : InTag K) : ∃ r, convert k t = some r ∧ taken r = t.says := by
  rcases hk with rfl | rfl <;> rcases t with _ | (_ | _) | (_ | n) | (_ | _) | _ | _ | _ | _ | _ <;>
    exact ⟨_, rfl, by simp [taken, InTag.says]⟩

/-- C97: with a provenance on single probabilities, they keep their probability. -/
theorem c97_clone_prob (k : Kind) (hk : k = .float ∨ k = .diffProb) (t : InTag K) : ∃ r, convert k t = some r ∧ (taken r).1 = t.says.1 := by
  rcases hk with rfl | rfl <;> rcases t with _ | (_ | _) | (_ | n) | (_ | _) | _ | _ | _ | _ | _ <;>
    exact ⟨_, rfl, by simp [taken, InTag.says, ofBool]⟩

/-- C97: with a Boolean or counting provenance, they stay possible or impossible. -/
theorem c97_clone_positive (k : Kind) (hk : k = .bool ∨ k = .natural) (t : InTag K) (r : Option (InTag K)) (h : convert k t = some r) :
    0 < (taken r).1 ↔ 0 < t.says.1 := by
  have hb : ∀ f : K, (0 < (InTag.says (K := K) (.bool (decide (0 < f)))).1) ↔ 0 < f := by
    intro f; by_cases hf : 0 < f <;> simp [hf, InTag.says]
  have hn : ∀ f : K, (0 < (InTag.says (K := K) (posNat f)).1) ↔ 0 < f := by
    intro f; by_cases hf : 0 < f <;> simp [hf, InTag.says, posNat]
  rcases hk with rfl | rfl <;> rcases t with _ | (_ | _) | (_ | n) | (_ | _) | _ | _ | _ | _ | _ <;>
    simp only [convert, Option.some.injEq, reduceCtorEq] at h <;> subst h <;> simp [taken, hb, hn] <;> simp [InTag.says]

/-- C97: with the provenance of proofs, they keep their choice. -/
theorem c97_clone_choice (t : InTag K) : ∃ r, convert .exclusion t = some r ∧ (taken r).2 = t.says.2 := by
  rcases t with _ | (_ | _) | (_ | n) | (_ | _) | _ | _ | _ | _ | _ <;> exact ⟨_, rfl, by simp [taken, InTag.says]⟩

/-- C97: cloning with a provenance of the same kind changes nothing, if the tags have no identifiers. -/
theorem c97_clone_same (t : InTag K) : (∃ k, convert k t = some (some t)) ↔ ∀ id p g e, t ≠ .exclusiveDiffProbWithId id p g e := by
  constructor
  · rintro ⟨k, h⟩ id p g e rfl
    cases k <;> simp [convert] at h
  · intro h
    rcases t with _ | _ | _ | (_ | _) | _ | _ | _ | _ | ⟨id, p, g, e⟩
    · exact ⟨.unit, rfl⟩
    · exact ⟨.bool, rfl⟩
    · exact ⟨.natural, rfl⟩
    · exact ⟨.exclusion, rfl⟩
    · exact ⟨.exclusion, rfl⟩
    · exact ⟨.float, rfl⟩
    · exact ⟨.exclusiveProb, rfl⟩
    · exact ⟨.diffProb, rfl⟩
    · exact ⟨.exclusiveDiffProb, rfl⟩
    · exact absurd rfl (h id p g e)

/-- C97 refuted: cloned with the debugging provenance, its own tags become certain; a tag with a gradient loses it in the kind with exclusions, and the reverse. -/
theorem c97_clone_refuted (id : Nat) (p : K) (g : Bool) (e : Option Nat) :
    convert .exclusiveDiffProbWithId (.exclusiveDiffProbWithId id p g e) = some none ∧
    (∃ t, convert .exclusiveDiffProb (.diffProb p true) = some (some t) ∧ t.gradient = false) ∧
    ∃ t, convert .diffProb (.exclusiveDiffProb p true e) = some (some t) ∧ t.gradient = false := ⟨rfl, ⟨_, rfl, rfl⟩, ⟨_, rfl, rfl⟩⟩

/-! ## Registration -/

omit [IsStrictOrderedRing K] in
/-- C97: the facts of a relation are registered without a panic, and keep their tuples and their order. -/
theorem c97_internalize (k : Kind) (hk : k = .exclusiveProb ∨ k = .exclusiveDiffProb) (fs : List (DynTag K × Tup V)) :
    ∃ s es, internalize k Reg.new fs = some (s, es) ∧ es.map Elem.tuple = fs.map Prod.snd := by
  obtain ⟨s, es, h1, h2, _⟩ := internalize_get hk fs
  exact ⟨s, es, h1, h2⟩

/-- C97: with the differentiable provenances, any set of facts holds together with the product of the probabilities their tags say (facts of one choice: see C98). -/
theorem c97_probability (fs : List (DynTag K × Tup V)) (s : Reg K) (es : List (Elem (Tup V) Dnf)) (h : internalize .exclusiveDiffProb Reg.new fs = some (s, es))
    (J : Finset Nat) :
    eventProb s.prob (Finset.range s.probs.length) (fun w => ∀ j ∈ J, ∀ e, es[j]? = some e → dnfHolds w e.tag) = ∏ j ∈ J, saidProb fs j :=
  internalize_prob (Or.inr rfl) fs (fun f _ => c97_full f.1) h J

/-- C97 (partial): with the other provenances with proofs, the same if all tags are of those read as they are (`c97_exclusive_prob`). -/
theorem c97_probability_partial (fs : List (DynTag K × Tup V)) (hs : ∀ f ∈ fs, f.1 ≠ .bool false ∧ f.1 ≠ .natural 0 ∧
      (∀ id p, f.1 = .floatWithId id p → p = 1) ∧ ∀ id p e, f.1 ≠ .exclusiveFloatWithId id p e)
    (s : Reg K) (es : List (Elem (Tup V) Dnf)) (h : internalize .exclusiveProb Reg.new fs = some (s, es)) (J : Finset Nat) :
    eventProb s.prob (Finset.range s.probs.length) (fun w => ∀ j ∈ J, ∀ e, es[j]? = some e → dnfHolds w e.tag) = ∏ j ∈ J, saidProb fs j :=
  internalize_prob (Or.inl rfl) fs (fun f hf => (c97_exclusive_prob f.1).mpr (hs f hf)) h J

/-! ## Cases -/

/-- Three facts: one certain, one of probability 1/2, one tagged `false`. -/
def exampleFacts : List (DynTag ℚ × Tup Nat) := [(.none, .val 1), (.float (1 / 2), .val 2), (.bool false, .val 3)]

example : ∃ s es, internalize .exclusiveDiffProb Reg.new exampleFacts = some (s, es) ∧ s.probs = [1 / 2, 0] ∧ es.map Elem.tag = [[[]], [[.pos 0]], [[.pos 1]]] :=
  ⟨_, _, rfl, by decide +kernel, by decide +kernel⟩
example : ∃ s es, internalize .exclusiveProb Reg.new exampleFacts = some (s, es) ∧ s.probs = [1 / 2] ∧ es.map Elem.tag = [[[]], [[.pos 0]], [[]]] :=
  ⟨_, _, rfl, by decide +kernel, by decide +kernel⟩
example : ∏ j ∈ ({0, 1} : Finset Nat), saidProb exampleFacts j = 1 / 2 := by decide +kernel
example : ∀ f ∈ exampleFacts.take 2, f.1 ≠ .bool false ∧ f.1 ≠ .natural 0 ∧
      (∀ id p, f.1 = .floatWithId id p → p = 1) ∧ ∀ id p e, f.1 ≠ .exclusiveFloatWithId id p e := by
  intro f hf
  simp [exampleFacts] at hf
  rcases hf with rfl | rfl <;> simp
example : (WrittenTag.number (3 / 10 : ℚ)).says = some (3 / 10) := rfl
example : convert .natural (.float (1 / 2 : ℚ)) = some (some (.natural 1)) := by decide +kernel

end Scallop.Input
