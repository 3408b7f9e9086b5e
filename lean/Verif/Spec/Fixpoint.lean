import Verif.Spec.Dataflow
import Verif.Model.Iteration

/-!
# Specification of a stratum: sets closed under the rules

The meaning of a dataflow on sets of tuples (no tags, no batches), and the least family of sets closed under the rules.
-/

namespace Scallop

variable {V T W ι κ : Type*} [LinearOrder V]

/-- Whether a tag can be subtracted does not depend on what it is subtracted from; true of every provenance in the code. -/
def Prov.Uniform (c : Prov T W) : Prop := ∀ t1 t1' t2, (c.minus t1 t2).isSome = (c.minus t1' t2).isSome

/-- Whether a left tuple with subtraction key `k` survives the subtraction of the tagged collection `B`: it does unless `k` is in `B`
with a tag that cannot be subtracted. (Provenances without negation remove the tuple; the others keep it and change its tag.) -/
def survives (c : Prov T W) (B : List (Elem (Tup V) T)) (k : Option (Tup V)) : Prop :=
  ∀ y, B.find? (fun y => some y.tuple = k) = some y → (c.minus c.one y.tag).isSome

/-- The leaves of the subtracted part of a negation: input collections. -/
def inputSrc (inp : κ → List (Elem (Tup V) T)) : Leaf V ι κ → List (Elem (Tup V) T)
  | .input j => inp j
  | _ => []

/-- Set semantics of a dataflow, given the sets of the stratum's relations and the input collections. -/
def DF.sem (c : Prov T W) (inp : κ → List (Elem (Tup V) T)) (X : ι → Set (Tup V)) : DF V ι κ → Set (Tup V)
  | .unit t => {t}
  | .untagged ts => {t | t ∈ ts}
  | .rel i => X i
  | .input j => tuples (inp j)
  | .overwriteOne d | .sorted d => d.sem c inp X
  | .filter d p => {t | t ∈ d.sem c inp X ∧ p t = true}
  | .find d k => {t | t ∈ d.sem c inp X ∧ t.at? 0 = some k}
  | .project d f => {t | ∃ u ∈ d.sem c inp X, f u = some t}
  | .union d1 d2 => d1.sem c inp X ∪ d2.sem c inp X
  | .intersect d1 d2 => d1.sem c inp X ∩ d2.sem c inp X
  | .join d1 d2 => {t | ∃ k a b, t = .tup [k, a, b] ∧ (∃ x ∈ d1.sem c inp X, x.at? 0 = some k ∧ x.at? 1 = some a) ∧
      (∃ y ∈ d2.sem c inp X, y.at? 0 = some k ∧ y.at? 1 = some b)}
  | .product d1 d2 => {t | ∃ x ∈ d1.sem c inp X, ∃ y ∈ d2.sem c inp X, t = .tup [x, y]}
  | .difference d1 d2 => {t | t ∈ d1.sem c inp X ∧ survives c (d2.bag c (inputSrc inp)) (some t)}
  | .antijoin d1 d2 => {t | t ∈ d1.sem c inp X ∧ survives c (d2.bag c (inputSrc inp)) (t.at? 0)}
  | .once bs => {t | ∃ js ∈ bs, ∃ j ∈ js, t ∈ tuples (inp j)}
  | .listed js => {t | ∃ j ∈ js, t ∈ tuples (inp j)}
  | .expand d f => {t | ∃ u ∈ d.sem c inp X, ∃ r, f u = some r ∧ ∃ j, (t, j) ∈ r ∧ inp j ≠ []}

/-- A family of sets contains the facts and is closed under the rules. -/
def Stratum.Closed (c : Prov T W) (p : Stratum V T ι κ) (X : ι → Set (Tup V)) : Prop :=
  (∀ i facts, p.edb i = some facts → tuples facts ⊆ X i) ∧ ∀ u ∈ p.updates, u.2.sem c p.input X ⊆ X u.1

/-- The least closed family: what is in every closed family. -/
def Stratum.lfp (c : Prov T W) (p : Stratum V T ι κ) (i : ι) : Set (Tup V) := {t | ∀ X, p.Closed c X → t ∈ X i}

/-- What the compiler guarantees about a stratum: rules of the emitted shape with sorted operands, and sorted input collections; and the
provenance law above. -/
structure Stratum.Ok (c : Prov T W) (p : Stratum V T ι κ) : Prop where
  sorted : ∀ u ∈ p.updates, u.2.wellSorted
  stratified : ∀ u ∈ p.updates, u.2.stratified
  input : ∀ j, Sorted (p.input j)
  minus : c.Uniform

/-- No component access on a malformed tuple: wherever an operator reads `tuple[0]` or `tuple[1]`, the tuples that can get there (given
the sets `X`) have these components. Type checking guarantees this. -/
def DF.safe (c : Prov T W) (inp : κ → List (Elem (Tup V) T)) (X : ι → Set (Tup V)) : DF V ι κ → Prop
  | .unit _ | .untagged _ | .rel _ | .input _ | .once _ | .listed _ => True
  | .overwriteOne d | .filter d _ | .project d _ | .sorted d => d.safe c inp X
  | .expand d f => d.safe c inp X ∧ ∀ t ∈ d.sem c inp X, (f t).isSome
  | .find d _ => d.safe c inp X ∧ ∀ t ∈ d.sem c inp X, (t.at? 0).isSome
  | .union d1 d2 | .intersect d1 d2 | .product d1 d2 | .difference d1 d2 => d1.safe c inp X ∧ d2.safe c inp X
  | .join d1 d2 => d1.safe c inp X ∧ d2.safe c inp X ∧ (∀ t ∈ d1.sem c inp X, (t.at? 0).isSome ∧ (t.at? 1).isSome) ∧
      ∀ t ∈ d2.sem c inp X, (t.at? 0).isSome ∧ (t.at? 1).isSome
  | .antijoin d1 d2 => d1.safe c inp X ∧ d2.safe c inp X ∧ ∀ t ∈ d1.sem c inp X, (t.at? 0).isSome

/-- The pending batch of `r` is never more than four times as long as a stable batch with at least two elements, so that the next
step of the relation (`schedulers/lfp.rs` 22) advances linearly through the pending batch. -/
def Relation.noGallop (c : Prov T W) (r : Relation (Tup V) T) : Prop :=
  ∀ b ∈ (if r.recent.isEmpty then r.stable else (mergeIntoStable c r.recent r.stable.reverse).reverse),
    (condense c r.toAdd.reverse).length ≤ 4 * b.length ∨ b.length ≤ 1

/-- The states at the head of the loop. -/
inductive Stratum.Reached [LinearOrder W] [Fintype ι] [DecidableEq ι] (c : Prov T W) (p : Stratum V T ι κ) : IterState V T ι → Prop
  | init : Reached c p (p.init c)
  | step {s s' s'' : IterState V T ι} : Reached c p s → needToIterate c p s = some (s', true) → iterBody c p s' = some s'' → Reached c p s''

end Scallop
