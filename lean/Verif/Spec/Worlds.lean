import Verif.Spec.Fixpoint
import Verif.Model.Provenance
import Verif.Model.Dnf
import Verif.Spec.World

/-!
# Strata in possible worlds

`v` says which tags are true in one world. A tagged collection has in that world the tuples whose tags are true. A stratum has a world's own
stratum: the same rules over the facts and inputs that are true, without tags.
-/

namespace Scallop

variable {α V T W ι κ : Type*}

/-- No sum is true in the world unless one of the summands is. -/
def Prov.AddSoundAt (c : Prov T W) (v : T → Prop) : Prop := ∀ a b, v (c.add a b) → v a ∨ v b

/-- No sum or product is true in the world unless it should be. -/
structure Prov.SoundAt (c : Prov T W) (v : T → Prop) : Prop where
  add : c.AddSoundAt v
  mult : ∀ a b, v (c.mult a b) → v a ∧ v b

/-- Among the tags in `P`, which are closed under the operations, sums and products have the truth values of disjunction and conjunction, and a tag
is reported as saturated only if what was added makes it true nowhere else. -/
structure Prov.ExactAt (c : Prov T W) (P v : T → Prop) : Prop extends c.SoundAt v where
  oneIn : P c.one
  addIn : ∀ a b, P a → P b → P (c.add a b)
  multIn : ∀ a b, P a → P b → P (c.mult a b)
  one : v c.one
  add' : ∀ a b, P a → P b → v a ∨ v b → v (c.add a b)
  mult' : ∀ a b, P a → P b → v a → v b → v (c.mult a b)
  saturated : ∀ a b, P a → P b → c.saturated a (c.add a b) = true → v b → v a

/-- Subtracting leaves nothing that is not true, or whose subtrahend is true. -/
def Prov.NegSoundAt (c : Prov T W) (v : T → Prop) : Prop := ∀ a b t, c.minus a b = some t → v t → v a ∧ ¬ v b

/-- Subtracting leaves everything that is true and whose subtrahend is not. -/
structure Prov.NegExactAt (c : Prov T W) (P v : T → Prop) : Prop where
  minusIn : ∀ a b t, P a → P b → c.minus a b = some t → P t
  minus : ∀ a b, P a → P b → v a → ¬ v b → ∃ t, c.minus a b = some t ∧ v t

/-- A tag that changes the sum is true where the other one was: tags are ordered in a line, and sums are maxima. -/
def Prov.LinearAt (c : Prov T W) (v : T → Prop) : Prop := ∀ a b, c.saturated a (c.add a b) = false → v a → v b

/-- All tags of the collection are in `P`. -/
def AllTags {α : Type*} (P : T → Prop) (l : List (Elem α T)) : Prop := ∀ e ∈ l, P e.tag

/-- The tuples that are true in the world. -/
def worldOf (v : T → Prop) (l : List (Elem α T)) : Set α := {x | ∃ e ∈ l, e.tuple = x ∧ v e.tag}

open Classical in
/-- What is true in the world, without tags. -/
noncomputable def inWorld (v : T → Prop) (l : List (Elem α T)) : List (Elem α Unit) :=
  (l.filter (fun e => decide (v e.tag))).map (fun e => ⟨e.tuple, ()⟩)

/-- The stratum of the world. -/
noncomputable def Stratum.inWorld (v : T → Prop) (p : Stratum V T ι κ) : Stratum V Unit ι κ where
  input := fun j => Scallop.inWorld v (p.input j)
  edb := fun i => (p.edb i).map (Scallop.inWorld v)
  updates := p.updates
  sched := p.sched
  goals := p.goals
  iterLimit := p.iterLimit
  stopAtGoal := p.stopAtGoal
  earlyDiscard := false

/-- No operator that gives tuples the tag 1 whatever tag they have. -/
def DF.keepsTags : DF V ι κ → Prop
  | .unit _ | .untagged _ | .rel _ | .input _ | .once _ | .listed _ => True
  | .overwriteOne _ => False
  | .filter d _ | .find d _ | .project d _ | .sorted d | .expand d _ => d.keepsTags
  | .union d1 d2 | .intersect d1 d2 | .join d1 d2 | .product d1 d2 | .difference d1 d2 | .antijoin d1 d2 => d1.keepsTags ∧ d2.keepsTags

/-- Reads only these inputs. -/
def DF.readsOnly (Q : κ → Prop) : DF V ι κ → Prop
  | .unit _ | .untagged _ | .rel _ => True
  | .input j => Q j
  | .once bs => ∀ b ∈ bs, ∀ j ∈ b, Q j
  | .listed js => ∀ j ∈ js, Q j
  | .overwriteOne d | .filter d _ | .find d _ | .project d _ | .sorted d => d.readsOnly Q
  | .expand d f => d.readsOnly Q ∧ ∀ t r, f t = some r → ∀ q ∈ r, Q q.2
  | .union d1 d2 | .intersect d1 d2 | .join d1 d2 | .product d1 d2 | .difference d1 d2 | .antijoin d1 d2 => d1.readsOnly Q ∧ d2.readsOnly Q

/-- Tags of the inputs that the rules read are in `P`. -/
def Stratum.InputsIn (P : T → Prop) (p : Stratum V T ι κ) : Prop := ∀ u ∈ p.updates, u.2.readsOnly (fun j => AllTags P (p.input j))

variable [LinearOrder V]

/-- The tuples, with repetitions, that are read from input collections through filters and projections. -/
def DF.listing (inp : κ → List (Elem (Tup V) T)) : DF V ι κ → List (Tup V)
  | .input j => (inp j).map Elem.tuple
  | .overwriteOne d => d.listing inp
  | .filter d p => (d.listing inp).filter p
  | .find d k => (d.listing inp).filter (fun t => t.at? 0 = some k)
  | .project d f => (d.listing inp).filterMap f
  | _ => []

/-- What is subtracted has each tuple once. -/
def DF.sharp (inp : κ → List (Elem (Tup V) T)) : DF V ι κ → Prop
  | .unit _ | .untagged _ | .rel _ | .input _ | .once _ | .listed _ => True
  | .overwriteOne d | .filter d _ | .find d _ | .project d _ | .sorted d | .expand d _ => d.sharp inp
  | .union d1 d2 | .intersect d1 d2 | .join d1 d2 | .product d1 d2 => d1.sharp inp ∧ d2.sharp inp
  | .difference d1 d2 | .antijoin d1 d2 => d1.sharp inp ∧ (d2.listing inp).Nodup

omit [LinearOrder V] in
/-- Neither difference nor anti-join. -/
def DF.noMinus : DF V ι κ → Prop
  | .unit _ | .untagged _ | .rel _ | .input _ | .once _ | .listed _ => True
  | .overwriteOne d | .filter d _ | .find d _ | .project d _ | .sorted d | .expand d _ => d.noMinus
  | .union d1 d2 | .intersect d1 d2 | .join d1 d2 | .product d1 d2 => d1.noMinus ∧ d2.noMinus
  | .difference _ _ | .antijoin _ _ => False

/-- What is required of the rules of a stratum: no operator that gives tuples the tag 1, subtraction only of collections that have each tuple once,
and the default scheduler. -/
structure Stratum.Plain (p : Stratum V T ι κ) : Prop where
  tags : ∀ u ∈ p.updates, u.2.keepsTags
  sharp : ∀ u ∈ p.updates, u.2.sharp p.input
  lfp : ∀ i, p.sched i = .lfp

omit [LinearOrder V] in
/-- Early discarding drops nothing that is true. -/
def Stratum.keepsIn (v : T → Prop) (c : Prov T W) (p : Stratum V T ι κ) : Prop := p.earlyDiscard = true → ∀ t, c.discard t = true → ¬ v t

/-- Tags over the first `n` facts: different conjunctions, each with one literal for each fact. -/
def tagOver (n : Nat) (t : Dnf) : Prop := t.Nodup ∧ ∀ c ∈ t, c.Sorted ∧ ∀ l ∈ c, l.factId < n

/-- A bound on the number of conjunctions that any operation makes of tags over `n` facts. -/
def topKBound (n : Nat) : Nat := (n + 1) ^ 4 ^ n

end Scallop
