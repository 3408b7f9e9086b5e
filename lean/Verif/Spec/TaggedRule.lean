import Verif.Model.TaggedRule
import Verif.Spec.Worlds

/-!
# What tagged rules mean in a world

A world says which tags are true, in particular which events. A tagged rule of the world applies to those tuples of its body that have a tag (a number can be
computed for them) and whose events are true.
-/

namespace Scallop.Tagged

variable {V T W ι κ K : Type*}

/-- Some event that was made for the rule and the tuple is true. -/
def someEvent (v : T → Prop) (ev : Nat → T) (log : List (Event V K)) (rule : String) (t : Tup V) : Prop :=
  ∃ (n : Nat) (e : Event V K), log[n]? = some e ∧ e.rule = rule ∧ e.inst = t ∧ v (ev n)

/-- All events that were made for the rule and the tuple are true. -/
def everyEvent (v : T → Prop) (ev : Nat → T) (log : List (Event V K)) (rule : String) (t : Tup V) : Prop :=
  ∀ (n : Nat) (e : Event V K), log[n]? = some e → e.rule = rule → e.inst = t → v (ev n)

/-- No two events were made for the same rule and tuple. -/
def OneEach (log : List (Event V K)) : Prop :=
  ∀ (m n : Nat) (d e : Event V K), log[m]? = some d → log[n]? = some e → d.rule = e.rule → d.inst = e.inst → m = n

/-- Events for the same rule and tuple have the same truth value. -/
def Agree (v : T → Prop) (ev : Nat → T) (log : List (Event V K)) : Prop :=
  ∀ (m n : Nat) (d e : Event V K), log[m]? = some d → log[n]? = some e → d.rule = e.rule → d.inst = e.inst → v (ev m) → v (ev n)

/-- The events of a rule: one for each tuple that has a tag, in order. -/
def eventsOf (rule : String) (f : Tup V → Option (Option K)) (ts : List (Tup V)) : List (Event V K) :=
  ts.filterMap (fun t => (f t).join.map (fun q => ⟨rule, t, q⟩))

/-- The name of a tagged rule. -/
def Upd.name : Upd V ι κ K → Option String
  | .tagged rule _ _ _ _ => some rule
  | .plain _ _ => none

/-- Every tagged rule reads its tuples from a finished collection (through selections and projections), each tuple once, and no two have the same name. -/
structure EStratum.Separate [LinearOrder V] (p : EStratum V T ι κ K) : Prop where
  static : ∀ rule i d f g, Upd.tagged rule i d f g ∈ p.updates → d.static ∧ (d.listing p.input).Nodup
  names : (p.updates.filterMap Upd.name).Nodup

/-- The events of an update. -/
def Upd.events [LinearOrder V] (inp : κ → List (Elem (Tup V) T)) : Upd V ι κ K → List (Event V K)
  | .tagged rule _ d f _ => eventsOf rule f (d.listing inp)
  | .plain _ _ => []

/-- The events of a stratum: those of its tagged rules, one rule after the other. -/
def EStratum.events [LinearOrder V] (p : EStratum V T ι κ K) : List (Event V K) :=
  p.updates.flatMap (Upd.events p.input)

open Classical in
/-- The update for the tuples that are enabled. -/
noncomputable def Upd.enable (en : String → Tup V → Prop) : Upd V ι κ K → ι × DF V ι κ
  | .plain i d => (i, d)
  | .tagged rule i d f g => (i, .project (.filter d (fun t => decide (accepts f t = true ∧ en rule t))) g)

/-- The stratum in which every tagged rule is a plain rule for the tuples that are enabled. -/
noncomputable def EStratum.enable (en : String → Tup V → Prop) (p : EStratum V T ι κ K) : Stratum V T ι κ where
  input := p.input
  edb := p.edb
  updates := p.updates.map (Upd.enable en)
  sched := p.sched
  goals := p.goals
  iterLimit := p.iterLimit
  stopAtGoal := p.stopAtGoal
  earlyDiscard := p.earlyDiscard

/-- What can be derived in the world when a tagged rule applies to the tuples that are enabled: the least sets that contain the true facts and are closed under the
rules. -/
noncomputable def EStratum.derivable [LinearOrder V] (v : T → Prop) (en : String → Tup V → Prop) (p : EStratum V T ι κ K) (i : ι) : Set (Tup V) :=
  ((p.enable en).inWorld v).lfp unitProv i

/-- The states at the head of the loop. -/
inductive EStratum.Reached [LinearOrder V] [LinearOrder W] [Fintype ι] [DecidableEq ι] (c : Prov T W) (ev : Nat → T) (p : EStratum V T ι κ K) :
    EState V T ι K → Prop
  | init : Reached c ev p ([], p.forget.init c)
  | step {s : EState V T ι K} {s' : IterState V T ι} {s'' : EState V T ι K} : Reached c ev p s → needToIterate c p.forget s.2 = some (s', true) →
      eIterBody c ev p (s.1, s') = some s'' → Reached c ev p s''

end Scallop.Tagged
