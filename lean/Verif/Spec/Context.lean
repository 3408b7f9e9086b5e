import Verif.Model.Context
import Verif.Spec.Exec

/-!
# What a context has to remember

The facts a context has been given, by the calls made of it. A run that ends with an error may or may not have taken the facts of its program: the
facts given lie between a lower and an upper bound.
-/

namespace Scallop.Exec

open Scallop.Ram Scallop.Plan

variable {F T W I O : Type}

/-- Facts by the relation they are given for. -/
abbrev Given (F I : Type) := String → Fact F I → Prop

/-- No facts. -/
def Given.none : Given F I := fun _ _ => False

/-- With some facts for one relation. -/
def Given.add (G : Given F I) (r : String) (fs : List (Fact F I)) : Given F I := fun q f => G q f ∨ (q = r ∧ f ∈ fs)

/-- With the facts of a program. -/
def Given.program (G : Given F I) (P : Compiled F I) : Given F I := fun q f => G q f ∨ (q ∈ P.relations ∧ f ∈ P.facts q)

/-- All of the facts of one are facts of the other. -/
def Given.le (G H : Given F I) : Prop := ∀ r f, G r f → H r f

/-- The tuples of the facts, in internal form. -/
def Given.tuples (b : Boundary F T I O) (G : Given F I) : Interp (Tup (Val F)) := fun r t => ∃ f, G r f ∧ b.intern f.2 = some t

/-- Reading some relations, one after the other. -/
def Ctx.readAll (b : Boundary F T I O) (s : Ctx F T I O) : List String → Ctx F T I O
  | [] => s
  | r :: rs => (s.read b r).1.readAll b rs

/-- Addition of tags does not depend on order and repetition. -/
structure Idempotent (c : Prov T W) : Prop where
  assoc : ∀ x y z, c.add (c.add x y) z = c.add x (c.add y z)
  comm : ∀ x y, c.add x y = c.add y x
  idem : ∀ x, c.add x x = x

variable [LinearOrder (Val F)] [LinearOrder W]

/-- The histories of a context, with what it has been given. Runs that succeed are runs with incremental maintenance. -/
inductive Reach (c : Prov T W) (b : Boundary F T I O) : Ctx F T I O → Given F I → Given F I → Prop where
  | new (incremental retain) : Reach c b (Ctx.new incremental retain) .none .none
  | withProgram (incremental retain check types P) : Reach c b (Ctx.withProgram incremental retain check types P) .none .none
  | add {s s' lo hi} (type check r fs) : Reach c b s lo hi → s.addTyped type check r fs = (s', true) → Reach c b s' (lo.add r fs) (hi.add r fs)
  | refused {s s' lo hi} (type check r fs) : Reach c b s lo hi → s.addTyped type check r fs = (s', false) → Reach c b s' lo hi
  | insert {s lo hi e} (r fs) : Reach c b s lo hi → s.edb.addDynamic r fs = some e → Reach c b { s with edb := e } (lo.add r fs) (hi.add r fs)
  | read {s lo hi} (r) : Reach c b s lo hi → Reach c b (s.read b r).1 lo hi
  | run {s s' lo hi} (R fuel new) : Reach c b s lo hi → s.incremental = true →
      (∀ r ∈ (new.getD s.program).relations, ((new.getD s.program).decl r).indexed = false) →
      s.execute c R b fuel new = .done (s', true) → Reach c b s' (lo.program (new.getD s.program)) (hi.program (new.getD s.program))
  | failed {s s' lo hi} (R fuel new) : Reach c b s lo hi →
      (∀ r ∈ (new.getD s.program).relations, ((new.getD s.program).decl r).indexed = false) →
      s.execute c R b fuel new = .done (s', false) → Reach c b s' lo (hi.program (new.getD s.program))

end Scallop.Exec
