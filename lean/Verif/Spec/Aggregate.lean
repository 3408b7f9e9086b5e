import Verif.Model.Base
import Verif.Model.Tuple
import Mathlib.Data.List.Lex

/-!
# Possible worlds of tags

A set `Ω` of worlds and a relation telling in which worlds a tag is true. The operations on tags either respect truth exactly, or only in the
direction that never makes something true that is not (as top-k proofs do). `P` is a set of tags closed under the operations.
-/

namespace Scallop

variable {T W Ω α : Type*}

/-- No operation makes a tag true in a world where it should not be. -/
structure Prov.SoundIn (c : Prov T W) (P : T → Prop) (holds : T → Ω → Prop) : Prop where
  one_mem : P c.one
  add_mem : ∀ {a b}, P a → P b → P (c.add a b)
  mult_mem : ∀ {a b}, P a → P b → P (c.mult a b)
  negate_mem : ∀ {a n}, P a → c.negate a = some n → P n
  add : ∀ {a b w}, P a → P b → holds (c.add a b) w → holds a w ∨ holds b w
  mult : ∀ {a b w}, P a → P b → holds (c.mult a b) w → holds a w ∧ holds b w
  negate : ∀ {a n w}, P a → c.negate a = some n → holds n w → ¬ holds a w

/-- Tags have exactly the truth values of disjunction, conjunction and negation, and negation is defined. -/
structure Prov.ExactIn (c : Prov T W) (P : T → Prop) (holds : T → Ω → Prop) : Prop extends c.SoundIn P holds where
  one : ∀ w, holds c.one w
  add' : ∀ {a b w}, P a → P b → holds a w ∨ holds b w → holds (c.add a b) w
  mult' : ∀ {a b w}, P a → P b → holds a w → holds b w → holds (c.mult a b) w
  negate_total : ∀ {a}, P a → ∃ n, c.negate a = some n
  negate' : ∀ {a n w}, P a → c.negate a = some n → ¬ holds a w → holds n w

open Classical in
/-- The tuples true in a world, in the order of the list. -/
noncomputable def trueIn (holds : T → Ω → Prop) (w : Ω) (l : List (Elem α T)) : List α :=
  (l.filter (fun e => decide (holds e.tag w))).map Elem.tuple

/-- The same facts with their tuples written in another form. -/
def retuple {β : Type*} (g : α → β) (l : List (Elem α T)) : List (Elem β T) := l.map (fun e => ⟨g e.tuple, e.tag⟩)

/-- `a` is at least as extreme as `b`: not greater for a minimum, not smaller for a maximum. -/
def AsExtreme {κ : Type*} [LE κ] (isMin : Bool) (a b : κ) : Prop := if isMin then a ≤ b else b ≤ a

/-- How the compiler lays out a fact with arguments: arguments first, then what is compared. -/
def argTuple {V : Type*} (p : List (Tup V) × List (Tup V)) : Tup V := .tup (p.1 ++ p.2)

/-- What `argmin` and `argmax` return of a fact: the argument, or the tuple of the arguments if there are several. `min` and `max` return all
of it. -/
def argOut {V : Type*} (argOnly : Bool) (p : List (Tup V) × List (Tup V)) : Tup V :=
  if argOnly then (match p.1 with | [a] => a | l => .tup l) else argTuple p

/-- How a number with `n` arguments is laid out. -/
def numTuple (n : Nat) (p : List (Tup Int) × Int) : Tup Int := if n = 0 then .val p.2 else .tup (p.1 ++ [.val p.2])

/-- A fact with its key, as the compiler lays it out for grouping. -/
def keyTuple {V : Type*} (p : Tup V × Tup V) : Tup V := .tup [p.1, p.2]

/-- The facts with a given key, without the key, in order. -/
def factsOf {V : Type*} [DecidableEq (Tup V)] (k : Tup V) (l : List (Elem (Tup V × Tup V) T)) : List (Elem (Tup V) T) :=
  (l.filter (fun e => e.tuple.1 = k)).map (fun e => ⟨e.tuple.2, e.tag⟩)

end Scallop
