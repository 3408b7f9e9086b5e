import Verif.Model.Constants

/-!
# What constants and enumerations mean

The names an item declares; the numbers of the members of an enumeration; when a program is correct; and the value of a constant: that of
its term with the declarations put in for the names.
-/

namespace Scallop.Consts

open Ty Ent

variable {F : Type}

/-- The names that an item declares. -/
def Item.names : Item F → List String
  | .const x _ _ => [x]
  | .enum ms => ms.map Prod.fst
  | _ => []

/-- The variables of an item. -/
def Item.vars : Item F → List Occ
  | .set vs => vs
  | .fact vs _ => vs
  | .other vs _ => vs
  | _ => []

/-- One more than the number before, or 0 for the first. -/
def after : Option Int → Int
  | some m => m + 1
  | none => 0

/-- The numbers of the members: a number that is given must be greater than the one before it; a member with no number, or none from 0 on,
gets the next one. -/
inductive Numbered : Option Int → List (String × Option (Const F)) → List Int → Prop
  | nil {prev} : Numbered prev [] []
  | given {prev x i ms vs} : 0 ≤ i → (∀ p, prev = some p → p < i) → Numbered (some i) ms vs → Numbered prev ((x, some (.int i)) :: ms) (i :: vs)
  | free {prev m ms vs} : (∀ i, m.2 = some (.int i) → i < 0) → Numbered (some (after prev)) ms vs → Numbered prev (m :: ms) (after prev :: vs)

/-- The numbers given to members are far enough from the end of 64 bits. -/
def Item.InRange : Item F → Prop
  | .enum ms => ms.length < 2 ^ 62 ∧ ∀ x i, (x, some (.int i)) ∈ ms → i < 2 ^ 62
  | _ => True

mutual
/-- Every part of a term is a constant or one of the names. -/
def Over (names : List String) : Term F → Prop
  | .const _ _ => True
  | .var x => x ∈ names
  | .other => False
  | .obj _ args _ => OverAll names args
/-- The arguments. -/
def OverAll (names : List String) : List (Term F) → Prop
  | [] => True
  | a :: as => Over names a ∧ OverAll names as
end

/-- An item is correct after items that declare the names `earlier`. -/
def Item.Ok (earlier : List String) : Item F → Prop
  | .const x _ t => x ∉ earlier ∧ Over earlier t
  | .enum ms => (ms.map Prod.fst).Nodup ∧ (∀ x ∈ ms.map Prod.fst, x ∉ earlier) ∧ ∃ vs, Numbered none ms vs
  | .set vs => ∀ o ∈ vs, o.name ∈ earlier
  | .fact vs destruct => destruct = true ∨ ∀ o ∈ vs, o.name ∈ earlier
  | .other _ bs => ∀ b ∈ bs, b ∉ earlier

/-- Every item is correct after those before it. -/
def ProgramOk (items : List (Item F)) : Prop := ∀ pre i post, items = pre ++ i :: post → i.Ok (pre.flatMap Item.names)

/-- A declaration of a name: its term, or the number of a member of an enumeration. -/
inductive Declares (items : List (Item F)) : String → Term F → Prop
  | const {x ty t} : Item.const x ty t ∈ items → Declares items x t
  | enum {ms vs x c v} {k : Nat} : Item.enum ms ∈ items → Numbered none ms vs → ms[k]? = some (x, c) → vs[k]? = some v →
      Declares items x (.const (.int v) ⟨0, 0, 0⟩)

mutual
/-- `Unfolds D t t'`: `t'` is `t` with all names replaced by what they are declared to be. -/
inductive Unfolds (D : String → Term F → Prop) : Term F → Term F → Prop
  | const {c l} : Unfolds D (.const c l) (.const c l)
  | var {x t t'} : D x t → Unfolds D t t' → Unfolds D (.var x) t'
  | obj {f args args' l} : UnfoldsAll D args args' → Unfolds D (.obj f args l) (.obj f args' l)
/-- The same for arguments. -/
inductive UnfoldsAll (D : String → Term F → Prop) : List (Term F) → List (Term F) → Prop
  | nil : UnfoldsAll D [] []
  | cons {a a' as as'} : Unfolds D a a' → UnfoldsAll D as as' → UnfoldsAll D (a :: as) (a' :: as')
end

/-- The value of a term, with its place and facts: that of the term without names that it stands for. -/
def ValueOf (h : Hash F) (items : List (Item F)) (t : Term F) (c : Const F × Ent.Loc) (facts : List (CFact F)) : Prop :=
  ∃ t', Unfolds (Declares items) t t' ∧ t'.toFacts h (fun _ => none) = .ok (c, facts)

end Scallop.Consts
