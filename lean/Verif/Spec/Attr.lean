import Verif.Model.Attr

/-!
# What attributes say
-/

namespace Scallop.Attr

/-- The attributes written on a declaration. -/
def Item.attrs : Item → List Attribute
  | .types attrs _ => attrs
  | .set attrs _ => attrs
  | .fact attrs _ _ _ => attrs
  | .rule attrs _ => attrs
  | .reduce attrs _ _ => attrs

/-- The relations a declaration declares or defines. -/
def Item.preds : Item → List String
  | .types _ rels => rels.map (·.pred)
  | .set _ p => [p]
  | .fact _ p _ _ => [p]
  | .rule _ (.atom p _) => [p]
  | .rule _ (.conj as) => as.map (·.1)
  | .rule _ (.disj as) => as.map (·.1)
  | .reduce _ p _ => [p]

/-- A declaration has an attribute of a name. -/
def Item.Has (it : Item) (name : String) : Prop := ∃ a ∈ it.attrs, a.name = name

/-- The attribute is `@demand(s)`. -/
def Attribute.IsDemand (a : Attribute) (s : String) : Prop := a.name = "demand" ∧ a.posArgs = [.str s]

/-- A declaration says that relation `p` has the demand pattern `s`: with an attribute or, if it has no such attribute, with the words `bound` and `free` at the arguments. -/
inductive Demands : Item → String → String → Prop
  | attr {it p a s} : p ∈ it.preds → a ∈ it.attrs → a.IsDemand s → Demands it p s
  | adorned {attrs rels r} : (¬ ∃ a ∈ attrs, a.name = "demand") → r ∈ rels → (∃ x ∈ r.args, x ≠ none) →
      Demands (.types attrs rels) r.pred (String.ofList (r.args.map (fun a => if a = some .bound then 'b' else 'f')))

/-- A declaration that has no demand or has it where demands are read: at type declarations (with words at arguments only if a single relation is declared), rules for one relation, facts with an
argument to be computed and reduce rules with a known aggregate. -/
def Supported : Item → Prop
  | .types attrs rels => (∃ a ∈ attrs, a.name = "demand") ∨ rels.length ≤ 1 ∨ ∀ r ∈ rels, ∀ x ∈ r.args, x = none
  | .rule _ (.atom _ _) => True
  | .fact attrs _ _ constant => constant = false ∨ ¬ ∃ a ∈ attrs, a.name = "demand"
  | .reduce attrs _ outputs => outputs ≠ none ∨ ¬ ∃ a ∈ attrs, a.name = "demand"
  | it => ¬ it.Has "demand"

/-- The first attribute of a name that a declaration has. -/
def Item.First (it : Item) (name : String) (a : Attribute) : Prop := ∃ l r, it.attrs = l ++ a :: r ∧ a.name = name ∧ ∀ b ∈ l, b.name ≠ name

/-- The items whose schedulers are read: type declarations and rules. -/
def SchedulerRead : Item → Prop
  | .types _ _ => True
  | .rule _ _ => True
  | _ => False

/-- The items whose goals are read, with the arity they give to the relation. -/
inductive GoalRead : Item → String → Nat → Prop
  | types {attrs rels r} : r ∈ rels → (rels.length ≤ 1 ∨ (∀ x ∈ r.args, x = none) ∨ ∃ a ∈ attrs, a.name = "demand") → GoalRead (.types attrs rels) r.pred r.args.length
  | rule {attrs p n} : GoalRead (.rule attrs (.atom p n)) p n
  | fact {attrs p n} : GoalRead (.fact attrs p n false) p n
  | reduce {attrs p n} : GoalRead (.reduce attrs p (some n)) p n

end Scallop.Attr
