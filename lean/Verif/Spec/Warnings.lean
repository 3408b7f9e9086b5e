import Verif.Model.Warnings

/-!
# What the warnings about relations and the check of wildcards should say
-/

namespace Scallop.Warn

/-- The item has an atom of the relation, or asks for it. -/
def Item.Uses (r : String) : Item → Prop
  | .types _ | .set _ => False
  | .fact r' _ => r' = r
  | .rule heads atoms => r ∈ heads.map Prod.fst ∨ r ∈ atoms.map Prod.fst
  | .query r' _ => r' = r
  | .queryAtom _ r' _ => r' = r

/-- The item declares the type of the relation, has facts for it, or is a rule for it; a query of an atom computes the relation of its answers,
whose name is its text. -/
def Item.Computes (r : String) : Item → Prop
  | .types rs => r ∈ rs
  | .fact r' _ => r' = r
  | .set r' => r' = r
  | .rule heads _ => r ∈ heads.map Prod.fst
  | .query _ _ => False
  | .queryAtom text _ _ => text = r

/-- Something uses the relation, nothing computes it, and users can write its name. -/
def Missing (registered : List String) (items : List Item) (r : String) : Prop :=
  (∃ i ∈ items, i.Uses r) ∧ r ∉ registered ∧ (∀ i ∈ items, ¬ i.Computes r) ∧ '#' ∉ r.toList

mutual
/-- The items of a source and of what it imports, imports first, with whether the source itself is accepted. -/
def Src.parts : Src → List (List Item × Bool)
  | .mk imports items accepted => partsAll imports ++ [(items, accepted)]
/-- The same for a list. -/
def partsAll : List Src → List (List Item × Bool)
  | [] => []
  | i :: is => i.parts ++ partsAll is
end

/-- The items of the parts. -/
def itemsOf (ps : List (List Item × Bool)) : List Item := ps.flatMap Prod.fst

/-- The parts of all sources that were accepted with all their imports, in order. -/
def acceptedParts : List Event → List (List Item × Bool)
  | [] => []
  | .register _ :: es => acceptedParts es
  | .compile s :: es => (if s.parts.all Prod.snd then s.parts else []) ++ acceptedParts es

/-- Their items. -/
def accepted (es : List Event) : List Item := itemsOf (acceptedParts es)

/-- The atoms and queries of the parts with their places, in order; those of rules made for queries of atoms come last in their part. -/
def usesOf (ps : List (List Item × Bool)) : List (String × Place) := ps.flatMap (fun p => (transform p.1).flatMap Item.uses)

/-- The predicates that were registered. -/
def registered : List Event → List String
  | [] => []
  | .register r :: es => r :: registered es
  | .compile _ :: es => registered es

end Scallop.Warn

namespace Scallop.Front

variable {F : Type}

/-- An expression is in another one, at any depth. -/
inductive FExpr.In : FExpr F → FExpr F → Prop
  | refl (e) : FExpr.In e e
  | binl {e op a b} : FExpr.In e a → FExpr.In e (.bin op a b)
  | binr {e op a b} : FExpr.In e b → FExpr.In e (.bin op a b)
  | un {e op a} : FExpr.In e a → FExpr.In e (.un op a)
  | itec {e c t f} : FExpr.In e c → FExpr.In e (.ite c t f)
  | itet {e c t f} : FExpr.In e t → FExpr.In e (.ite c t f)
  | itef {e c t f} : FExpr.In e f → FExpr.In e (.ite c t f)
  | call {e g args a} : a ∈ args → FExpr.In e a → FExpr.In e (.call g args)
  | new {e g args a} : a ∈ args → FExpr.In e a → FExpr.In e (.new g args)

/-- A wildcard is an operand of the operator or conditional. -/
def FExpr.OperandWild : FExpr F → Prop
  | .bin _ a b => a = .wild ∨ b = .wild
  | .un _ a => a = .wild
  | .ite c t e => c = .wild ∨ t = .wild ∨ e = .wild
  | _ => False

/-- The expression is written in the pattern. -/
inductive Entity.Has (e : FExpr F) : Entity F → Prop
  | expr : Entity.Has e (.expr e)
  | object {g args a} : a ∈ args → Entity.Has e a → Entity.Has e (.object g args)

/-- The expression is written in the formula. -/
inductive Formula.Has (e : FExpr F) : Formula F → Prop
  | atom {p args} : e ∈ args → Formula.Has e (.atom p args)
  | neg {p args} : e ∈ args → Formula.Has e (.neg p args)
  | case {v t} : Entity.Has e t → Formula.Has e (.case v t)
  | disj {fs f} : f ∈ fs → Formula.Has e f → Formula.Has e (.disj fs)
  | conj {fs f} : f ∈ fs → Formula.Has e f → Formula.Has e (.conj fs)
  | premise {l r} : Formula.Has e l → Formula.Has e (.implies l r)
  | conclusion {l r} : Formula.Has e r → Formula.Has e (.implies l r)
  | constraint : Formula.Has e (.constraint e)
  | reduced {l o a b body gv gb} : Formula.Has e body → Formula.Has e (.reduce l o a b body gv gb)
  | reduceWhere {l o a b body gv gb g} : g ∈ gb → Formula.Has e g → Formula.Has e (.reduce l o a b body gv gb)
  | quantified {n ng o b body gv gb} : Formula.Has e body → Formula.Has e (.quant n ng o b body gv gb)
  | quantWhere {n ng o b body gv gb g} : g ∈ gb → Formula.Has e g → Formula.Has e (.quant n ng o b body gv gb)
  | lower {x hi i} : Formula.Has e (.range x e hi i)
  | upper {x lo i} : Formula.Has e (.range x lo e i)

/-- The expression is an argument of an atom of the head. -/
def FHead.Has (e : FExpr F) : FHead F → Prop
  | .atom _ args => e ∈ args
  | .conj as => ∃ a ∈ as, e ∈ a.2
  | .disj as => ∃ a ∈ as, e ∈ a.2

end Scallop.Front
