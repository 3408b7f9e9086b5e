import Verif.Model.Front
import Verif.Spec.Back

/-!
# What surface formulas and rules mean

A database says which facts are true (predicates computed by foreign code included). A formula is true or false under an assignment of
values to variables; an expression may have no value (division undefined, and so on), or, for the wildcard, any value.
-/

namespace Scallop.Front

open Scallop.Back (Term Atom AExpr COp Lit Head Rule)

variable {F : Type}

/-- The facts that are true. -/
abbrev DB (F : Type) := String → List (Val F) → Prop

/-- What aggregates other than `exists` and `forall` compute: operator, values of the result variables (`none` for `_`), values of the
arguments, and the set of values of the bindings satisfying the body. -/
abbrev Aggs (F : Type) := String → List (Option (Val F)) → List (Val F) → (List (Val F) → Prop) → Prop

/-- Pointwise relation between lists (of the same length). -/
def All₂ {α β : Type} (R : α → β → Prop) : List α → List β → Prop
  | [], [] => True
  | a :: as, b :: bs => R a b ∧ All₂ R as bs
  | _, _ => False

mutual
/-- The expression can take the value `v`. -/
def FExpr.EvalsTo (X : Ext F) (σ : Name → Val F) : FExpr F → Val F → Prop
  | .const c, v => v = c
  | .var x, v => v = σ x
  | .wild, _ => True
  | .bin op a b, v => ∃ x y, a.EvalsTo X σ x ∧ b.EvalsTo X σ y ∧ evalBin X .run op x y = .ok v
  | .un op a, v => ∃ x, a.EvalsTo X σ x ∧ evalUn X .run op x = .ok v
  | .ite c t e, v => ∃ b x y, c.EvalsTo X σ (.bool b) ∧ t.EvalsTo X σ x ∧ e.EvalsTo X σ y ∧ v = if b then x else y
  | .call f args, v => ∃ xs, FExpr.AllEvalTo X σ args xs ∧ X.call f xs = .ok v
  | .new f args, v => ∃ xs, FExpr.AllEvalTo X σ args xs ∧ v = .entity (X.encode ("adt#" ++ f) xs)
/-- Each expression can take the corresponding value. -/
def FExpr.AllEvalTo (X : Ext F) (σ : Name → Val F) : List (FExpr F) → List (Val F) → Prop
  | [], vs => vs = []
  | e :: es, vs => ∃ w ws, vs = w :: ws ∧ e.EvalsTo X σ w ∧ FExpr.AllEvalTo X σ es ws
end

mutual
/-- The value `v` is an entity of the database that has the shape of the pattern. -/
def Entity.Matches (X : Ext F) (D : DB F) (σ : Name → Val F) : Entity F → Val F → Prop
  | .expr e, v => e.EvalsTo X σ v
  | .object f as, v => ∃ vs, Entity.AllMatch X D σ as vs ∧ D ("adt#" ++ f) (v :: vs)
/-- Each value has the shape of the corresponding pattern. -/
def Entity.AllMatch (X : Ext F) (D : DB F) (σ : Name → Val F) : List (Entity F) → List (Val F) → Prop
  | [], vs => vs = []
  | e :: es, vs => ∃ w ws, vs = w :: ws ∧ e.Matches X D σ w ∧ Entity.AllMatch X D σ es ws
end

/-- `τ` gives the variables in `V`, except those bound, the same values as `σ`. -/
def AgreeOn (V : Name → Prop) (bound : List Name) (σ τ : Name → Val F) : Prop := ∀ x, V x → x ∉ bound → τ x = σ x

/-- Truth of a formula. A negated atom is true when its arguments have values and the fact is not there. `V` are the variables shared between an aggregate and what is around it; the other variables of an aggregate
are local to it. -/
def Formula.Holds (X : Ext F) (D : DB F) (G : Aggs F) : (Name → Prop) → (Name → Val F) → Formula F → Prop
  | _, σ, .atom p args => ∃ vs, FExpr.AllEvalTo X σ args vs ∧ D p vs
  | _, σ, .neg p args => (∃ vs, FExpr.AllEvalTo X σ args vs) ∧ ¬ ∃ vs, FExpr.AllEvalTo X σ args vs ∧ D p vs
  | _, σ, .case v e => e.Matches X D σ (σ v)
  | V, σ, .disj fs => anyHolds V σ fs
  | V, σ, .conj fs => allHold V σ fs
  | V, σ, .implies l r => l.Holds X D G V σ → r.Holds X D G V σ
  | _, σ, .constraint e => e.EvalsTo X σ (.bool true)
  | V, σ, .reduce left op args bindings body _ gb =>
    allHold V σ gb ∧
    (if op = "exists" ∧ left.length = 1 then
      ∀ r ∈ left, ∀ b, r = some b → ∃ t : Bool, σ b = .bool t ∧
        (t = true ↔ ∃ τ, AgreeOn V bindings σ τ ∧ body.Holds X D G (fun x => V x ∨ x ∈ bindings) τ)
    else if op = "forall" ∧ left.length = 1 then
      ∀ r ∈ left, ∀ b, r = some b → ∃ t : Bool, σ b = .bool t ∧
        (t = true ↔ ∀ τ, AgreeOn V bindings σ τ → body.Holds X D G (fun x => V x ∨ x ∈ bindings) τ)
    else
      G op (left.map (Option.map σ)) (args.map σ)
        (fun vs => ∃ τ, AgreeOn V bindings σ τ ∧ bindings.map τ = vs ∧ body.Holds X D G (fun x => V x ∨ x ∈ bindings) τ))
  | V, σ, .quant _ negated op bindings body _ gb =>
    allHold V σ gb ∧
    (if op = "exists" then
      ((∃ τ, AgreeOn V bindings σ τ ∧ body.Holds X D G (fun x => V x ∨ x ∈ bindings) τ) ↔ negated = false)
    else if op = "forall" then
      ((∀ τ, AgreeOn V bindings σ τ → body.Holds X D G (fun x => V x ∨ x ∈ bindings) τ) ↔ negated = false)
    else False)
  | _, σ, .range x lo hi inclusive =>
    ∃ a b c, lo.EvalsTo X σ (.int .i32 a) ∧ hi.EvalsTo X σ (.int .i32 b) ∧ σ x = .int .i32 c ∧
      a ≤ c ∧ (if inclusive then c ≤ b else c < b)
where
  /-- Some formula of the list is true. -/
  anyHolds (V : Name → Prop) (σ : Name → Val F) : List (Formula F) → Prop
    | [] => False
    | f :: fs => f.Holds X D G V σ ∨ anyHolds V σ fs
  /-- All formulas of the list are true. -/
  allHold (V : Name → Prop) (σ : Name → Val F) : List (Formula F) → Prop
    | [] => True
    | f :: fs => f.Holds X D G V σ ∧ allHold V σ fs

mutual
/-- All the variables of an expression satisfy `P`. -/
def FExpr.NamesIn (P : Name → Prop) : FExpr F → Prop
  | .const _ => True
  | .var x => P x
  | .wild => True
  | .bin _ a b => a.NamesIn P ∧ b.NamesIn P
  | .un _ a => a.NamesIn P
  | .ite c t e => c.NamesIn P ∧ t.NamesIn P ∧ e.NamesIn P
  | .call _ args => FExpr.AllNamesIn P args
  | .new _ args => FExpr.AllNamesIn P args
/-- The same for a list. -/
def FExpr.AllNamesIn (P : Name → Prop) : List (FExpr F) → Prop
  | [] => True
  | e :: es => e.NamesIn P ∧ FExpr.AllNamesIn P es
end

mutual
/-- All the variables of a pattern satisfy `P`. -/
def Entity.NamesIn (P : Name → Prop) : Entity F → Prop
  | .expr e => e.NamesIn P
  | .object _ as => Entity.AllNamesIn P as
/-- The same for a list. -/
def Entity.AllNamesIn (P : Name → Prop) : List (Entity F) → Prop
  | [] => True
  | e :: es => e.NamesIn P ∧ Entity.AllNamesIn P es
end

/-- All the variables of a formula satisfy `P`. -/
def Formula.NamesIn (P : Name → Prop) : Formula F → Prop
  | .atom _ args => FExpr.AllNamesIn P args
  | .neg _ args => FExpr.AllNamesIn P args
  | .case v e => P v ∧ e.NamesIn P
  | .disj fs => allNamesIn fs
  | .conj fs => allNamesIn fs
  | .implies l r => l.NamesIn P ∧ r.NamesIn P
  | .constraint e => e.NamesIn P
  | .reduce left _ args bindings body gv gb =>
    (∀ b, some b ∈ left → P b) ∧ (∀ x ∈ args, P x) ∧ (∀ x ∈ bindings, P x) ∧ body.NamesIn P ∧ (∀ x ∈ gv, P x) ∧ allNamesIn gb
  | .quant _ _ _ bindings body gv gb => (∀ x ∈ bindings, P x) ∧ body.NamesIn P ∧ (∀ x ∈ gv, P x) ∧ allNamesIn gb
  | .range x lo hi _ => P x ∧ lo.NamesIn P ∧ hi.NamesIn P
where
  /-- The same for a list. -/
  allNamesIn : List (Formula F) → Prop
    | [] => True
    | f :: fs => f.NamesIn P ∧ allNamesIn fs

/-- A variable users can write. -/
def Name.IsUser : Name → Prop
  | .user _ => True
  | _ => False

/-- Arguments that have values whatever the values of the variables. -/
def TotalArgs (X : Ext F) (args : List (FExpr F)) : Prop := ∀ σ, ∃ vs, FExpr.AllEvalTo X σ args vs

/-- A combination of atoms and negated atoms, all of whose arguments always have values: what can be negated. -/
def Formula.Total (X : Ext F) : Formula F → Prop
  | .atom _ args => TotalArgs X args
  | .neg _ args => TotalArgs X args
  | .disj fs => allTotal fs
  | .conj fs => allTotal fs
  | .implies l r => l.Total X ∧ r.Total X
  | _ => True
where
  /-- The same for a list. -/
  allTotal : List (Formula F) → Prop
    | [] => True
    | f :: fs => f.Total X ∧ allTotal fs

/-- A pattern without objects inside objects. -/
def Entity.Flat : Entity F → Prop
  | .expr _ => True
  | .object _ as => ∀ a ∈ as, ∃ e, a = .expr e

/-- The formula is an implication. -/
def Formula.IsImplies : Formula F → Prop
  | .implies _ _ => True
  | _ => False

/-- The formulas for which desugaring is claimed to be faithful: `forall` applies to an implication; what is negated always has a
value; the aggregates mention user variables only; the truth value `g n` is the one that the quantifier numbered `n` must have
(numbers are unique in a program); patterns are flat (nested patterns are treated apart); inclusive ranges end below the largest integer. -/
def Formula.Wf (X : Ext F) (g : Nat → Bool) : Formula F → Prop
  | .case _ e => e.Flat
  | .disj fs => allWf fs
  | .conj fs => allWf fs
  | .implies l r => l.Wf X g ∧ r.Wf X g ∧ l.Total X ∧ r.Total X
  | .reduce left op _ bindings body _ gb =>
    body.NamesIn Name.IsUser ∧ (∀ x ∈ bindings, x.IsUser) ∧ body.Wf X g ∧ allWf gb ∧
      (op = "forall" → left.length = 1 → (∃ b, left = [some b]) ∧ body.IsImplies)
  | .quant n negated op bindings body _ gb =>
    (negated = !g n) ∧ body.NamesIn Name.IsUser ∧ (∀ x ∈ bindings, x.IsUser) ∧ body.Wf X g ∧ allWf gb ∧
      (op = "exists" ∨ op = "forall" ∧ body.IsImplies)
  | .range _ _ hi inclusive =>
    inclusive = true → ∀ σ b, hi.EvalsTo X σ (.int .i32 b) → IntTy.i32.lo ≤ b ∧ b < IntTy.i32.hi
  | _ => True
where
  /-- The same for a list. -/
  allWf : List (Formula F) → Prop
    | [] => True
    | f :: fs => f.Wf X g ∧ allWf fs

/-- Built from atoms and negated atoms with `and`, `or` and `implies`: what the compiler can negate. -/
def Formula.Negatable : Formula F → Prop
  | .atom _ _ => True
  | .neg _ _ => True
  | .disj fs => allNegatable fs
  | .conj fs => allNegatable fs
  | .implies l r => l.Negatable ∧ r.Negatable
  | _ => False
where
  /-- The same for a list. -/
  allNegatable : List (Formula F) → Prop
    | [] => True
    | f :: fs => f.Negatable ∧ allNegatable fs

/-- Every implication is between formulas that the compiler can negate. -/
def Formula.Accepted : Formula F → Prop
  | .disj fs => allAccepted fs
  | .conj fs => allAccepted fs
  | .implies l r => l.Negatable ∧ r.Negatable ∧ l.Accepted ∧ r.Accepted
  | .reduce _ _ _ _ body _ gb => body.Accepted ∧ allAccepted gb
  | .quant _ _ _ _ body _ gb => body.Accepted ∧ allAccepted gb
  | _ => True
where
  /-- The same for a list. -/
  allAccepted : List (Formula F) → Prop
    | [] => True
    | f :: fs => f.Accepted ∧ allAccepted fs

/-- No empty conjunction or disjunction outside aggregates (the grammar has none). -/
def Formula.NonEmpty : Formula F → Prop
  | .disj fs => fs ≠ [] ∧ allNonEmpty fs
  | .conj fs => fs ≠ [] ∧ allNonEmpty fs
  | .implies l r => l.NonEmpty ∧ r.NonEmpty
  | _ => True
where
  /-- The same for a list. -/
  allNonEmpty : List (Formula F) → Prop
    | [] => True
    | f :: fs => f.NonEmpty ∧ allNonEmpty fs

/-- All the literals of a conjunction are true. -/
def ConjCtx.Holds (X : Ext F) (D : DB F) (G : Aggs F) (V : Name → Prop) (σ : Name → Val F) (c : ConjCtx F) : Prop :=
  ∀ l ∈ c.pos ++ c.neg ++ c.agg, l.Holds X D G V σ

mutual
/-- The expression has no wildcard. -/
def FExpr.NoWild : FExpr F → Prop
  | .const _ => True
  | .var _ => True
  | .wild => False
  | .bin _ a b => a.NoWild ∧ b.NoWild
  | .un _ a => a.NoWild
  | .ite c t e => c.NoWild ∧ t.NoWild ∧ e.NoWild
  | .call _ args => FExpr.AllNoWild args
  | .new _ args => FExpr.AllNoWild args
/-- The same for a list. -/
def FExpr.AllNoWild : List (FExpr F) → Prop
  | [] => True
  | e :: es => e.NoWild ∧ FExpr.AllNoWild es
end

/-- Each argument is a wildcard, or has no wildcard inside. -/
def PlainArgs (args : List (FExpr F)) : Prop := ∀ e ∈ args, e = .wild ∨ e.NoWild

/-- Wildcards occur in atoms as arguments, not inside them; aggregates, patterns and ranges apart. -/
def Formula.Plain : Formula F → Prop
  | .atom _ args => PlainArgs args
  | .neg _ args => PlainArgs args
  | .disj fs => allPlain fs
  | .conj fs => allPlain fs
  | .implies l r => l.Plain ∧ r.Plain
  | _ => True
where
  /-- The same for a list. -/
  allPlain : List (Formula F) → Prop
    | [] => True
    | f :: fs => f.Plain ∧ allPlain fs

/-- A variable that flattening does not make. -/
def Name.IsSource : Name → Prop
  | .flat _ => False
  | .wc _ => False
  | _ => True

/-- The predicate `range` on 32-bit integers is the half-open interval (what `RangeBBF` enumerates, C41). -/
def RangeDB (D : DB F) : Prop :=
  ∀ vs, D "range#i32" vs ↔ ∃ a b c, vs = [.int .i32 a, .int .i32 b, .int .i32 c] ∧ a ≤ c ∧ c < b

/-- The facts a rule `p(args) = body` derives. The variables shared with the aggregates of the body are given by `V`. -/
def Derives (X : Ext F) (D : DB F) (G : Aggs F) (V : Name → Prop) (args : List (FExpr F)) (body : Formula F) (vs : List (Val F)) : Prop :=
  ∃ σ, body.Holds X D G V σ ∧ FExpr.AllEvalTo X σ args vs

/-- Truth of a literal of a back rule. The variables made for wildcards range over all values inside a negated atom. -/
def LitHolds (X : Ext F) (D : DB F) (G : Aggs F) (V : Name → Prop) (σ : Name → Val F) : Lit Name F (Formula F) → Prop
  | .atom a => D a.predicate (a.args.map (Term.val σ))
  | .neg a => ¬ ∃ τ : Name → Val F, (∀ x, (∀ n, x ≠ .wc n) → τ x = σ x) ∧ D a.predicate (a.args.map (Term.val τ))
  | .assign x e => e.val X σ = .ok (σ x)
  | .cbin op a b => evalBin X .run op.toBin (a.val σ) (b.val σ) = .ok (.bool true)
  | .cnot a => evalUn X .run .not (a.val σ) = .ok (.bool true)
  | .reduce f _ => f.Holds X D G V σ
  | .tt => True
  | .ff => False

/-- The facts a list of back rules derives when the marked literals are left out. -/
def BackDerives (X : Ext F) (D : DB F) (G : Aggs F) (V : Name → Prop) (rs : List (FBack F)) (p : String) (vs : List (Val F)) : Prop :=
  ∃ r ∈ rs, ∃ σ, (∀ l ∈ r.body, l.hint = false → LitHolds X D G V σ l.lit) ∧ r.head.predicate = p ∧ r.head.args.map (Term.val σ) = vs

end Scallop.Front
