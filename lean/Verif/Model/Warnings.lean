import Verif.Model.Boundness

/-!
# Warnings about relations that nothing computes, and the check of wildcards

Models `/repo/core/src/compiler/front/analyzers/head_relation.rs` with the part of `compile.rs` (204-331) that keeps its results from one
compilation to the next, and `analyzers/invalid_wildcard.rs`.
-/

namespace Scallop.Warn

/-- Models `NodeLocation` (`ast/utils.rs` 33-48): the number of a source, and where in it (the offset stands for the span). -/
structure Place where
  source : Nat
  offset : Option Nat
deriving DecidableEq, Repr

/-- Models `NodeLocation::default()`, which nodes made by transformations have (`astnode-derive/src/lib.rs` 380). -/
def Place.none : Place := ⟨0, Option.none⟩

/-- The items of a source (`ast/item.rs`), with the names of relations and the places of atoms only. The atoms of a rule are those of its body
after the transformations, in the order in which they are walked. A rule with a conjunction of heads is, after the transformations, several rules
behind all others. Items that name no relation are left out. -/
inductive Item where
  | types (rs : List String)
  | fact (r : String) (at_ : Place)
  | set (r : String)
  | rule (heads atoms : List (String × Place))
  | query (r : String) (at_ : Place)
  | queryAtom (text r : String) (at_ : Place)
deriving DecidableEq

/-- Models `TransformAtomicQuery::visit_mut` (`atomic_query.rs` 35-78) and `drain_items` (20-31): a query of an atom becomes a query of a relation
with the text of the atom as its name, and a rule for that relation is added. -/
def Item.transformed : Item → Item
  | .queryAtom text _ _ => .query text .none
  | i => i

/-- The rule that is added. -/
def Item.added : Item → List Item
  | .queryAtom text r _ => [.rule [(text, .none)] [(r, .none)]]
  | _ => []

/-- Models what `apply_transformations` does to the queries (`transform.rs` 79-99). -/
def transform (items : List Item) : List Item := items.map Item.transformed ++ items.flatMap Item.added

/-- Models the fields of `HeadRelationAnalysis` (`head_relation.rs` 8-13) but the errors, which are drained (`analysis.rs` 114). `used` is a map;
here it is a list with one entry per key. -/
structure State where
  used : List (String × Place)
  declared : List String
deriving DecidableEq

/-- Models `HashMap::insert`. -/
def insertUse (l : List (String × Place)) (u : String × Place) : List (String × Place) := l.filter (fun v => v.1 ≠ u.1) ++ [u]

/-- Models the visitors of relation types, facts, sets and rules (`head_relation.rs` 45-71): what they add to `declared_relations`. -/
def Item.declares : Item → List String
  | .types rs => rs
  | .fact r _ => [r]
  | .set r => [r]
  | .rule heads _ => heads.map Prod.fst
  | .query _ _ | .queryAtom _ _ _ => []

/-- Models the visitors of queries and atoms (73-87). The head of a rule and a fact are atoms too. -/
def Item.uses : Item → List (String × Place)
  | .types _ | .set _ => []
  | .fact r l => [(r, l)]
  | .rule heads atoms => heads ++ atoms
  | .query r l => [(r, l)]
  | .queryAtom text r l => [(text, l), (r, l)]

/-- Models walking one item. -/
def State.visit (s : State) (i : Item) : State := ⟨i.uses.foldl insertUse s.used, s.declared ++ i.declares⟩

/-- Models `compute_errors` (32-43). The code goes through a set, in no particular order. -/
def State.warnings (s : State) : List (String × Place) :=
  s.used.filter (fun u => !s.declared.contains u.1 && !u.1.toList.contains '#')

/-- A source: the sources it imports, its items, and whether all the other analyses accept it. One of them rejects a query of a relation that is in no rule,
fact or declaration (`type_inference.rs` 255-263). -/
inductive Src where
  | mk (imports : List Src) (items : List Item) (accepted : Bool)

mutual
/-- Models `compile_source_with_parser_and_annotator` (`compile.rs` 204-331): imports are compiled in a copy of the context, in order
(`process_imports`, 333-354), each printing its warnings; then the items are transformed and analysed; the warnings are printed if there is no error.
`none` is an error, which leaves the context as it was. Cycles of imports are not modelled. -/
def Src.compile : Src → State → Option State × List (String × Place)
  | .mk imports items accepted, s =>
    match compileImports imports s with
    | (none, printed) => (none, printed)
    | (some s₁, printed) =>
      let s₂ := (transform items).foldl State.visit s₁
      if accepted then (some s₂, printed ++ s₂.warnings) else (none, printed)
/-- Models `process_imports` (`compile.rs` 333-354). -/
def compileImports : List Src → State → Option State × List (String × Place)
  | [], s => (some s, [])
  | i :: is, s =>
    match i.compile s with
    | (none, printed) => (none, printed)
    | (some s₁, printed) => ((compileImports is s₁).1, printed ++ (compileImports is s₁).2)
end

/-- What a user does with a context. -/
inductive Event where
  | register (r : String)
  | compile (src : Src)

/-- Models `register_foreign_predicate` (`compile.rs` 105-134, `head_relation.rs` 28-30) and compilation, which replaces the context only if
nothing goes wrong (`compile.rs` 326-327). -/
def Event.step (s : State) : Event → State
  | .register r => ⟨s.used, s.declared ++ [r]⟩
  | .compile src => (src.compile s).1.getD s

/-- Models `HeadRelationAnalysis::new` (`head_relation.rs` 16-26) with the predicates of the registry, and what follows. -/
def run (registry : List String) (es : List Event) : State := es.foldl Event.step ⟨[], registry⟩

end Scallop.Warn

namespace Scallop.Front

variable {F : Type}

/-- Models `check_expr` (`invalid_wildcard.rs` 13-20). -/
def FExpr.check (position : String) : FExpr F → List String
  | .wild => [position]
  | _ => []

mutual
/-- Models walking an expression with the visitors of operators and conditionals (`invalid_wildcard.rs` 31-50). Nothing is checked at calls and
at `new`. -/
def FExpr.wildErrors : FExpr F → List String
  | .const _ | .var _ | .wild => []
  | .bin _ a b => a.check "binary expression" ++ (b.check "binary expression" ++ (a.wildErrors ++ b.wildErrors))
  | .un _ a => a.check "unary expression" ++ a.wildErrors
  | .ite c t e =>
    c.check "if-then-else expression" ++ (t.check "if-then-else expression" ++ (e.check "if-then-else expression" ++
      (c.wildErrors ++ (t.wildErrors ++ e.wildErrors))))
  | .call _ args => FExpr.wildErrorsAll args
  | .new _ args => FExpr.wildErrorsAll args
/-- The same for a list. -/
def FExpr.wildErrorsAll : List (FExpr F) → List String
  | [] => []
  | e :: es => e.wildErrors ++ FExpr.wildErrorsAll es
end

mutual
/-- Walking a pattern. -/
def Entity.exprs : Entity F → List (FExpr F)
  | .expr e => [e]
  | .object _ args => Entity.exprsAll args
/-- The same for a list. -/
def Entity.exprsAll : List (Entity F) → List (FExpr F)
  | [] => []
  | e :: es => e.exprs ++ Entity.exprsAll es
end

mutual
/-- Walking a formula reaches these expressions, in this order. -/
def Formula.exprs : Formula F → List (FExpr F)
  | .atom _ args | .neg _ args => args
  | .case _ e => e.exprs
  | .disj fs | .conj fs => Formula.exprsAll fs
  | .implies l r => l.exprs ++ r.exprs
  | .constraint e => [e]
  | .reduce _ _ _ _ body _ gb => body.exprs ++ Formula.exprsAll gb
  | .quant _ _ _ _ body _ gb => body.exprs ++ Formula.exprsAll gb
  | .range _ lo hi _ => [lo, hi]
/-- The same for a list. -/
def Formula.exprsAll : List (Formula F) → List (FExpr F)
  | [] => []
  | f :: fs => f.exprs ++ Formula.exprsAll fs
end

/-- Models `RuleHead::iter_args` (`ast/rule.rs` 49-55). -/
def FHead.args : FHead F → List (FExpr F)
  | .atom _ args => args
  | .conj as | .disj as => as.flatMap Prod.snd

/-- Models walking a rule (`invalid_wildcard.rs` 23-29, then its expressions). -/
def FRule.wildErrors (r : FRule F) : List String :=
  r.head.args.flatMap (FExpr.check "head of rule") ++ (FExpr.wildErrorsAll r.head.args ++ FExpr.wildErrorsAll r.body.exprs)

end Scallop.Front
