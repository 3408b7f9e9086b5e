import Mathlib.Data.List.Basic

/-!
# Attributes of declarations

Models the analyses of `@demand`, `@scheduler`, `@storage`, `@goal` and `@hidden` with the transformations that move attributes between declarations: `/repo/core/src/compiler/front/analyzers/
{demand_attr,scheduler_attr,storage_attr,goal_relation,hidden_relation}.rs`, `analysis.rs`, `transform.rs` and `f2b/attr.rs`. Hash maps are lists of pairs in which a key is inserted once. Locations and the
texts of messages are left out, as are bodies of rules.
-/

namespace Scallop.Attr

/-- Models `AttributeValue` (`ast/attr.rs` 35-39); other constants than strings, integers and booleans are only distinguished from those, as are tuples; of a list it is known which elements are strings. -/
inductive Value where
  | str (s : String)
  | int (i : Int)
  | bool (b : Bool)
  | constant
  | list (elems : List (Option String))
  | tuple
deriving DecidableEq

/-- Models `AttributeArg` (`ast/attr.rs` 106-109). -/
inductive Arg where
  | pos (v : Value)
  | kw (name : String) (v : Value)
deriving DecidableEq

/-- Models `Attribute` (`ast/attr.rs` 111-116). -/
structure Attribute where
  name : String
  args : List Arg
deriving DecidableEq

/-- Models `iter_pos_args` (`ast/attr.rs` 130-132). -/
def Attribute.posArgs (a : Attribute) : List Value := a.args.filterMap (fun x => match x with | .pos v => some v | .kw _ _ => none)

/-- Models `kw_arg` (`ast/attr.rs` 175-184). -/
def Attribute.kwArg (a : Attribute) (n : String) : Option Value := a.args.findSome? (fun x => match x with | .kw m v => if m = n then some v else none | .pos _ => none)

/-- Models `AttributesTrait::find` (`ast/attr.rs` 194-203). -/
def findAttr (attrs : List Attribute) (n : String) : Option Attribute := attrs.find? (fun a => a.name == n)

/-- Models `ArgTypeBindingAdornment` (`ast/type_decl.rs` 55-60). -/
inductive Adornment where
  | bound
  | free
deriving DecidableEq

/-- Models `RelationType` (`ast/type_decl.rs` 70-75); the types of the arguments are left out. -/
structure RelType where
  pred : String
  args : List (Option Adornment)
deriving DecidableEq

/-- Models `has_adornment` (`ast/type_decl.rs` 87-89). -/
def RelType.hasAdornment (r : RelType) : Bool := r.args.any Option.isSome

/-- Models `demand_pattern` (`ast/type_decl.rs` 91-100). -/
def RelType.pattern (r : RelType) : String := String.ofList (r.args.map (fun a => if a = some .bound then 'b' else 'f'))

/-- Models `RuleHead` (`ast/rule.rs` 3-30): atoms are a predicate and the number of arguments. -/
inductive Head where
  | atom (p : String) (n : Nat)
  | conj (atoms : List (String × Nat))
  | disj (atoms : List (String × Nat))
deriving DecidableEq

/-- Models `iter_predicates` (`ast/rule.rs` 41-47). -/
def Head.preds : Head → List String
  | .atom p _ => [p]
  | .conj as => as.map (·.1)
  | .disj as => as.map (·.1)

/-- Models the items with attributes: `RelationTypeDecl` (`ast/type_decl.rs` 120-125), `ConstantSetDecl`, `FactDecl`, `RuleDecl`, `ReduceRuleDecl` (`ast/relation_decl.rs`). Of a fact it is known whether all
arguments are constants, of a reduce rule the number of outputs of its aggregate if that can be inferred. -/
inductive Item where
  | types (attrs : List Attribute) (rels : List RelType)
  | set (attrs : List Attribute) (p : String)
  | fact (attrs : List Attribute) (p : String) (n : Nat) (constant : Bool)
  | rule (attrs : List Attribute) (h : Head)
  | reduce (attrs : List Attribute) (p : String) (outputs : Option Nat)

/-- Models `generate_demand_attribute` (`transformations/desugar_arg_type_anno.rs` 15-21). -/
def demandAttr (r : RelType) : Attribute := ⟨"demand", [.pos (.str r.pattern)]⟩

/-- Models `DesugarArgTypeAdornment::visit_mut` (`desugar_arg_type_anno.rs` 45-63). The items pushed to `new_items` are never read (`transform.rs` 77-80). A declaration without relations cannot be parsed. -/
def desugarTypes (attrs : List Attribute) (rels : List RelType) : Item :=
  if (findAttr attrs "demand").isSome then .types attrs rels
  else if rels.length > 1 then .types attrs (rels.filter (fun r => !r.hasAdornment))
  else match rels with
    | r :: _ => if r.hasAdornment then .types (attrs ++ [demandAttr r]) rels else .types attrs rels
    | [] => .types attrs rels

/-- Models what `apply_transformations` (`transform.rs` 36-89) does in place: `desugar_arg_type_anno.rs`, `non_constant_fact_to_rule.rs` 27-97 and `desugar_reduce_rule.rs` 19-80; rules with
conjunctive heads are removed (`conjunctive_head.rs` 19-31). -/
def transformItem : Item → Option Item
  | .types attrs rels => some (desugarTypes attrs rels)
  | .set attrs p => some (.set attrs p)
  | .fact attrs p n constant => some (if constant then .fact attrs p n constant else .rule attrs (.atom p n))
  | .rule _ (.conj _) => none
  | .rule attrs h => some (.rule attrs h)
  | .reduce attrs p (some n) => some (.rule attrs (.atom p n))
  | .reduce attrs p none => some (.reduce attrs p none)

/-- Models the rules made from a conjunctive head (`conjunctive_head.rs` 38-57): they have no attributes. -/
def newItems : Item → List Item
  | .rule _ (.conj as) => as.map (fun a => .rule [] (.atom a.1 a.2))
  | _ => []

/-- Models `apply_transformations` (`transform.rs` 36-89). -/
def transform (items : List Item) : List Item := items.filterMap transformItem ++ items.flatMap newItems

/-! ### Demands -/

/-- Models `DemandAttributeError` (`demand_attr.rs` 150-182). -/
inductive DemandErr where
  | numArgs
  | argType
  | conflict
  | arity
  | pattern
  | disjunctive
deriving DecidableEq

/-- Models `DemandAttributeAnalysis` (`demand_attr.rs` 6-11). -/
structure DemandState where
  attrs : List (String × String)
  disjunctive : List String
  errors : List DemandErr
deriving DecidableEq

/-- Models `is_valid_demand_pattern` (`demand_attr.rs` 145-147). -/
def validPattern (s : String) : Bool := s.toList.all (fun c => c == 'b' || c == 'f')

def DemandState.fail (st : DemandState) (e : DemandErr) : DemandState := { st with errors := st.errors ++ [e] }

/-- Models the part of `process_attribute` (`demand_attr.rs` 70-107) after the check of disjunctive predicates. -/
def DemandState.pattern (st : DemandState) (p : String) (a : Attribute) : DemandState :=
  if a.name = "demand" then
    match a.posArgs with
    | [.str s] =>
      if validPattern s then
        match st.attrs.lookup p with
        | some s' => if s' ≠ s then st.fail .conflict else st
        | none => { st with attrs := (p, s) :: st.attrs }
      else st.fail .pattern
    | [_] => st.fail .argType
    | _ => st.fail .numArgs
  else st

/-- Models `process_attribute` (`demand_attr.rs` 58-108). -/
def DemandState.attribute (p : String) (st : DemandState) (a : Attribute) : DemandState :=
  (if p ∈ st.disjunctive then st.fail .disjunctive else st).pattern p a

/-- Models `process_attributes` (`demand_attr.rs` 110-114). -/
def DemandState.attributes (st : DemandState) (p : String) (attrs : List Attribute) : DemandState := attrs.foldl (DemandState.attribute p) st

/-- Models `set_disjunctive` (`demand_attr.rs` 45-56). -/
def DemandState.setDisjunctive (st : DemandState) (p : String) : DemandState :=
  if (st.attrs.lookup p).isSome then st.fail .disjunctive else { st with disjunctive := p :: st.disjunctive }

/-- Models the visits of `DemandAttributeAnalysis` (`demand_attr.rs` 117-143): of the predicates of a disjunctive head only the first is looked at. -/
def DemandState.visit (st : DemandState) : Item → DemandState
  | .types attrs rels => rels.foldl (fun st r => st.attributes r.pred attrs) st
  | .rule attrs (.atom p _) => st.attributes p attrs
  | .rule _ (.disj (a :: _)) => st.setDisjunctive a.1
  | _ => st

/-- Models `check_arity` (`demand_attr.rs` 26-43); `arity` gives the arities that type inference found. -/
def DemandState.checkArity (st : DemandState) (arity : String → Option Nat) : DemandState :=
  { st with errors := st.errors ++ st.attrs.filterMap (fun x => match arity x.1 with | some n => if x.2.length ≠ n then some .arity else none | none => none) }

/-! ### Schedulers and storages -/

/-- The state of the analyses that allow one declaration for each relation (`scheduler_attr.rs` 6-10, `storage_attr.rs` 6-10); errors are counted. -/
structure OnceState (α : Type) where
  attrs : List (String × α)
  errors : Nat

/-- Models the loops over predicates (`scheduler_attr.rs` 69-81, 86-99; `storage_attr.rs` 60-73, 77-91). -/
def OnceState.declare {α : Type} (v : α) : OnceState α → List String → OnceState α
  | st, [] => st
  | st, p :: ps => if (st.attrs.lookup p).isSome then { st with errors := st.errors + 1 } else OnceState.declare v { st with attrs := (p, v) :: st.attrs } ps

/-- Models a visit: the first attribute of the name is read; `read` gives `none` if it is not as required. -/
def OnceState.visit {α : Type} (name : String) (read : Attribute → Option α) (st : OnceState α) (attrs : List Attribute) (preds : List String) : OnceState α :=
  match findAttr attrs name with
  | none => st
  | some a => match read a with
    | none => { st with errors := st.errors + 1 }
    | some v => st.declare v preds

/-- Models `Scheduler` (`runtime/env/scheduling.rs` 45-59). -/
inductive Sched where
  | lfp
  | dfs
  | astar
  | beam (size : Nat)
deriving DecidableEq

/-- Models `find_scheduler_attr` after the search (`scheduler_attr.rs` 26-61); `i as usize` is the number modulo 2^64. -/
def readScheduler (a : Attribute) : Option Sched :=
  match a.posArgs with
  | .str s :: _ =>
    if s = "lfp" then some .lfp
    else if s = "dfs" then some .dfs
    else if s = "astar" then some .astar
    else if s = "beam" then some (.beam (match a.kwArg "beam_size" with | some (.int i) => (i % 2 ^ 64).toNat | _ => 3))
    else none
  | _ => none

/-- Models `StorageMetadata` (`runtime/database/metadata.rs` 8-24); `DenseMatrix` cannot be written. -/
inductive Storage where
  | sorted
  | indexedVec
deriving DecidableEq

/-- Models `find_storage_attr` after the search with `StorageMetadata::from_str` (`storage_attr.rs` 25-56, `metadata.rs` 51-61). -/
def readStorage (a : Attribute) : Option Storage :=
  match a.posArgs with
  | .str s :: _ => if s = "sorted" then some .sorted else if s = "indexed_vec" then some .indexedVec else none
  | _ => none

/-- Models the visits of `SchedulerAttributeAnalysis` (`scheduler_attr.rs` 66-103): type declarations and rules. -/
def visitScheduler (st : OnceState Sched) : Item → OnceState Sched
  | .types attrs rels => st.visit "scheduler" readScheduler attrs (rels.map (·.pred))
  | .rule attrs h => st.visit "scheduler" readScheduler attrs h.preds
  | _ => st

/-- Models the visits of `StorageAttributeAnalysis` (`storage_attr.rs` 58-95): type declarations and all relation declarations (`head_predicates`, `ast/relation_decl.rs` 140-147). -/
def visitStorage (st : OnceState Storage) : Item → OnceState Storage
  | .types attrs rels => st.visit "storage" readStorage attrs (rels.map (·.pred))
  | .set attrs p => st.visit "storage" readStorage attrs [p]
  | .fact attrs p _ _ => st.visit "storage" readStorage attrs [p]
  | .rule attrs h => st.visit "storage" readStorage attrs h.preds
  | .reduce attrs p _ => st.visit "storage" readStorage attrs [p]

/-! ### Goals and hidden relations -/

/-- Models `GoalRelationAnalysis` (`goal_relation.rs` 6-9). -/
structure GoalState where
  goals : List String
  errors : Nat

/-- Models `add_goal_relation` and `add_incorrect_relation_arity_error` (`goal_relation.rs` 49-62). -/
def GoalState.add (st : GoalState) (p : String) (n : Nat) : GoalState :=
  if n ≠ 0 then { st with errors := st.errors + 1 } else if p ∈ st.goals then st else { st with goals := p :: st.goals }

/-- Models the visits of `GoalRelationAnalysis` (`goal_relation.rs` 65-106). -/
def GoalState.visit (st : GoalState) : Item → GoalState
  | .types attrs rels => if (findAttr attrs "goal").isSome then rels.foldl (fun st r => st.add r.pred r.args.length) st else st
  | .rule attrs (.atom p n) => if (findAttr attrs "goal").isSome then st.add p n else st
  | .rule attrs _ => if (findAttr attrs "goal").isSome then { st with errors := st.errors + 1 } else st
  | _ => st

/-- Models `compute_errors` (`goal_relation.rs` 27-47). -/
def GoalState.check (st : GoalState) : GoalState := if st.goals.length > 1 then { st with errors := st.errors + 1 } else st

/-- Models the visits of `HiddenRelationAnalysis` (`hidden_relation.rs` 21-57): reduce rules are not visited. -/
def visitHidden (st : List String) : Item → List String
  | .types attrs rels => if (findAttr attrs "hidden").isSome then rels.map (·.pred) ++ st else st
  | .set attrs p => if (findAttr attrs "hidden").isSome then p :: st else st
  | .fact attrs p _ _ => if (findAttr attrs "hidden").isSome then p :: st else st
  | .rule attrs h => if (findAttr attrs "hidden").isSome then h.preds ++ st else st
  | .reduce _ _ _ => st

/-! ### The compiler -/

/-- What the compiler keeps of the attributes of a program (`f2b/attr.rs` 5-36, `compile.rs` 387-389). -/
structure Compiled where
  demand : String → Option String
  scheduler : String → Option Sched
  storage : String → Option Storage
  goal : String → Bool
  hidden : String → Bool

/-- Models the attribute analyses of one source (`compile.rs` 282-316, `analysis.rs` 58-125): schedulers, storages and hidden relations before the transformations, goals and demands after them; `none` if
one of them has an error. Other analyses are not modelled here; `arity` is the result of type inference. -/
def analyse (arity : String → Option Nat) (items : List Item) : Option Compiled :=
  let sched := items.foldl visitScheduler ⟨[], 0⟩
  let stor := items.foldl visitStorage ⟨[], 0⟩
  let hid := items.foldl visitHidden []
  let goals := ((transform items).foldl GoalState.visit ⟨[], 0⟩).check
  let dem := ((transform items).foldl DemandState.visit ⟨[], [], []⟩).checkArity arity
  if sched.errors = 0 ∧ stor.errors = 0 ∧ goals.errors = 0 ∧ dem.errors = [] then
    some ⟨fun p => dem.attrs.lookup p, fun p => sched.attrs.lookup p, fun p => stor.attrs.lookup p, fun p => goals.goals.contains p, fun p => hid.contains p⟩
  else none

end Scallop.Attr
