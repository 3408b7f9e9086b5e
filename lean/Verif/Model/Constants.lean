import Verif.Model.Entity

/-!
# Constants and enumerations

Models `/repo/core/src/compiler/front/analyzers/constant_decl.rs` and
`/repo/core/src/compiler/front/transformations/const_var_to_const.rs`: the declarations `const A: u8 = 1` and `type K = A | B = 3`, their
uses, and the replacement of the uses.

Simplified: an item other than a declaration is the list of its variables, each with the number of its node; numbers are wrapped as in a
build without overflow checks; the place of a constant that is put in is not kept.
-/

namespace Scallop.Consts

open Ty Ent

variable {F : Type}

/-- An occurrence of a variable: the number of its node (`NodeLocation::id`) and its name. -/
structure Occ where
  id : Nat
  name : String
deriving DecidableEq, Repr

/-- The items, as far as constants matter: `const`, enumerations with the numbers given to members, tuples of a set of facts
(`ConstantSetTuple`), facts (the variables of their arguments, and whether an argument takes an entity apart), and other items with their
variables and the names they bind (`VariableBinding`). -/
inductive Item (F : Type) where
  | const (name : String) (ty : Option VTy) (value : Term F)
  | enum (members : List (String × Option (Const F)))
  | set (vars : List Occ)
  | fact (vars : List Occ) (destruct : Bool)
  | other (vars : List Occ) (bindings : List String)

/-- Models `ConstantDeclError` (`constant_decl.rs` 229-254). -/
inductive Err where
  | duplicated (name : String)
  | inBinding (name : String)
  | unknown (name : String)
  | idAssigned (name : String) (id : Int)
  | nonConstant (name : String)
deriving DecidableEq, Repr

/-- Models `ConstantDeclAnalysis` (`constant_decl.rs` 14-20). -/
structure St (F : Type) where
  vars : List (String × Option VTy × (Const F × Ent.Loc))
  uses : List (Nat × String)
  facts : List (CFact F)
  errors : List Err

/-- Models `ConstantDeclAnalysis::new`. -/
def St.init : St F := ⟨[], [], [], []⟩

/-- Models `get_variable` (`constant_decl.rs` 36-38). -/
def St.get (s : St F) (x : String) : Option (Option VTy × (Const F × Ent.Loc)) := (s.vars.find? fun p => p.1 = x).map Prod.snd

/-- `self.variables.contains_key`. -/
def St.has (s : St F) (x : String) : Bool := s.vars.any fun p => p.1 = x

/-- The next number, `prev_max + 1` on 64 bits, or 0 (`constant_decl.rs` 95-99). -/
def nextId : Option Int → Int
  | some m => wrap .i64 (m + 1)
  | none => 0

/-- Models `extract_value` (`constant_decl.rs` 64-100): only integers that are not negative count. -/
def extractValue (m : String × Option (Const F)) (prev : Option Int) : Except Err Int :=
  match m.2 with
  | some (.int i) =>
    if 0 ≤ i then
      match prev with
      | some p => if p < i then .ok i else .error (.idAssigned m.1 i)
      | none => .ok i
    else .ok (nextId prev)
  | _ => .ok (nextId prev)

/-- Models `process_member` (`constant_decl.rs` 102-121). -/
def processMember (s : St F) (x : String) (id : Int) : Except Err (St F) :=
  if s.has x then .error (.duplicated x) else .ok { s with vars := (x, some (.int .usize), (.int id, ⟨0, 0, 0⟩)) :: s.vars }

/-- Models the loop of `process_enum_type_decl` (`constant_decl.rs` 123-137): the members before an error stay. -/
def processMembers (s : St F) (prev : Option Int) : List (String × Option (Const F)) → St F
  | [] => s
  | m :: ms =>
    match extractValue m prev with
    | .error e => { s with errors := s.errors ++ [e] }
    | .ok id =>
      match processMember s m.1 id with
      | .error e => { s with errors := s.errors ++ [e] }
      | .ok s => processMembers s (some id) ms

mutual
/-- Models `get_first_non_constant_location` (`ast/entity.rs` 32-41, `ast/expr.rs` 123-138): whether there is none. -/
def allConstant (has : String → Bool) : Term F → Bool
  | .const _ _ => true
  | .var x => has x
  | .other => false
  | .obj _ args _ => allConstantArgs has args
/-- The arguments (`ast/entity.rs` 122-132). -/
def allConstantArgs (has : String → Bool) : List (Term F) → Bool
  | [] => true
  | a :: as => allConstant has a && allConstantArgs has as
end

/-- Models `Entity::is_constant` (`ast/entity.rs` 18-20). -/
def isConstant : Term F → Bool
  | .const _ _ => true
  | _ => false

/-- A use of a constant is noted (`constant_decl.rs` 206-213 and before). -/
def St.use (s : St F) (o : Occ) : St F := if s.has o.name then { s with uses := (o.id, o.name) :: s.uses } else s

/-- A use that must be one of a constant (`constant_decl.rs` 175-187, 190-203). -/
def St.mustUse (s : St F) (o : Occ) : St F :=
  if s.has o.name then s.use o else { s with errors := s.errors ++ [.unknown o.name] }

/-- Models the visits of an item (`constant_decl.rs` 140-227). -/
def visit (h : Hash F) (s : St F) : Item F → Outcome (St F)
  | .const x ty t =>
    if s.has x then .ok { s with errors := s.errors ++ [.duplicated x] }
    else if allConstant s.has t then
      (t.toFacts h fun y => (s.get y).map Prod.snd).bind fun r =>
        .ok { s with facts := s.facts ++ r.2, vars := (x, if isConstant t then ty else some .entity, r.1) :: s.vars }
    else .ok { s with errors := s.errors ++ [.nonConstant x] }
  | .enum ms => .ok (processMembers s none ms)
  | .set vs => .ok (vs.foldl St.mustUse s)
  | .fact vs destruct => .ok (vs.foldl (if destruct then St.use else St.mustUse) s)
  | .other vs bs => .ok (bs.foldl (fun s b => if s.has b then { s with errors := s.errors ++ [.inBinding b] } else s) (vs.foldl St.use s))

/-- The items are visited in their order. -/
def analyse (h : Hash F) : St F → List (Item F) → Outcome (St F)
  | s, [] => .ok s
  | s, i :: is => (visit h s i).bind fun s => analyse h s is

/-- Models `visit_mut` of an expression (`const_var_to_const.rs` 86-121): the constant, or `none` for a variable that is left. A panic is
the `unwrap` of a constant that is not declared. -/
def replace (s : St F) (o : Occ) : Outcome (Option (Const F)) :=
  if s.uses.any fun u => u.1 = o.id then
    match s.get o.name with
    | some d => .ok (some d.2.1)
    | none => .panic
  else .ok none

/-- Models `loc_of_const_type` (`constant_decl.rs` 40-48), that gives the type of a use. -/
def typeOfUse (s : St F) (o : Occ) : Option VTy :=
  match s.uses.find? fun u => u.1 = o.id with
  | some u => (s.get u.2).bind Prod.fst
  | none => none

end Scallop.Consts
