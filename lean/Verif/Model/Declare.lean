import Verif.Model.Entity
import Verif.Model.TypeInfer

/-!
# Declarations of types, constructors and relations

Models `/repo/core/src/compiler/front/analyzers/algebraic_data_type.rs`, `/repo/core/src/compiler/front/transformations/adt_to_relation.rs`, and of
`/repo/core/src/compiler/front/analyzers/type_inference/type_inference.rs` the declarations of types and of relations, in the order in which `compile_source` (`/repo/core/src/compiler/front/compile.rs` 285-317)
uses them.

Simplified: relations that are declared are not foreign predicates and have not been used before; the members of an enumeration, which are constants (`C93`), field names and locations are left out.
`adt_variants` is a list of which at most one element has a name; the order in which the map is walked is given as a function.
-/

namespace Scallop.Declare

open Scallop.Ty (VTy)

/-- A type as it is written (`ast/types.rs` 128-155): a built-in type or a name. -/
inductive Ty where
  | base (t : VTy)
  | named (n : String)
  deriving DecidableEq

/-- Declarations. Subtypes are treated like aliases (`type_inference.rs` 371-389). -/
inductive Decl where
  | synonym (name : String) (ty : Ty)
  | enum (name : String)
  | adt (name : String) (variants : List (String × List Ty))
  | relation (name : String) (args : List Ty)

/-- What is reported: a constructor, a type or a relation that is declared twice, an unknown type. -/
inductive Err where
  | constructor (c : String)
  | type (n : String)
  | relation (r : String)
  | unknown (n : String)
  deriving DecidableEq

/-! ## Constructors -/

/-- Models `struct VariantInfo` (`algebraic_data_type.rs` 12-18). -/
structure Info where
  type : String
  name : String
  args : List Ty

/-- The errors and variants of `AlgebraicDataTypeAnalysis` (`algebraic_data_type.rs` 5-10). -/
structure Pre where
  errs : List Err
  vars : List Info

/-- Models the loop body (`algebraic_data_type.rs` 38-65) with the names visited in this declaration. -/
def Pre.variant (ty : String) (q : Pre × List String) (v : String × List Ty) : Pre × List String :=
  (⟨q.1.errs ++ (if q.2.contains v.1 then [.constructor v.1] else []) ++ (if q.1.vars.any (fun i => i.name == v.1) then [.constructor v.1] else []),
    q.1.vars.filter (fun i => !(i.name == v.1)) ++ [⟨ty, v.1, v.2⟩]⟩, if q.2.contains v.1 then q.2 else q.2 ++ [v.1])

/-- Models `visit` (`algebraic_data_type.rs` 31-66). -/
def Pre.visit (p : Pre) : Decl → Pre
  | .adt n vs => (vs.foldl (Pre.variant n) (p, [])).1
  | _ => p

/-! ## Types and relations -/

/-- The fields of `TypeInference` that declarations change: `custom_types`, `relation_type_decl_loc` and `inferred_relation_types` (`type_inference.rs` 20-55). -/
structure State where
  types : String → Option VTy
  declared : String → Bool
  relTypes : String → Option (List VTy)

/-- Models `find_value_type` (`type_inference.rs` 848-860). -/
def find (types : String → Option VTy) : Ty → Except Err VTy
  | .base t => .ok t
  | .named n => match types n with
    | some t => .ok t
    | none => .error (.unknown n)

/-- Collects the types of arguments up to the first error (`type_inference.rs` 204-213). -/
def findAll (types : String → Option VTy) : List Ty → Except Err (List VTy)
  | [] => .ok []
  | t :: ts => match find types t with
    | .error e => .error e
    | .ok v => match findAll types ts with
      | .error e => .error e
      | .ok vs => .ok (v :: vs)

/-- Models `check_and_add_custom_type` (`type_inference.rs` 162-180). -/
def State.addType (s : State) (name : String) (ty : Ty) : State × List Err :=
  if (s.types name).isSome then (s, [.type name])
  else match find s.types ty with
    | .ok t => ({ s with types := fun n => if n = name then some t else s.types n }, [])
    | .error e => (s, [e])

/-- Models `check_and_add_relation_type` (`type_inference.rs` 182-244). -/
def State.addRelation (s : State) (name : String) (args : List Ty) : State × List Err :=
  if s.declared name then (s, [.relation name])
  else
    let s1 := { s with declared := fun r => if r = name then true else s.declared r }
    match findAll s.types args with
    | .ok ts => ({ s1 with relTypes := fun r => if r = name then some ts else s.relTypes r }, [])
    | .error e => (s1, [e])

/-- Models the visitors of declarations (`type_inference.rs` 371-500): an algebraic data type is an alias of `Entity` by then. -/
def State.visit (s : State) : Decl → State × List Err
  | .synonym n ty => s.addType n ty
  | .enum n => s.addType n (.base (.int .usize))
  | .adt _ _ => (s, [])
  | .relation r args => s.addRelation r args

/-- All declarations in order. -/
def State.process (s : State) : List Decl → State × List Err
  | [] => (s, [])
  | d :: ds => (((s.visit d).1.process ds).1, (s.visit d).2 ++ ((s.visit d).1.process ds).2)

/-! ## Compilation -/

/-- Models `visit_mut` (`adt_to_relation.rs` 19-31). -/
def transformed : Decl → Decl
  | .adt n _ => .synonym n (.base .entity)
  | d => d

/-- Models the relation that is generated for a constructor (`adt_to_relation.rs` 38-86). -/
def Info.decl (i : Info) : Decl := .relation (Ent.adtName i.name) (.named i.type :: i.args)

/-- Models the parts of `compile_source` about declarations (`compile.rs` 285-317): first constructors are looked at; if there is no error, data types become aliases and their constructors relations, at the
end, in some order `gen`; `adt_variants` is empty afterwards and, for what is rejected changes nothing, before. -/
def compile (gen : List Info → List Info) (s : State) (ds : List Decl) : Except (List Err) State :=
  let p := ds.foldl Pre.visit ⟨[], []⟩
  if p.errs ≠ [] then .error p.errs
  else
    let q := s.process (ds.map transformed ++ (gen p.vars).map Info.decl)
    if q.2 ≠ [] then .error q.2 else .ok q.1

/-- Nothing is declared. -/
def State.new : State := ⟨fun _ => none, fun _ => false, fun _ => none⟩

end Scallop.Declare
