import Verif.Model.Declare

/-!
# Which declarations are right, and what they mean
-/

namespace Scallop.Declare

open Scallop.Ty (VTy)

/-- A type that is built in, or has one of the known names. -/
def Known (T : String → Prop) : Ty → Prop
  | .base _ => True
  | .named n => T n

/-- The name of a type that is declared. -/
def Decl.typeName : Decl → Option String
  | .synonym n _ | .enum n | .adt n _ => some n
  | .relation _ _ => none

/-- All constructors, with their type and arguments. -/
def constructors : List Decl → List Info
  | [] => []
  | .adt n vs :: ds => vs.map (fun v => ⟨n, v.1, v.2⟩) ++ constructors ds
  | _ :: ds => constructors ds

/-- With the types `T` and the relations `R` declared before: each type and relation is declared once, and only types declared before are used. -/
def Orderly : (String → Prop) → (String → Prop) → List Decl → Prop
  | _, _, [] => True
  | T, R, .synonym n ty :: ds => ¬ T n ∧ Known T ty ∧ Orderly (fun x => T x ∨ x = n) R ds
  | T, R, .enum n :: ds => ¬ T n ∧ Orderly (fun x => T x ∨ x = n) R ds
  | T, R, .adt n _ :: ds => ¬ T n ∧ Orderly (fun x => T x ∨ x = n) R ds
  | T, R, .relation r args :: ds => ¬ R r ∧ (∀ ty ∈ args, Known T ty) ∧ Orderly T (fun x => R x ∨ x = r) ds

/-- The declarations are orderly; each constructor is declared once; the arguments of constructors have types that are declared anywhere. -/
def Right (T R : String → Prop) (ds : List Decl) : Prop :=
  Orderly T R ds ∧ ((constructors ds).map Info.name).Nodup ∧
  ∀ i ∈ constructors ds, ¬ R (Ent.adtName i.name) ∧ (∀ args, Decl.relation (Ent.adtName i.name) args ∉ ds) ∧
    ∀ ty ∈ i.args, Known (fun n => T n ∨ ∃ d ∈ ds, d.typeName = some n) ty

/-- The value type of a type. -/
def valueOf (types : String → Option VTy) : Ty → Option VTy
  | .base t => some t
  | .named n => types n

/-- What a declaration says about types and relations. -/
def Holds (types : String → Option VTy) (rels : String → Option (List VTy)) : Decl → Prop
  | .synonym n ty => (types n).isSome ∧ types n = valueOf types ty
  | .enum n => types n = some (.int .usize)
  | .adt n vs => types n = some .entity ∧ ∀ v ∈ vs, ∃ ts, List.Forall₂ (fun ty t => valueOf types ty = some t) v.2 ts ∧ rels (Ent.adtName v.1) = some (.entity :: ts)
  | .relation r args => ∃ ts, List.Forall₂ (fun ty t => valueOf types ty = some t) args ts ∧ rels r = some ts

end Scallop.Declare
