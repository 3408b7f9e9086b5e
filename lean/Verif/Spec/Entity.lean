import Verif.Model.Entity

/-!
# What an entity stands for

A term of values, independent of how entities are identified; when the facts of a database show that an entity is such a term; the term
that is written in a program or a string.
-/

namespace Scallop.Ent

open Ty

variable {F : Type}

/-- A constructor applied to values and terms. -/
inductive VTerm (F : Type) where
  | val (v : Val F)
  | obj (f : String) (args : List (VTerm F))

mutual
/-- In a database with the facts `S`, the value `w` is the term: taking it apart with the relations of the constructors, all the way down,
gives the term. -/
def VTerm.shows (S : Fact F → Prop) : VTerm F → Val F → Prop
  | .val v, w => w = v ∧ ∀ e, v ≠ .entity e
  | .obj f args, w => ∃ e vs, w = .entity e ∧ S ⟨adtName f, .entity e, vs⟩ ∧ VTerm.showsAll S args vs
/-- The arguments. -/
def VTerm.showsAll (S : Fact F → Prop) : List (VTerm F) → List (Val F) → Prop
  | [], [] => True
  | a :: as, v :: vs => VTerm.shows S a v ∧ VTerm.showsAll S as vs
  | _, _ => False
end

/-- A value that is not an entity, as a term: there are no literals for entities. -/
def leaf : Val F → Option (VTerm F)
  | .entity _ => none
  | v => some (.val v)

section
variable (C : Conv F) (types : String → Option (List VTy)) (vars : String → VTy → Option (VTerm F))

mutual
/-- The term that is written, where a value of a type is expected; `types` are those of the arguments of the constructors, `vars` the
constants declared before. -/
def Term.value : Term F → VTy → Option (VTerm F)
  | .const c _, ty => (c.toVal C.ofInt C.toF ty).bind leaf
  | .var x, ty => vars x ty
  | .other, _ => none
  | .obj f args _, _ =>
    match types f with
    | none => none
    | some tys => (Term.valueArgs args tys).map (.obj f)
/-- The arguments. -/
def Term.valueArgs : List (Term F) → List VTy → Option (List (VTerm F))
  | [], [] => some []
  | a :: as, ty :: tys =>
    match Term.value a ty, Term.valueArgs as tys with
    | some t, some ts => some (t :: ts)
    | _, _ => none
  | _, _ => none
end

mutual
/-- A term without literals for symbols. -/
def Term.noSymbol : Term F → Bool
  | .const (.symbol _) _ => false
  | .obj _ args _ => Term.noSymbols args
  | _ => true
/-- The arguments. -/
def Term.noSymbols : List (Term F) → Bool
  | [] => true
  | a :: as => Term.noSymbol a && Term.noSymbols as
end

mutual
/-- Constructors stand only where an entity is expected. -/
def Term.sorted : Term F → VTy → Prop
  | .obj f args _, ty => ty = .entity ∧ ∀ tys, types f = some tys → Term.sortedArgs args tys
  | _, _ => True
/-- The arguments. -/
def Term.sortedArgs : List (Term F) → List VTy → Prop
  | a :: as, ty :: tys => Term.sorted a ty ∧ Term.sortedArgs as tys
  | _, _ => True
end

end

mutual
/-- The term that a `new` expression is in a database with the facts `S`, where its variables may be bound to entities. -/
def NTerm.denotes (S : Fact F → Prop) : NTerm F → VTerm F → Prop
  | .val v, t => t.shows S v
  | .new f args, .obj g ts => f = g ∧ NTerm.denotesAll S args ts
  | .new _ _, .val _ => False
/-- The arguments. -/
def NTerm.denotesAll (S : Fact F → Prop) : List (NTerm F) → List (VTerm F) → Prop
  | [], [] => True
  | a :: as, t :: ts => NTerm.denotes S a t ∧ NTerm.denotesAll S as ts
  | _, _ => False
end

/-- The constants at the types. -/
def constVals (C : Conv F) : List (Const F) → List VTy → Option (List (Val F))
  | [], [] => some []
  | c :: cs, ty :: tys =>
    match c.toVal C.ofInt C.toF ty, constVals C cs tys with
    | some v, some vs => some (v :: vs)
    | _, _ => none
  | _, _ => none

/-- A fact of the program is a fact of the database, with constants at the types of the constructor. -/
def CFact.IsFact (C : Conv F) (types : String → Option (List VTy)) (c : CFact F) (a : Fact F) : Prop :=
  ∃ tys e, types c.functor = some tys ∧ c.id = .entity e ∧ a.rel = adtName c.functor ∧ a.id = .entity e ∧
    constVals C c.args tys = some a.args

/-- An integer is in the range of its type. -/
def InRange : Val F → Prop
  | .int k n => k.fits n = true
  | _ => True

/-- The arguments of a fact have the types of the constructor. -/
def Fact.Typed (types : String → Option (List VTy)) (a : Fact F) : Prop :=
  ∀ f tys, a.rel = adtName f → types f = some tys → a.args.map Val.ty = tys ∧ ∀ v ∈ a.args, InRange v

/-- What can have been hashed to make the entity of a fact: from a string, by `new`, as a constant. -/
inductive Input (C : Conv F) (types : String → Option (List VTy)) : Fact F → List (Tok F) → Prop where
  | string (f : String) (id : Val F) (vs : List (Val F)) : Input C types ⟨adtName f, id, vs⟩ (.str f :: vs.flatMap valToks)
  | new (f : String) (id : Val F) (vs : List (Val F)) : Input C types ⟨adtName f, id, vs⟩ (.str (adtName f) :: vs.flatMap valToks)
  | const (f : String) (id : Val F) (vs : List (Val F)) (cs : List (Const F × Loc)) (tys : List VTy) (ht : types f = some tys)
      (hv : constVals C (cs.map Prod.fst) tys = some vs) : Input C types ⟨adtName f, id, vs⟩ (.str f :: cs.flatMap constToks)

/-- The facts of a database are of entities made in one of the three ways, by hashing one of `used`. -/
def Made (C : Conv F) (types : String → Option (List VTy)) (h : Hash F) (used : List (Tok F) → Prop) (S : Fact F → Prop) : Prop :=
  ∀ a, S a → ∃ toks, used toks ∧ Input C types a toks ∧ a.id = .entity (h toks).val

/-- The hash function does not collide on what has been hashed. -/
def NoCollision (h : Hash F) (used : List (Tok F) → Prop) : Prop := ∀ a b, used a → used b → h a = h b → a = b

/-- An entity has one constructor and one list of arguments. -/
def Coherent (S : Fact F → Prop) : Prop := ∀ a b, S a → S b → a.id = b.id → a = b

/-- Names of constructors, as the parser accepts them: without `#`, and known. -/
def Named (types : String → Option (List VTy)) (S : Fact F → Prop) : Prop :=
  ∀ a, S a → ∃ f, a.rel = adtName f ∧ '#' ∉ f.toList ∧ (types f).isSome

/-- The types of the arguments that a registry has. -/
def argTypes (reg : String → Option Variant) (f : String) : Option (List VTy) := (reg f).map fun v => v.argTypes.drop 1

/-- A registry as the compiler makes it (`type_inference.rs` 354-369): the relation is that of the constructor, and the first type is that
of the entity. -/
def RegOk (reg : String → Option Variant) : Prop := ∀ f v, reg f = some v → v.rel = adtName f ∧ v.argTypes ≠ []

mutual
/-- What is hashed for a constant of the program. -/
def Term.hashed (h : Hash F) (vars : String → Option (Const F × Loc)) : Term F → List (List (Tok F))
  | .obj f args _ => Term.hashedArgs h vars args ++ match Term.toFactsArgs h vars args with
    | .ok r => [.str f :: r.1.flatMap constToks]
    | _ => []
  | _ => []
/-- What is hashed for its arguments. -/
def Term.hashedArgs (h : Hash F) (vars : String → Option (Const F × Loc)) : List (Term F) → List (List (Tok F))
  | [] => []
  | a :: as => Term.hashed h vars a ++ Term.hashedArgs h vars as
end

/-- All the entities of a run: those given as strings, those made by `new`, and the constants of the program, each with the constants
declared before it. -/
structure Sources (F : Type) where
  strings : List (Term F)
  news : List (NTerm F)
  consts : List (Term F × (String → Option (Const F × Loc)))

/-- The facts of the entities of a run. -/
inductive Sources.Facts (C : Conv F) (reg : String → Option Variant) (h : Hash F) (P : Sources F) : Fact F → Prop
  | string {t v fs a} : t ∈ P.strings → parseTop C reg h t = .ok (v, fs) → a ∈ fs → Facts C reg h P a
  | new {n a} : n ∈ P.news → a ∈ (n.eval h).2 → Facts C reg h P a
  | const {p c fs f a} : p ∈ P.consts → p.1.toFacts h p.2 = .ok (c, fs) → f ∈ fs → f.IsFact C (argTypes reg) a → Facts C reg h P a

/-- What has been hashed in a run. -/
inductive Sources.Hashed (C : Conv F) (reg : String → Option Variant) (h : Hash F) (P : Sources F) : List (Tok F) → Prop
  | string {t v fs f id vs} : t ∈ P.strings → parseTop C reg h t = .ok (v, fs) → ⟨adtName f, id, vs⟩ ∈ fs →
      Hashed C reg h P (.str f :: vs.flatMap valToks)
  | new {n f id vs} : n ∈ P.news → ⟨adtName f, id, vs⟩ ∈ (n.eval h).2 → Hashed C reg h P (.str (adtName f) :: vs.flatMap valToks)
  | const {p toks} : p ∈ P.consts → toks ∈ p.1.hashed h p.2 → Hashed C reg h P toks

/-- The facts that drained tuples are. -/
def drained (d : List (String × List (List (Val F)))) : List (String × List (Val F)) := d.flatMap fun p => p.2.map fun t => (p.1, t)

/-- A fact as a tuple of its relation. -/
def Fact.tuple (a : Fact F) : String × List (Val F) := (a.rel, a.id :: a.args)

/-- The facts that a history adds. -/
def added : List (Op F) → List (Fact F)
  | [] => []
  | .add a :: os => a :: added os
  | .drain _ :: os => added os

end Scallop.Ent
