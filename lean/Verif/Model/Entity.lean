import Verif.Model.TypeInfer

/-!
# Entities of algebraic data types

Models how an entity such as `Cons(1, Nil())` gets its identity and its facts, in the three ways a program can make one: as a constant of
the program (`/repo/core/src/compiler/front/ast/entity.rs` 45-95), by `new` in a rule (`/repo/core/src/runtime/env/environment.rs` 739-761)
and from a string at run time (`/repo/core/src/common/adt_variant_registry.rs`); and the store in which the facts wait until a relation
takes them (`/repo/core/src/runtime/env/dynamic_entity_storage.rs`).

Simplified: the hasher is any function of the sequence of values written to it, where the real one sees their bytes only; a symbol is
written as its string, not as its number; floating point numbers are written as they are.
-/

namespace Scallop.Ent

open Ty

variable {F : Type}

/-- What is written to a hasher: a string (`write_str`), or a number of some width. -/
inductive Tok (F : Type) where
  | str (s : String)
  | num (bits : Nat) (n : Int)
  | flt (k : FloatTy) (x : F)
  | sym (s : String)

/-- A hash function with results of 64 bits (`DefaultHasher::finish`). -/
abbrev Hash (F : Type) := List (Tok F) → Fin (2 ^ 64)

/-- Models `Hash for Value` (`value.rs` 115-149): the type of a number is not written. -/
def valToks : Val F → List (Tok F)
  | .int k n => [.num k.bits (n % 2 ^ k.bits)]
  | .float k x => [.flt k x]
  | .char c => [.num 32 c.toNat]
  | .bool b => [.num 8 (if b then 1 else 0)]
  | .string s => [.str s]
  | .symbol s => [.sym s]
  | .entity e => [.str "entity", .num 64 e]

/-- A place in the source text (`ast/utils.rs` 34-48), as far as it is hashed. -/
structure Loc where
  source : Nat
  start : Nat
  stop : Nat
deriving DecidableEq, Repr

/-- The position of a kind of constant in `enum Constant` (`ast/constant.rs` 71-81). -/
def constTag : Const F → Int
  | .int _ => 0
  | .float _ => 1
  | .bool _ => 2
  | .char _ => 3
  | .string _ => 4
  | .symbol _ => 5
  | .entity _ => 8

/-- What the derived hash of the content of a literal writes (`ast/constant.rs` 6-66): an integer literal is an `i64`, a character literal
a string, a floating point literal is written as a `f64`. -/
def litToks : Const F → List (Tok F)
  | .int n => [.num 64 n]
  | .float x => [.flt .f64 x]
  | .bool b => [.num 8 (if b then 1 else 0)]
  | .char c => [.str (String.singleton c)]
  | .string s => [.str s]
  | .symbol s => [.str s]
  | .entity e => [.num 64 e]

/-- Models the derived hashes of `Constant` and of `AstNodeWrapper` (`ast/utils.rs` 199-203): the kind of the constant, its place in the
source text, its content. -/
def constToks (c : Const F × Loc) : List (Tok F) :=
  [.num 64 (constTag c.1), .num 64 c.2.source, .num 64 c.2.start, .num 64 c.2.stop] ++ litToks c.1

/-- Models `encode_entity` (`entity.rs` 4-12) for arguments of any type. -/
def encode {α : Type} (h : Hash F) (toks : α → List (Tok F)) (functor : String) (args : List α) : Nat :=
  (h (.str functor :: args.flatMap toks)).val

/-- The name of the relation of a constructor (`adt_to_relation.rs` 42-45, `flatten_expr.rs` 470). -/
def adtName (f : String) : String := "adt#" ++ f

/-- A fact of an entity: its relation, the entity, the arguments of the constructor. -/
structure Fact (F : Type) where
  rel : String
  id : Val F
  args : List (Val F)
deriving DecidableEq

/-- Models `enum Entity` (`ast/entity.rs` 5-9): constants, variables and other expressions, or a constructor with arguments. -/
inductive Term (F : Type) where
  | const (c : Const F) (loc : Loc)
  | var (x : String)
  | other
  | obj (f : String) (args : List (Term F)) (loc : Loc)

/-! ## From a string at run time -/

/-- Models `ADTVariant` (`adt_variant_registry.rs` 8-12). The first type is that of the entity: the list is not empty
(`adt_to_relation.rs` 48-53). -/
structure Variant where
  rel : String
  argTypes : List VTy

/-- Models `ADTEntityError` (`adt_variant_registry.rs` 139-150). -/
inductive Err where
  | invalidExpr
  | cannotUnify
  | unknown (f : String)
  | arity (f : String) (expected actual : Nat)
deriving DecidableEq, Repr

/-- How constants become numbers: `as f32`, `as f64`. -/
structure Conv (F : Type) where
  ofInt : FloatTy → Int → F
  toF : FloatTy → F → F

/-- Models the cases for constants of `parse_entity` (`adt_variant_registry.rs` 64-85): there is none for symbols and entities. -/
def parseConst (C : Conv F) : Const F → VTy → Option (Val F)
  | .int n, .int k => some (.int k (wrap k n))
  | .int n, .float k => some (.float k (C.ofInt k n))
  | .float x, .float k => some (.float k (C.toF k x))
  | .bool b, .bool => some (.bool b)
  | .char c, .char => some (.char c)
  | .string s, .string => some (.string s)
  | _, _ => none

section
variable (C : Conv F) (reg : String → Option Variant) (h : Hash F)

mutual
/-- Models `parse_entity` (`adt_variant_registry.rs` 56-127): the value and the facts. An object is not compared with the expected type. -/
def Term.parse : Term F → VTy → Except Err (Val F × List (Fact F))
  | .const c _, ty =>
    match parseConst C c ty with
    | some v => .ok (v, [])
    | none => .error .cannotUnify
  | .var _, _ => .error .invalidExpr
  | .other, _ => .error .invalidExpr
  | .obj f args _, _ =>
    match reg f with
    | none => .error (.unknown f)
    | some v =>
      if v.argTypes.length - 1 = args.length then
        match Term.parseArgs args (v.argTypes.drop 1) with
        | .error e => .error e
        | .ok r => .ok (.entity (encode h valToks f r.1), r.2 ++ [⟨v.rel, .entity (encode h valToks f r.1), r.1⟩])
      else .error (.arity f (v.argTypes.length - 1) args.length)
/-- The arguments, with their types (`adt_variant_registry.rs` 95-100). -/
def Term.parseArgs : List (Term F) → List VTy → Except Err (List (Val F) × List (Fact F))
  | a :: as, ty :: tys =>
    match Term.parse a ty with
    | .error e => .error e
    | .ok r =>
      match Term.parseArgs as tys with
      | .error e => .error e
      | .ok s => .ok (r.1 :: s.1, r.2 ++ s.2)
  | _, _ => .ok ([], [])
end

/-- Models `ADTVariantRegistry::parse` (`adt_variant_registry.rs` 39-54) after the string has been parsed. -/
def parseTop (t : Term F) : Except Err (Val F × List (Fact F)) := t.parse C reg h .entity

end

/-! ## By `new` in a rule -/

/-- A `new` expression with values for its variables: nested ones become assignments to variables of their own, evaluated first
(`flatten_expr.rs` 465-485). -/
inductive NTerm (F : Type) where
  | val (v : Val F)
  | new (f : String) (args : List (NTerm F))

mutual
/-- Models `eval_new` (`environment.rs` 739-761). The name of the constructor is that of its relation since `flatten_expr.rs` 470. -/
def NTerm.eval (h : Hash F) : NTerm F → Val F × List (Fact F)
  | .val v => (v, [])
  | .new f args =>
    let r := NTerm.evalArgs h args
    (.entity (encode h valToks (adtName f) r.1), r.2 ++ [⟨adtName f, .entity (encode h valToks (adtName f) r.1), r.1⟩])
/-- The arguments. -/
def NTerm.evalArgs (h : Hash F) : List (NTerm F) → List (Val F) × List (Fact F)
  | [] => ([], [])
  | a :: as =>
    let r := NTerm.eval h a
    let s := NTerm.evalArgs h as
    (r.1 :: s.1, r.2 ++ s.2)
end

/-! ## As a constant of the program -/

/-- Models `EntityFact` (`ast/entity.rs` 98-104). -/
structure CFact (F : Type) where
  functor : String
  id : Const F
  args : List (Const F)

mutual
/-- Models `to_facts_with_constant_variables` (`ast/entity.rs` 45-95): a constant with its place, and the facts; `vars` are the constants
declared before. -/
def Term.toFacts (h : Hash F) (vars : String → Option (Const F × Loc)) : Term F → Outcome ((Const F × Loc) × List (CFact F))
  | .const c l => .ok ((c, l), [])
  | .var x =>
    match vars x with
    | some c => .ok (c, [])
    | none => .panic
  | .other => .panic
  | .obj f args l => (Term.toFactsArgs h vars args).bind fun r =>
    .ok ((.entity (encode h constToks f r.1), l), r.2 ++ [⟨f, .entity (encode h constToks f r.1), r.1.map Prod.fst⟩])
/-- The arguments. -/
def Term.toFactsArgs (h : Hash F) (vars : String → Option (Const F × Loc)) : List (Term F) → Outcome (List (Const F × Loc) × List (CFact F))
  | [] => .ok ([], [])
  | a :: as => (Term.toFacts h vars a).bind fun r => (Term.toFactsArgs h vars as).bind fun s => .ok (r.1 :: s.1, r.2 ++ s.2)
end

/-! ## The store -/

/-- Models `entities` of `DynamicEntityStorage` (`dynamic_entity_storage.rs` 10-13): per relation, per entity, the tuples of arguments. -/
abbrev Store (F : Type) := List (String × List (Val F × List (List (Val F))))

/-- `entry(k).or_default()` followed by a change of the entry. -/
def upsert {α β : Type} [DecidableEq α] (k : α) (empty : β) (f : β → β) : List (α × β) → List (α × β)
  | [] => [(k, f empty)]
  | p :: rest => if p.1 = k then (k, f p.2) :: rest else p :: upsert k empty f rest

/-- Models `add_entity_fact` (`dynamic_entity_storage.rs` 44-52). -/
def Store.add [DecidableEq F] (s : Store F) (a : Fact F) : Store F :=
  upsert a.rel [] (fun m => upsert a.id [] (fun ts => ts ++ [a.args]) m) s

/-- The facts in a store. -/
def Store.facts (s : Store F) : List (Fact F) :=
  s.flatMap fun p => p.2.flatMap fun q => q.2.map fun t => ⟨p.1, q.1, t⟩

/-- Models `drain_entities` (`dynamic_entity_storage.rs` 54-70): the relations that pass the filter are taken out. A tuple is the entity
followed by its arguments. -/
def Store.drain (s : Store F) (p : String → Bool) : List (String × List (List (Val F))) × Store F :=
  ((s.filter fun q => p q.1).map fun q => (q.1, q.2.flatMap fun r => r.2.map fun t => r.1 :: t), s.filter fun q => !p q.1)

/-- Models `compile_and_add_entity_string` (`dynamic_entity_storage.rs` 30-42). -/
def Store.addTerm [DecidableEq F] (C : Conv F) (reg : String → Option Variant) (h : Hash F) (s : Store F) (t : Term F) :
    Except Err (Val F × Store F) :=
  match parseTop C reg h t with
  | .error e => .error e
  | .ok r => .ok (r.1, r.2.foldl Store.add s)

/-- What happens to a store. -/
inductive Op (F : Type) where
  | add (a : Fact F)
  | drain (p : String → Bool)

/-- A history: what has been drained, and the store. -/
def runOps [DecidableEq F] : List (Op F) → Store F → List (String × List (List (Val F))) × Store F
  | [], s => ([], s)
  | .add a :: os, s => runOps os (s.add a)
  | .drain p :: os, s =>
    let r := runOps os (s.drain p).2
    ((s.drain p).1 ++ r.1, r.2)

end Scallop.Ent
