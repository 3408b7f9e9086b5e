import Verif.Model.TypeInfer

/-!
# What a typed program promises

The values that a program computes once every location has a type set and every relation its column types: literals become values of the
default type of their location, operators are those of the runtime (`evalBin`, `evalUn` of `Verif/Model/Value.lean`). A *type error* is an
operator that fails whatever the values of its operands' types are. Derivations are by stages and allow more than a run does: a negated
atom never prevents one.
-/

namespace Scallop.Ty

variable {F : Type}

/-- An operator fails for all operands of these types. -/
def BinTypeError (X : Ext F) (op : BinOp) (a b : Val F) : Prop :=
  ∀ a' b', a'.ty = a.ty → b'.ty = b.ty → evalBin X .run op a' b' = .panic

/-- An operator fails for all operands of this type. -/
def UnTypeError (X : Ext F) (op : UnOp) (a : Val F) : Prop := ∀ a', a'.ty = a.ty → evalUn X .run op a' = .panic

/-- Values are arguments of the types that a foreign function asks for; those of one generic type have one type, of its family. -/
structure ArgsFit (ft : FunTy) (vs : List (Val F)) : Prop where
  arity : ft.statics.length ≤ vs.length ∧ (ft.variadic = none → vs.length ≤ ft.statics.length + ft.optionals.length)
  set : ∀ k v t, vs[k]? = some v → ft.argTy k = some (.set t) → t.contains v.ty = true
  same : ∀ j k v w g, vs[j]? = some v → vs[k]? = some w → ft.argTy j = some (.generic g) → ft.argTy k = some (.generic g) → v.ty = w.ty
  family : ∀ k v g fam, vs[k]? = some v → ft.argTy k = some (.generic g) → ft.generics[g]? = some fam → fam.contains v.ty = true

/-- The value `v`, returned for the arguments `vs`, has the return type of the function; if that is generic, the type of the arguments of
the same generic type, of which there is one. -/
def RetFits (ft : FunTy) (vs : List (Val F)) (v : Val F) : Prop :=
  (∀ t, ft.ret = .base t → v.ty = t) ∧
    ∀ g, ft.ret = .generic g → ∃ (k : Nat) (w : Val F), ft.argTy k = some (.generic g) ∧ vs[k]? = some w ∧ v.ty = w.ty

/-- Foreign functions return values of their return types. -/
def CallsTyped (X : Ext F) (env : Env) : Prop :=
  ∀ f ft vs v, env.funs f = some ft → ArgsFit ft vs → X.call f vs = .ok v → RetFits ft vs v

/-- The generic types of the foreign functions are declared. -/
def FunsOk (env : Env) : Prop :=
  ∀ f ft, env.funs f = some ft → (∀ k g, ft.argTy k = some (.generic g) → g < ft.generics.length) ∧
    ∀ g, ft.ret = .generic g → g < ft.generics.length

/-- A type cast gives values of its target type, and can be applied to the types for which the runtime has a case. -/
def CastsAsCoded (X : Ext F) (env : Env) : Prop :=
  ∀ n t, env.types n = some t → (∀ v w, X.cast .run n v = .ok w → w.ty = t) ∧
    ∀ v : Val F, castCase v.ty t = true → ∃ v' : Val F, v'.ty = v.ty ∧ X.cast .run n v' ≠ .panic

section
variable (X : Ext F) (ofInt : FloatTy → Int → F) (toF : FloatTy → F → F) (env : Env) (s : ET)

/-- `Eval … ρ l e v`: the expression `e` at the location `l` has value `v` when the variables have the values `ρ`. -/
inductive Eval (ρ : String → Option (Val F)) : Loc → TExpr F → Val F → Prop
  | const {l c t v} : s l = some t → c.toVal ofInt toF t.default = some v → Eval ρ l (.const c) v
  | var {l x v} : ρ x = some v → Eval ρ l (.var x) v
  | bin {l op a b va vb v} : Eval ρ (0 :: l) a va → Eval ρ (1 :: l) b vb → evalBin X .run op va vb = .ok v → Eval ρ l (.bin op a b) v
  | un {l op a va v} : Eval ρ (0 :: l) a va → evalUn X .run op va = .ok v → Eval ρ l (.un op a) v
  | iteT {l c a b v} : Eval ρ (0 :: l) c (.bool true) → Eval ρ (1 :: l) a v → Eval ρ l (.ite c a b) v
  | iteF {l c a b v} : Eval ρ (0 :: l) c (.bool false) → Eval ρ (2 :: l) b v → Eval ρ l (.ite c a b) v
  | call {l f args} {vs : List (Val F)} {v} : vs.length = args.length →
      (∀ k e w, args[k]? = some e → vs[k]? = some w → Eval ρ (k :: l) e w) → X.call f vs = .ok v → Eval ρ l (.call f args) v
  | new {l f args} {vs : List (Val F)} : vs.length = args.length →
      (∀ k e w, args[k]? = some e → vs[k]? = some w → Eval ρ (k :: l) e w) → Eval ρ l (.new f args) (.entity (X.encode f vs))

/-- The evaluation of the expression `e` at `l` meets a type error: a literal that its type does not have, an operator that its operands'
types rule out, a condition that is not a truth value, a foreign function called with arguments of wrong types. -/
inductive TypeErr (ρ : String → Option (Val F)) : Loc → TExpr F → Prop
  | lit {l c t} : s l = some t → c.toVal ofInt toF t.default = none → TypeErr ρ l (.const c)
  | left {l op a b} : TypeErr ρ (0 :: l) a → TypeErr ρ l (.bin op a b)
  | right {l op a b} : TypeErr ρ (1 :: l) b → TypeErr ρ l (.bin op a b)
  | bin {l op a b va vb} : Eval X ofInt toF s ρ (0 :: l) a va → Eval X ofInt toF s ρ (1 :: l) b vb → BinTypeError X op va vb →
      TypeErr ρ l (.bin op a b)
  | operand {l op a} : TypeErr ρ (0 :: l) a → TypeErr ρ l (.un op a)
  | un {l op a va} : Eval X ofInt toF s ρ (0 :: l) a va → UnTypeError X op va → TypeErr ρ l (.un op a)
  | cond {l c a b} : TypeErr ρ (0 :: l) c → TypeErr ρ l (.ite c a b)
  | notBool {l c a b v} : Eval X ofInt toF s ρ (0 :: l) c v → v.ty ≠ .bool → TypeErr ρ l (.ite c a b)
  | thn {l c a b} : TypeErr ρ (1 :: l) a → TypeErr ρ l (.ite c a b)
  | els {l c a b} : TypeErr ρ (2 :: l) b → TypeErr ρ l (.ite c a b)
  | arg {l f args} {k : Nat} {e} : args[k]? = some e → TypeErr ρ (k :: l) e → TypeErr ρ l (.call f args)
  | call {l f args} {vs : List (Val F)} {ft} : vs.length = args.length →
      (∀ k e w, args[k]? = some e → vs[k]? = some w → Eval X ofInt toF s ρ (k :: l) e w) → env.funs f = some ft → ¬ ArgsFit ft vs →
      TypeErr ρ l (.call f args)
  | entityArg {l f args} {k : Nat} {e} : args[k]? = some e → TypeErr ρ (k :: l) e → TypeErr ρ l (.new f args)

/-- `Supp … r i x v`: given the facts `D`, the body of the rule `r` (the `i`-th of the program) gives the variable `x` the value `v`: it
is an argument of a positive atom, or equal to an expression of variables that have values. -/
inductive Supp (D : String → List (Val F) → Prop) (r : TRule F) (i : Nat) : String → Val F → Prop
  | atom {k m : Nat} {b x vs v} : r.body[k]? = some (.pos b) → b.args[m]? = some (.var x) → D b.pred vs → vs[m]? = some v → Supp D r i x v
  | eqLeft {k : Nat} {x e ρ v} : r.body[k]? = some (.constraint (.bin .eq (.var x) e)) → (∀ y w, ρ y = some w → Supp D r i y w) →
      Eval X ofInt toF s ρ [1, 0, r.heads.length + k, i] e v → Supp D r i x v
  | eqRight {k : Nat} {x e ρ v} : r.body[k]? = some (.constraint (.bin .eq e (.var x))) → (∀ y w, ρ y = some w → Supp D r i y w) →
      Eval X ofInt toF s ρ [0, 0, r.heads.length + k, i] e v → Supp D r i x v

/-- An argument of an atom in a body agrees with a value of a fact. -/
def ArgMatch (ρ : String → Option (Val F)) (l : Loc) (e : TExpr F) (v : Val F) : Prop := e = .wild ∨ Eval X ofInt toF s ρ l e v

/-- The facts one step after `D`: those of the program, those of the foreign predicates (`O`), and the heads of the rules whose positive
atoms are in `D` and whose constraints hold. -/
inductive Step (items : List (Item F)) (rt : RT) (O D : String → List (Val F) → Prop) : String → List (Val F) → Prop
  | fact {p args tys} {vs : List (Val F)} : Item.fact p args ∈ items → rt p = some tys → vs.length = args.length →
      (∀ (k : Nat) c v, args[k]? = some c → vs[k]? = some v → ∃ t, tys[k]? = some t ∧ c.1.toVal ofInt toF t.default = some v) →
      Step items rt O D p vs
  | foreign {p vs} : (env.preds p).isSome → O p vs → Step items rt O D p vs
  | rule {i j : Nat} {r ρ a} {vs : List (Val F)} : (rulesOf items)[i]? = some r → r.heads[j]? = some a →
      (∀ x v, ρ x = some v → Supp X ofInt toF s D r i x v) →
      (∀ (k : Nat) b, r.body[k]? = some (.pos b) → ∃ ws, D b.pred ws ∧ ws.length = b.args.length ∧
        ∀ (m : Nat) e w, b.args[m]? = some e → ws[m]? = some w → ArgMatch X ofInt toF s ρ [m, r.heads.length + k, i] e w) →
      (∀ (k : Nat) e, r.body[k]? = some (.constraint e) → Eval X ofInt toF s ρ [0, r.heads.length + k, i] e (.bool true)) →
      vs.length = a.args.length → (∀ (m : Nat) e v, a.args[m]? = some e → vs[m]? = some v → Eval X ofInt toF s ρ [m, j, i] e v) →
      Step items rt O D a.pred vs

/-- The facts derived within `n` steps. -/
def DerivedIn (items : List (Item F)) (rt : RT) (O : String → List (Val F) → Prop) : Nat → String → List (Val F) → Prop
  | 0 => fun _ _ => False
  | n + 1 => Step X ofInt toF env s items rt O (DerivedIn items rt O n)

end

/-- The values of a fact have the types of the columns of its relation. -/
def Typed (env : Env) (rt : RT) (p : String) (vs : List (Val F)) : Prop :=
  match env.preds p with
  | some tys => vs.map Val.ty = tys
  | none => ∀ (k : Nat) v, vs[k]? = some v → ∃ tys t, rt p = some tys ∧ tys[k]? = some t ∧ v.ty = t.default

/-- `ExprAt r i l e`: the expression `e` is an argument of an atom or a constraint of the rule `r`, at the location `l`. -/
def ExprAt (r : TRule F) (i : Nat) (l : Loc) (e : TExpr F) : Prop :=
  ∃ j : Nat, (∃ (a : TAtom F) (m : Nat), (r.lits[j]? = some (.pos a) ∨ r.lits[j]? = some (.neg a)) ∧ a.args[m]? = some e ∧ l = [m, j, i]) ∨
    (r.lits[j]? = some (.constraint e) ∧ l = [0, j, i])

/-- `SubAt l e m a`: the expression `a` at `m` is a part of the expression `e` at `l`. -/
inductive SubAt (l : Loc) (e : TExpr F) : Loc → TExpr F → Prop
  | self : SubAt l e l e
  | left {m op a b} : SubAt l e m (.bin op a b) → SubAt l e (0 :: m) a
  | right {m op a b} : SubAt l e m (.bin op a b) → SubAt l e (1 :: m) b
  | operand {m op a} : SubAt l e m (.un op a) → SubAt l e (0 :: m) a
  | cond {m c a b} : SubAt l e m (.ite c a b) → SubAt l e (0 :: m) c
  | thn {m c a b} : SubAt l e m (.ite c a b) → SubAt l e (1 :: m) a
  | els {m c a b} : SubAt l e m (.ite c a b) → SubAt l e (2 :: m) b
  | arg {m f args} {k : Nat} {a} : SubAt l e m (.call f args) → args[k]? = some a → SubAt l e (k :: m) a
  | entityArg {m f args} {k : Nat} {a} : SubAt l e m (.new f args) → args[k]? = some a → SubAt l e (k :: m) a

/-- The casts that the language allows, from one type to another: anything to a string; between numbers; a truth value to itself; a
character to a character, a string or a number; a string to a string or a number. -/
def CastAllowed (a b : VTy) : Prop :=
  let num := fun t : VTy => (∃ k, t = .int k) ∨ ∃ k, t = .float k
  let str := fun t : VTy => t = .str ∨ t = .string
  b = .string ∨ (num a ∧ num b) ∨ (a = .bool ∧ b = .bool) ∨ (a = .char ∧ (b = .char ∨ str b ∨ num b)) ∨ (str a ∧ (num b ∨ str b))

/-- What inference lets through although the runtime has no case for it: `-` on types other than signed integers and floating point numbers,
`%` on other than integers, casts, string literals of type `&str`. -/
def Unif.supported (env : Env) (s : ET) : Unif → Bool
  | .ofConst e _ => s e != some (.base .str)
  | .bin .mod _ _ e => (s e).all fun t => t.default.isInt
  | .un .neg _ e => (s e).all fun t => t.default.isSigned || t.default.isFloat
  | .un (.cast n) a _ => (s a).all fun t => (env.types n).all fun b => castCase t.default b
  | _ => true

/-- All the operators of a program are supported at the types given to them. -/
def supported (env : Env) (cs : List Ctx) (s : ET) : Bool := cs.all fun c => c.unifs.all (Unif.supported env s)

/-- Running the last step of inference again changes nothing. -/
def unchanged (cs : List Ctx) (st st' : ET × RT) : Bool :=
  (allLocs cs).all (fun l => decide (st.1 l = st'.1 l)) && (relArgs cs).all (fun p => decide (st.2 p.1 = st'.2 p.1))

/-- The types that values get are the same for both results. -/
def sameValues (cs : List Ctx) (st st' : ET × RT) : Bool :=
  (allLocs cs).all (fun l => decide ((st.1 l).map TSet.default = (st'.1 l).map TSet.default)) &&
    (relArgs cs).all (fun p => decide ((st.2 p.1).map (List.map TSet.default) = (st'.2 p.1).map (List.map TSet.default)))

/-- Running the last step of inference `k` more times, after which it changes nothing. -/
def settleTo (env : Env) (cs : List Ctx) : Nat → ET × RT → Option (ET × RT)
  | 0, st => match finalPass env cs st with
    | .ok st' => if unchanged cs st st' then some st else none
    | _ => none
  | k + 1, st => match finalPass env cs st with
    | .ok st' => settleTo env cs k st'
    | _ => none

/-- Repeating the last step of inference `k` times reaches a result that another repetition does not change and that gives values the same
types as the result of the first. -/
def settled (env : Env) (cs : List Ctx) (k : Nat) (st : ET × RT) : Bool :=
  match settleTo env cs k st with
  | some st' => sameValues cs st st'
  | none => false

/-- Whether an item is about a relation. -/
def Item.mentions (p : String) : Item F → Prop
  | .decl q _ => q = p
  | .fact q _ => q = p
  | .rule r => ∃ a ∈ r.atoms, a.pred = p

/-- Whether an item declares the types of a relation. -/
def Item.declares (p : String) : Item F → Prop
  | .decl q _ => q = p
  | _ => False

/-- No argument of an atom in a rule is the name of a declared constant. -/
def NoConstArgs (env : Env) (items : List (Item F)) : Prop :=
  ∀ (i : Nat) (r : TRule F) (j : Nat) (a : TAtom F) (m : Nat), (rulesOf items)[i]? = some r →
    (r.lits[j]? = some (.pos a) ∨ r.lits[j]? = some (.neg a)) → m < a.args.length → env.constTy [m, j, i] = none

end Scallop.Ty
