import Verif.Model.Back

/-!
# What a rule means

A derivation of a rule is an assignment of values to its variables that makes every literal true. What a user can observe of it is
the head instance it produces and the facts it uses: the positive and negated facts looked up (in order, so that any provenance
can be computed from them) and the entities it creates. Two rules that have the same derivations derive the same facts with the
same tags from every database.
-/

namespace Scallop.Back

variable {N F R : Type}

/-- The value of a term. -/
def Term.val (σ : N → Val F) : Term N F → Val F
  | .var x => σ x
  | .const c => c

/-- The value of the right-hand side of an assignment. -/
def AExpr.val (X : Ext F) (σ : N → Val F) : AExpr N F → Outcome (Val F)
  | .bin op a b => evalBin X .run op (a.val σ) (b.val σ)
  | .un op a => evalUn X .run op (a.val σ)
  | .ite c t e =>
    match (c.val σ).asBool? with
    | some true => .ok (t.val σ)
    | some false => .ok (e.val σ)
    | none => .panic
  | .call f args => X.call f (args.map (Term.val σ))
  | .new f args => .ok (.entity (X.encode f (args.map (Term.val σ))))

/-- What it means for a literal to be satisfied, apart from looking facts up. `Red` says which values a reduce relates. -/
def Lit.Holds (X : Ext F) (Red : R → List (Val F) → Prop) (σ : N → Val F) : Lit N F R → Prop
  | .atom _ => True
  | .neg _ => True
  | .assign x e => e.val X σ = .ok (σ x)
  | .cbin op a b => evalBin X .run op.toBin (a.val σ) (b.val σ) = .ok (.bool true)
  | .cnot a => evalUn X .run .not (a.val σ) = .ok (.bool true)
  | .reduce r vs => Red r (vs.map σ)
  | .tt => True
  | .ff => False

/-- A fact used, or an entity created, by a derivation. -/
inductive Use (F : Type) where
  | pos (p : String) (args : List (Val F))
  | neg (p : String) (args : List (Val F))
  | entity (f : String) (args : List (Val F))
deriving DecidableEq

/-- What a literal uses. -/
def Lit.uses (σ : N → Val F) : Lit N F R → List (Use F)
  | .atom a => [.pos a.predicate (a.args.map (Term.val σ))]
  | .neg a => [.neg a.predicate (a.args.map (Term.val σ))]
  | .assign _ (.new f args) => [.entity f (args.map (Term.val σ))]
  | _ => []

/-- An atom with its variables replaced by values. -/
def Atom.inst (σ : N → Val F) (a : Atom N F) : String × List (Val F) := (a.predicate, a.args.map (Term.val σ))

/-- The fact, or the alternative facts, that a head stands for. -/
def Head.inst (σ : N → Val F) : Head N F → Bool × List (String × List (Val F))
  | .atom a => (false, [a.inst σ])
  | .disj as => (true, as.map (Atom.inst σ))

/-- The rule derives the head instance `h` using `us`. -/
def Derives (X : Ext F) (Red : R → List (Val F) → Prop) (r : Rule N F R)
    (h : Bool × List (String × List (Val F))) (us : List (Use F)) : Prop :=
  ∃ σ : N → Val F, (∀ l ∈ r.body, l.Holds X Red σ) ∧ r.head.inst σ = h ∧ r.body.flatMap (Lit.uses σ) = us

/-- Two rules have the same derivations: same results, with the same tags, on every database. -/
def SameDerivations (X : Ext F) (Red : R → List (Val F) → Prop) (r r' : Rule N F R) : Prop :=
  ∀ h us, Derives X Red r h us ↔ Derives X Red r' h us

/-- Equality of floats is identity: there is no NaN and only one zero. -/
def _root_.Scallop.Ext.ExactFloats (X : Ext F) : Prop := ∀ a b : F, X.feq a b = true ↔ a = b

/-- Type casts evaluated by the compiler agree with those evaluated by the engine, unless the compiler panics. -/
def _root_.Scallop.Ext.CastAgrees (X : Ext F) : Prop := ∀ ty v, X.cast .compile ty v ≠ .panic → X.cast .compile ty v = X.cast .run ty v

end Scallop.Back
