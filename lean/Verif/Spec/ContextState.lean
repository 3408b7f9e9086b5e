import Verif.Model.ContextState

/-!
# What restoring a context is to mean
-/

namespace Scallop.CtxState

/-- The calls that make up the program: everything that was declared, added and registered by the user. -/
def isProgram : IOp → Bool
  | .importFile _ | .program _ | .item _ | .register _ | .relation _ _ | .facts _ _ | .rule _ | .compile => true
  | .tensors | .stdlib | .monitors _ | .provenance _ _ _ | .setK _ | .earlyDiscard _ | .iterLimit _ | .run => false

/-- The same fact with the number of its choice increased. -/
def shiftFact (s : Nat) (f : Fact) : Fact := { f with disj := f.disj.map fun d => d.map (· + s) }

/-- The same call with all numbers of choices increased: facts exclude each other exactly if they did. -/
def shiftOp (s : Nat) : IOp → IOp
  | .facts rel fs => .facts rel (fs.map (shiftFact s))
  | op => op

/-- A call of the user: of a recorded method, or of another one. -/
inductive Call where
  | act (a : Act)
  | set (s : Setting)

/-- The calls of a user, none of which raises an exception. -/
def runAll (w : World) : List Call → Ctx → Option Ctx
  | [], c => some c
  | .act a :: l, c => match call w a c with
    | (c', true) => runAll w l c'
    | (_, false) => none
  | .set s :: l, c => match setting w s c with
    | (c', true) => runAll w l c'
    | (_, false) => none

/-- The call adds facts to a relation. -/
def Adds (r : String) (x : Call) : Prop := ∃ elems disj, x = .act (.facts r elems disj)

/-- The call declares a relation. -/
def Declares (r : String) (x : Call) : Prop := ∃ decl single mapping retain nonProb, x = .act (.relation r decl single mapping retain nonProb)

/-- No relation is made (non-)probabilistic or gets an input mapping but by its declaration, and none is declared after facts were added to it. -/
def Settled (calls : List Call) : Prop :=
  (∀ x ∈ calls, (∀ r b, x ≠ .set (.nonProb r b)) ∧ ∀ r m, x ≠ .set (.mapping r m)) ∧
  calls.Pairwise fun x y => ∀ r, Adds r x → ¬ Declares r y

/-- The program is taken by a new context also without the settings and the standard library, and with other numbers of choices. -/
def Independent (w : World) (args : String × Nat × Bool) (s : Nat) : Prop :=
  (∀ log op, isProgram op = true → w.ok ⟨args, log⟩ op = true → w.ok ⟨args, (log.filter isProgram).map (shiftOp s)⟩ (shiftOp s op) = true) ∧
  ∀ log r m, w.fits ⟨args, log⟩ r m = true → w.fits ⟨args, (log.filter isProgram).map (shiftOp s)⟩ r m = true

/-- The same fields, but for the context of the bindings and the counter of choices. -/
def Same (c d : Ctx) : Prop :=
  c.prov = d.prov ∧ c.k = d.k ∧ c.wmc = d.wmc ∧ c.trainK = d.trainK ∧ c.testK = d.testK ∧ c.mons = d.mons ∧ c.mappings = d.mappings ∧ c.retain = d.retain ∧
    c.nonProb = d.nonProb ∧ c.single = d.single ∧ c.history = d.history

/-- What the context of the bindings uses: the provenance, `k` and `wmc_with_disjunctions` it was made or last copied with. -/
def used (i : Internal) : String × Nat × Bool :=
  i.log.foldl (fun u op => match op with | .provenance p k b => (p, k, b) | _ => u) i.args

/-- The fields of a context say what the context of the bindings uses. -/
def Agrees (c : Ctx) : Prop := c.prov = (used c.internal).1 ∧ c.k = some (used c.internal).2.1 ∧ c.wmc = (used c.internal).2.2

end Scallop.CtxState
