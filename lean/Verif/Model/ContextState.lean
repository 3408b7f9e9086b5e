/-!
# The state of a Python context

`etc/scallopy/scallopy/context.py` and `etc/scallopy/scallopy/utils/history.py`: the fields of a `ScallopContext`, the history that
`record_history` keeps, copies of a context, and its restoration from a pickled state by replaying the history.  The context of the Rust bindings
is represented by the arguments with which it was made and the calls it has got since; whether it takes a call is not modelled but given.
-/

namespace Scallop.CtxState

/-- Python values. -/
inductive V where
  | none
  | num (n : Int)
  | tup (l : List V)

/-- A fact as it is passed to the bindings: its tag, if the provenance takes tags; the number of its choice, if the provenance takes one; its tuple. -/
structure Fact where
  tag : Option V
  disj : Option (Option Nat)
  tuple : V

/-- The calls of the bindings (`etc/scallopy/src/context.rs` 224–620).  Simplified: programs, rules and functions are texts. -/
inductive IOp where
  | tensors
  | stdlib
  | monitors (ms : List String)
  | provenance (name : String) (k : Nat) (wmc : Bool)
  | setK (k : Nat)
  | earlyDiscard (b : Bool)
  | iterLimit (n : Option Nat)
  | run
  | importFile (s : String)
  | program (s : String)
  | item (s : String)
  | register (s : String)
  | relation (name decl : String)
  | facts (rel : String) (fs : List Fact)
  | rule (s : String)
  | compile

/-- The context of the bindings: the provenance, `k` and `wmc_with_disjunctions` it was made with, and the calls it has got. -/
structure Internal where
  args : String × Nat × Bool
  log : List IOp

/-- Whether the context of the bindings takes a call, has a relation, and takes the tuples of an input mapping. -/
structure World where
  ok : Internal → IOp → Bool
  hasRel : Internal → String → Bool
  fits : Internal → String → V → Bool

/-- The recorded methods with their arguments (`context.py` 273–582, those with `@record_history`).  `single` says that the type of a relation is not a tuple. -/
inductive Act where
  | importFile (s : String)
  | program (s : String)
  | item (s : String)
  | register (s : String)
  | relation (name decl : String) (single : Bool) (mapping : Option V) (retain : Option Nat) (nonProb : Bool)
  | facts (rel : String) (elems : List V) (disj : List (List Nat))
  | rule (s : String)
  | compile

/-- Methods that are not recorded (`context.py` 232–256, 373–384, 655–704). -/
inductive Setting where
  | nonProb (rel : String) (b : Bool)
  | mapping (rel : String) (m : V)
  | earlyDiscard (b : Bool)
  | iterLimit (n : Option Nat)
  | run
  | training (b : Bool)

/-- The fields of a context (`context.py` 95–109).  Simplified: without custom provenances and sampled facts. -/
structure Ctx where
  prov : String
  k : Option Nat
  wmc : Bool
  trainK : Option Nat
  testK : Option Nat
  mons : List String
  mappings : String → Option V
  retain : String → Option Nat
  nonProb : String → Bool
  single : String → Bool
  counter : Nat
  history : List Act
  internal : Internal

/-- Setting a key of a dictionary. -/
def upd {β : Type} (f : String → β) (k : String) (v : β) : String → β := fun x => if x = k then v else f x

/-- Setting a key if there is a value (`context.py` 484–490, 704). -/
def updOpt {β : Type} (f : String → Option β) (k : String) : Option β → String → Option β
  | some v => upd f k (some v)
  | none => f

/-- A new context (`context.py` 95–123). -/
def newCtx (prov : String) (k : Nat) (wmc : Bool) (trainK testK : Option Nat) (noStdlib : Bool) (mons : List String) : Ctx :=
  { prov := prov, k := some k, wmc := wmc, trainK := trainK, testK := testK, mons := mons, mappings := fun _ => none, retain := fun _ => none,
    nonProb := fun _ => false, single := fun _ => false, counter := 0, history := [],
    internal := ⟨(prov, k, wmc), [.tensors] ++ (if noStdlib then [] else [.stdlib]) ++ (if mons.isEmpty then [] else [.monitors mons])⟩ }

/-- A call of the bindings: what it changes is changed also if there is an exception. -/
def send (w : World) (op : IOp) (c : Ctx) : Ctx × Bool :=
  ({ c with internal := ⟨c.internal.args, c.internal.log ++ [op]⟩ }, w.ok c.internal op)

/-! ## Facts -/

/-- `requires_tag` (`context.py` 718–725). -/
def requiresTag (prov : String) : Bool := !(prov == "unit" || prov == "proofs")

/-- `supports_disjunctions` (`context.py` 747–760). -/
def supports (prov : String) : Bool :=
  ["proofs", "topkproofs", "topbottomkclauses", "diffsamplekproofs", "difftopkproofs", "difftopbottomkclauses", "difftopkproofsdebug"].contains prov

/-- A value that is not a tuple is made one (`context.py` 547, 549). -/
def wrap : V → V
  | .tup l => .tup l
  | v => .tup [v]

/-- The tag and the tuple of an element; others are exceptions (`context.py` 547, 782, 791). -/
def pairOf : V → Option (V × V)
  | .tup [a, b] => some (a, b)
  | _ => none

/-- The number of the last disjunction with a fact, counted from `c` (`context.py` 771–785). -/
def lastDisj (i : Nat) : List (List Nat) → Nat → Option Nat
  | [], _ => none
  | d :: ds, c => match lastDisj i ds (c + 1) with
    | some n => some n
    | none => if d.contains i then some c else none

/-- `add_facts` up to the call of the bindings (`context.py` 540–555, 762–800): the facts, or an exception. -/
def factsOf (prov : String) (nonProb single : Bool) (counter : Nat) (elems : List V) (disj : List (List Nat)) : Option (List Fact) :=
  let tagged := requiresTag prov
  let elems := if nonProb && tagged then elems.map (fun t => .tup [.none, t]) else elems
  if supports prov && disj.any (fun d => d.any fun i => decide (elems.length ≤ i)) then none else
  elems.zipIdx.mapM fun (e, i) =>
    let d := if supports prov then some (lastDisj i disj counter) else none
    if tagged then match pairOf e with
      | some (tag, t) => some ⟨some tag, d, if single then wrap t else t⟩
      | none => none
    else some ⟨none, d, if single then wrap e else e⟩

/-! ## Methods -/

/-- `set_input_mapping` checks the tuples of the mapping, if there is one (`context.py` 484–486, 698–701). -/
def mappingFits (w : World) (i : Internal) (name : String) : Option V → Bool
  | some m => w.fits i name m
  | none => true

/-- What a recorded method does (`context.py` 273–582).  Simplified: after an exception in `add_facts` the counter has passed all disjunctions. -/
def perform (w : World) (a : Act) (c : Ctx) : Ctx × Bool :=
  match a with
  | .importFile s => send w (.importFile s) c
  | .program s => send w (.program s) c
  | .item s => send w (.item s) c
  | .register s => send w (.register s) c
  | .rule s => send w (.rule s) c
  | .compile => send w .compile c
  | .facts rel elems disj =>
    let c' := { c with counter := if supports c.prov then c.counter + disj.length else c.counter }
    match factsOf c.prov (c.nonProb rel) (c.single rel) c.counter elems disj with
    | none => (c', false)
    | some fs => send w (.facts rel fs) c'
  | .relation name decl single mapping retain nonProb =>
    let (c1, b) := send w (.relation name decl) c
    if !b then (c1, false) else
    if !mappingFits w c1.internal name mapping then (c1, false) else
    ({ c1 with
        mappings := updOpt c1.mappings name mapping
        retain := updOpt c1.retain name retain
        nonProb := if nonProb then upd c1.nonProb name true else c1.nonProb
        single := if single then upd c1.single name true else c1.single }, true)

/-- `record_history` (`history.py` 19–24): the call is recorded before it is made. -/
def call (w : World) (a : Act) (c : Ctx) : Ctx × Bool := perform w a { c with history := c.history ++ [a] }

/-- `k` for training or testing (`context.py` 373–384); `none` if it stays as it is. -/
def kFor (c : Ctx) (training : Bool) : Option (Option Nat) :=
  if c.trainK.isSome || c.testK.isSome then
    some (if training then (if c.trainK.isSome then c.trainK else c.k) else (if c.testK.isSome then c.testK else c.k))
  else none

/-- The other methods. -/
def setting (w : World) (s : Setting) (c : Ctx) : Ctx × Bool :=
  match s with
  | .nonProb rel b => if w.hasRel c.internal rel then ({ c with nonProb := upd c.nonProb rel b }, true) else (c, false)
  | .mapping rel m => if w.fits c.internal rel m then ({ c with mappings := upd c.mappings rel (some m) }, true) else (c, false)
  | .earlyDiscard b => send w (.earlyDiscard b) c
  | .iterLimit n => send w (.iterLimit n) c
  | .run => send w .run c
  | .training b => match kFor c b with
    | none => (c, true)
    | some none => (c, false)
    | some (some k) => send w (.setK k) c

/-- `clone` (`context.py` 168–212); exceptions are `none`. -/
def clone (w : World) (prov : Option String) (k : Option Nat) (wmc : Option Bool) (mons : Option (List String)) (c : Ctx) : Option Ctx :=
  let c1 := match prov with
    | none => some c
    | some p => match (if k.isSome then k else c.k) with
      | none => none
      | some k' =>
        let op := IOp.provenance p k' (match wmc with | some b => b | none => c.wmc)
        if w.ok c.internal op then some { c with internal := ⟨c.internal.args, c.internal.log ++ [op]⟩, prov := p, k := k } else none
  match c1, mons with
  | some c1, some ms => some { c1 with mons := ms, internal := ⟨c1.internal.args, c1.internal.log ++ [IOp.monitors ms]⟩ }
  | c1, _ => c1

/-! ## Pickling -/

/-- The methods of a history are called again (`context.py` 163–166). -/
def replay (w : World) : List Act → Ctx → Option Ctx
  | [], c => some c
  | a :: l, c => match call w a c with
    | (c', true) => replay w l c'
    | (_, false) => none

/-- `__getstate__` and `__setstate__` (`context.py` 142–166): all fields but the context of the bindings are kept; that one is made anew, for which `k` must be a number. -/
def restore (w : World) (c : Ctx) : Option Ctx :=
  match c.k with
  | none => none
  | some k => replay w c.history { c with history := [], internal := ⟨(c.prov, k, c.wmc), []⟩ }

end Scallop.CtxState
