import Verif.Model.Base
import Mathlib.Order.Defs.LinearOrder
import Mathlib.Data.List.Basic
import Mathlib.Data.List.Sort
import Mathlib.Data.Nat.Basic

/-!
# Literals, conjunctions, mutual exclusions

Models `/repo/core/src/runtime/provenance/common/{literal,clause,disjunction}.rs`. A `BTreeSet` is modelled by the ascending list of its
elements without repetition.
-/

namespace Scallop

/-- Models `BTreeSet::insert`. -/
def bsetInsert {α : Type*} [LinearOrder α] (x : α) : List α → List α
  | [] => [x]
  | y :: ys => if x < y then x :: y :: ys else if x = y then y :: ys else y :: bsetInsert x ys

/-- Models collecting an iterator into a `BTreeSet`. -/
def bsetCollect {α : Type*} [LinearOrder α] (l : List α) : List α := l.foldl (fun s x => bsetInsert x s) []

/-- Models `enum Literal` (`literal.rs` 4-7). -/
inductive Literal where
  | pos (f : Nat)
  | neg (f : Nat)
deriving DecidableEq

namespace Literal

/-- Models `fact_id` (`literal.rs` 10-15). -/
def factId : Literal → Nat
  | pos f => f
  | neg f => f

/-- Models `sign` (`literal.rs` 17-22). -/
def sign : Literal → Bool
  | pos _ => true
  | neg _ => false

/-- Models `negate` (`literal.rs` 24-29). -/
def negate : Literal → Literal
  | pos f => neg f
  | neg f => pos f

end Literal

/-- Models `struct Clause` (`clause.rs` 6-8). -/
abbrev Clause := List Literal

namespace Clause

/-- Models the check of neighbours in `is_valid` (`clause.rs` 57-74): no two consecutive literals are opposite. -/
def isValid : Clause → Bool
  | l1 :: l2 :: c =>
    match l1, l2 with
    | .pos x, .neg y => if x = y then false else isValid (l2 :: c)
    | .neg x, .pos y => if x = y then false else isValid (l2 :: c)
    | _, _ => isValid (l2 :: c)
  | _ => true

/-- Models `pos_fact_ids` (`clause.rs` 96-105). -/
def posFactIds (c : Clause) : List Nat :=
  bsetCollect (c.filterMap (fun l => match l with | .pos v => some v | .neg _ => none))

/-- The turns of the loop of `merge` (`clause.rs` 180-215) while the left cursor stays at `x`; `rec` continues with the next left
literal. -/
def mergeFrom (x : Literal) (rec : Clause → Option Clause) : Clause → Option Clause
  | [] => (rec []).map (x :: ·)
  | y :: ys =>
    if x.factId = y.factId then
      match x.sign, y.sign with
      | true, true => (rec ys).map (.pos x.factId :: ·)
      | false, false => (rec ys).map (.neg x.factId :: ·)
      | _, _ => none
    else if x.factId < y.factId then (rec (y :: ys)).map (x :: ·)
    else (mergeFrom x rec ys).map (y :: ·)

/-- Models `merge` (`clause.rs` 172-218). -/
def merge : Clause → Clause → Option Clause
  | [], ys => some ys
  | x :: xs, ys => mergeFrom x (merge xs) ys

/-- As `mergeFrom`, for `merge_unchecked` (`clause.rs` 124-159). -/
def mergeUncheckedFrom (x : Literal) (rec : Clause → Clause) : Clause → Clause
  | [] => x :: rec []
  | y :: ys =>
    if x.factId = y.factId then
      match x.sign, y.sign with
      | true, true => .pos x.factId :: rec ys
      | false, false => .neg x.factId :: rec ys
      | _, _ => .pos x.factId :: .neg x.factId :: rec ys
    else if x.factId < y.factId then x :: rec (y :: ys)
    else y :: mergeUncheckedFrom x rec ys

/-- Models `merge_unchecked` (`clause.rs` 116-161). -/
def mergeUnchecked : Clause → Clause → Clause
  | [], ys => ys
  | x :: xs, ys => mergeUncheckedFrom x (mergeUnchecked xs) ys

end Clause

/-! ### Mutual exclusions -/

/-- The loop of `Disjunction::has_conflict` while the cursor of the exclusion stays at `j` (`disjunction.rs` 36-55); `rec` continues
with the next member. -/
def conflictFrom (j : Nat) (rec : Bool → List Nat → Bool) (same : Bool) : List Nat → Bool
  | [] => false
  | f :: fs =>
    if j = f then if same then true else rec true fs
    else if j < f then rec same (f :: fs)
    else conflictFrom j rec same fs

/-- The loop of `Disjunction::has_conflict` (`disjunction.rs` 30-56). -/
def conflictLoop : List Nat → Bool → List Nat → Bool
  | [], _, _ => false
  | j :: js, same, fs => conflictFrom j (conflictLoop js) same fs

/-- Models `Disjunction::has_conflict` (`disjunction.rs` 15-57). `none` is the panic on an empty set of facts. -/
def disjunctionConflict (js facts : List Nat) : Option Bool :=
  if js.length < 2 then some false
  else
    match js.getLast?, js.head?, facts.getLast?, facts.head? with
    | some jLast, some jFirst, some fLast, some fFirst =>
      if jLast < fFirst ∨ fLast < jFirst then some false else some (conflictLoop js false facts)
    | _, _, _, _ => none

/-- Models `struct Disjunctions` (`disjunction.rs` 71-75). -/
structure Disjunctions where
  idMap : List (Nat × Nat)
  disjunctions : List (List Nat)

namespace Disjunctions

/-- Models `Disjunctions::new` (`disjunction.rs` 78-83). -/
def new : Disjunctions := ⟨[], []⟩

/-- The loop of `has_conflict` (`disjunction.rs` 99-105). -/
def anyConflict : List (List Nat) → List Nat → Option Bool
  | [], _ => some false
  | d :: ds, facts =>
    match disjunctionConflict d facts with
    | none => none
    | some true => some true
    | some false => anyConflict ds facts

/-- Models `Disjunctions::has_conflict` (`disjunction.rs` 93-106); `none` would be a panic. -/
def hasConflict? (ds : Disjunctions) (facts : List Nat) : Option Bool :=
  if facts.length < 2 then some false else anyConflict ds.disjunctions facts

/-- `has_conflict` as its callers use it; `hasConflict?` is never `none` (`c29_no_panic`). -/
def hasConflict (ds : Disjunctions) (facts : List Nat) : Bool := decide (ds.hasConflict? facts = some true)

/-- Models `add_disjunction` (`disjunction.rs` 108-117). `none` is a panic of the index access. -/
def addDisjunction (ds : Disjunctions) (disjId factId : Nat) : Option Disjunctions :=
  match ds.idMap.lookup disjId with
  | some i =>
    match ds.disjunctions[i]? with
    | some d => some { ds with disjunctions := ds.disjunctions.set i (bsetInsert factId d) }
    | none => none
  | none => some ⟨(disjId, ds.disjunctions.length) :: ds.idMap, ds.disjunctions ++ [[factId]]⟩

end Disjunctions

end Scallop
