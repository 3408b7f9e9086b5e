import Verif.Model.Gallop
import Mathlib.Data.List.Sort

/-!
# Sorted collections

Models `/repo/core/src/runtime/dynamic/collections/sorted.rs`. A `DynamicSortedCollection` is the list of its `elements`.
-/

namespace Scallop

variable {α T W : Type*}

/-- `Vec::swap`; `none` is the out-of-bounds panic. -/
def swapAt {β : Type*} (l : List β) (i j : Nat) : Option (List β) :=
  match l[i]?, l[j]? with
  | some a, some b => some ((l.set i b).set j a)
  | _, _ => none

/-- `elements.sort()` (`sorted.rs` 61): a stable sort on the tuple. Rust's merge sort and this insertion sort are both
stable, hence return the same list. -/
def sortElems [LinearOrder α] (l : List (Elem α T)) : List (Elem α T) :=
  l.insertionSort (fun a b => a.tuple ≤ b.tuple)

/-- Compaction loop of `from_vec` (`sorted.rs` 69-81). State: `elements`, `index`, `last_index`, `to_keep`. The fuel counts
the remaining turns (`len - index`). `none` is an out-of-bounds panic. -/
def compactLoop [DecidableEq α] (c : Prov T W) :
    Nat → List (Elem α T) → Nat → Nat → Nat → Option (List (Elem α T) × Nat)
  | 0, els, _, _, keep => some (els, keep)
  | fuel + 1, els, index, last, keep =>
    match els[index]?, els[last]? with
    | some e, some l =>
      if e.tuple = l.tuple then
        compactLoop c fuel (els.set last { l with tag := c.add l.tag e.tag }) (index + 1) last keep
      else if keep < index then
        match swapAt els keep index with
        | some els' => compactLoop c fuel els' (index + 1) keep (keep + 1)
        | none => none
      else compactLoop c fuel els (index + 1) keep (keep + 1)
    | _, _ => none

/-- Models `DynamicSortedCollection::from_vec` (`sorted.rs` 60-86). `none` is a panic. -/
def fromVec? [LinearOrder α] (c : Prov T W) (v : List (Elem α T)) : Option (List (Elem α T)) :=
  let els := sortElems v
  if els.length > 1 then
    (compactLoop c (els.length - 1) els 1 0 1).map (fun p => p.1.take p.2)
  else some els

/-- Loop of `retain` (`sorted.rs` 129-150). State: `elements`, `i`, `num_to_keep`, `maybe_last_empty_id`; the fuel counts
the remaining turns. `none` is an out-of-bounds panic. -/
def retainLoop {β : Type*} (f : Nat → β → Bool) :
    Nat → List β → Nat → Nat → Option Nat → Option (List β × Nat)
  | 0, els, _, keep, _ => some (els, keep)
  | fuel + 1, els, i, keep, emp =>
    match els[i]? with
    | none => none
    | some e =>
      if f i e then
        match emp with
        | some j =>
          match swapAt els i j with
          | some els' => retainLoop f fuel els' (i + 1) (keep + 1) (some (j + 1))
          | none => none
        | none => retainLoop f fuel els (i + 1) (keep + 1) none
      else
        match emp with
        | some j => retainLoop f fuel els (i + 1) keep (some j)
        | none => retainLoop f fuel els (i + 1) keep (some i)

/-- Models `DynamicSortedCollection::retain` (`sorted.rs` 116-154), for a predicate without side effects. `none` is a panic. -/
def retain? {β : Type*} (f : Nat → β → Bool) (els : List β) : Option (List β) :=
  (retainLoop f els.length els 0 0 none).map (fun p => p.1.take p.2)

/-- `Vec::insert`; `none` is the out-of-bounds panic. -/
def vecInsert {β : Type*} (l : List β) (i : Nat) (x : β) : Option (List β) :=
  if i ≤ l.length then some (l.take i ++ x :: l.drop i) else none

/-- Models `DynamicSortedCollection::insert` (`sorted.rs` 184-199). -/
def insert? [LinearOrder α] (c : Prov T W) (els : List (Elem α T)) (e : Elem α T) : Option (List (Elem α T)) :=
  let i := gallopIndex els 0 (fun x => x.tuple < e.tuple)
  match els[i]? with
  | some n =>
    if n.tuple ≠ e.tuple then vecInsert els i e
    else some (els.set i { n with tag := c.add e.tag n.tag })
  | none => some (els ++ [e])

/-- Models `DynamicSortedCollection::insert_unchecked` (`sorted.rs` 203-206). -/
def insertUnchecked? [LinearOrder α] (els : List (Elem α T)) (e : Elem α T) : Option (List (Elem α T)) :=
  vecInsert els (gallopIndex els 0 (fun x => x.tuple < e.tuple)) e

/-- The `for mut elem in elements1` loop of `merge` (`sorted.rs` 247-262), followed by `elements.extend(elements2)`.
The inner `while` (248-250) pushes the elements of `elements2` smaller than `elem`. -/
def mergeLoop [LinearOrder α] (c : Prov T W) : List (Elem α T) → List (Elem α T) → List (Elem α T)
  | [], l2 => l2
  | e :: l1, l2 =>
    let lt := l2.takeWhile (fun x => x.tuple < e.tuple)
    match l2.dropWhile (fun x => x.tuple < e.tuple) with
    | [] => lt ++ e :: mergeLoop c l1 []
    | x :: rest =>
      if x.tuple = e.tuple then lt ++ { e with tag := c.add e.tag x.tag } :: mergeLoop c l1 rest
      else lt ++ e :: mergeLoop c l1 (x :: rest)

/-- The part of `merge` after the optional swap (`sorted.rs` 231-264): fast path when all of the second list comes after the
first one, otherwise push the first element of the first list, combine it with the head of the second if equal, and run the loop. -/
def mergeOrdered [LinearOrder α] (c : Prov T W) (a : Elem α T) (l1 : List (Elem α T)) (b : Elem α T) (l2 : List (Elem α T)) :
    List (Elem α T) :=
  if ((a :: l1).getLast (by simp)).tuple < b.tuple then (a :: l1) ++ (b :: l2)
  else if a.tuple = b.tuple then { a with tag := c.add a.tag b.tag } :: mergeLoop c l1 l2
  else a :: mergeLoop c l1 (b :: l2)

/-- Models `DynamicSortedCollection::merge` (`sorted.rs` 208-265). -/
def merge [LinearOrder α] (c : Prov T W) : List (Elem α T) → List (Elem α T) → List (Elem α T)
  | [], l2 => l2
  | l1, [] => l1
  | a :: l1, b :: l2 => if b.tuple < a.tuple then mergeOrdered c b l2 a l1 else mergeOrdered c a l1 b l2

/-! ### Functional forms of the two in-place loops

Used by the models of the callers. They are proved equal to `fromVec?` and `retain?` (`Verif/Proof/Sorted.lean`). -/

/-- Functional form of the compaction: combine runs of equal tuples. -/
def runs [DecidableEq α] (c : Prov T W) : Elem α T → List (Elem α T) → List (Elem α T)
  | a, [] => [a]
  | a, b :: l => if b.tuple = a.tuple then runs c { a with tag := c.add a.tag b.tag } l else a :: runs c b l

/-- Functional form of `from_vec`; equal to `fromVec?` by `fromVec?_eq`. -/
def fromVec [LinearOrder α] (c : Prov T W) (v : List (Elem α T)) : List (Elem α T) :=
  match sortElems v with
  | [] => []
  | a :: l => runs c a l

/-- Functional form of `retain`: keep the elements selected by index and value, in order. -/
def retainIdx {β : Type*} (f : Nat → β → Bool) (els : List β) : List β :=
  (els.zipIdx.filter (fun p => f p.2 p.1)).map Prod.fst

end Scallop
