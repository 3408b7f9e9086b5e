import Verif.Model.Sorted
import Verif.Model.Expr

/-!
# Storage of relations

Models `/repo/core/src/runtime/dynamic/collections/{mod,sorted,indexed_vec}.rs` and `/repo/core/src/runtime/database/metadata.rs`: a
relation is stored as a sorted collection or as a vector indexed by the first column. Dense matrices are not modelled (they cannot be declared,
`metadata.rs` 54-60).
-/

namespace Scallop.Exec

variable {F T W : Type}

/-- Models `Tuple::as_values` (`common/tuple.rs` 45-56); `none` is a panic. -/
def tupleValues : Tup (Val F) → Option (List (Val F))
  | .val _ => none
  | .tup ts => ts.mapM (fun t => match t with | .val v => some v | .tup _ => none)

mutual
/-- Models `Tuple::in_order_values` (`common/tuple.rs` 58-69). -/
def inOrder : Tup (Val F) → List (Val F)
  | .val v => [v]
  | .tup ts => inOrderList ts
/-- The loop of `in_order_values`. -/
def inOrderList : List (Tup (Val F)) → List (Val F)
  | [] => []
  | t :: ts => inOrder t ++ inOrderList ts
end

/-- Models `Value::cast_to_usize` (`common/value.rs` 66-82): the conversion `as usize` takes the value modulo `2 ^ 64`; `none` is a panic. -/
def castToUsize : Val F → Option Nat
  | .int _ n => some (n % 2 ^ 64).toNat
  | _ => none

/-- Models `Value::as_usize` (`common/value.rs` 59-64) as called on a tuple (`common/tuple.rs` 142-144); `none` is a panic. -/
def asUsize : Tup (Val F) → Option Nat
  | .val (.int .usize n) => some n.toNat
  | _ => none

/-- Conversion of an index to an integer type, `as` (`common/value_type.rs` 134-150). -/
def castIndex (k : IntTy) (i : Nat) : Int :=
  let m : Int := (i : Int) % 2 ^ k.bits
  if k.signed && decide (2 ^ (k.bits - 1) ≤ m) then m - 2 ^ k.bits else m

/-- A slot of an indexed vector: the other columns, and the tag. -/
abbrev Slot (F T : Type) := Option (Tup (Val F) × T)

/-- Models the body of the loop of `DynamicIndexedVecCollection::from_vec` (`indexed_vec.rs` 46-78): make room, then fill the slot, merge the tags of
equal tuples, or overwrite. `none` is a panic. The equality of tuples is that of `PartialEq`. -/
def indexedPut [DecidableEq (Tup (Val F))] (c : Prov T W) (vec : List (Slot F T)) (e : Elem (Tup (Val F)) T) : Option (List (Slot F T)) :=
  (tupleValues e.tuple).bind (fun vs =>
    match vs with
    | [] => none
    | head :: rest =>
      (castToUsize head).map (fun i =>
        let tail : Tup (Val F) := match rest with | [v] => .val v | vs => .tup (vs.map .val)
        let vec' := vec ++ List.replicate (i + 1 - vec.length) none
        match vec'[i]? with
        | some (some (old, tag)) => vec'.set i (some (if old = tail then (old, c.add tag e.tag) else (tail, e.tag)))
        | _ => vec'.set i (some (tail, e.tag))))

/-- The type of the index (`indexed_vec.rs` 36-37): that of the first column of the first tuple; `none` is a panic. A first column that is not an
integer panics later, in `cast_to_usize`. -/
def indexType : List (Elem (Tup (Val F)) T) → Option IntTy
  | [] => some .usize
  | e :: _ =>
    match e.tuple.at? 0 with
    | some (.val (.int k _)) => some k
    | _ => none

/-- Models `enum DynamicCollection` (`collections/mod.rs`): sorted, or indexed with the type of the index. -/
inductive Coll (F T : Type) where
  | sorted (l : List (Elem (Tup (Val F)) T))
  | indexed (k : IntTy) (vec : List (Slot F T))

/-- Models `StorageMetadata::from_vec` (`metadata.rs` 74-80); `none` is a panic. Memory is unbounded: a vector indexed by a negative number, which is
too long to be allocated, is not a panic here. -/
def Coll.make [LinearOrder (Val F)] (c : Prov T W) (indexed : Bool) (l : List (Elem (Tup (Val F)) T)) : Option (Coll F T) :=
  if indexed then (indexType l).bind (fun k => (l.foldlM (indexedPut c) []).map (.indexed k)) else some (.sorted (fromVec c l))

/-- Models `StorageMetadata::create_empty_storage` (`metadata.rs` 65-71). -/
def Coll.empty (indexed : Bool) : Coll F T := if indexed then .indexed .usize [] else .sorted []

/-- Models `DynamicCollectionRef::iter` (`collections/mod.rs`), with `construct_dyn_elem` for indexed vectors (`indexed_vec.rs` 158-169,
207-217). -/
def Coll.elems : Coll F T → List (Elem (Tup (Val F)) T)
  | .sorted l => l
  | .indexed k vec => vec.zipIdx.filterMap (fun p => p.1.map (fun s =>
      ⟨.tup ((Val.int k (castIndex k p.2) :: inOrder s.1).map .val), s.2⟩))

end Scallop.Exec
