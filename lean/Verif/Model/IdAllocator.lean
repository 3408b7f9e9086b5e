import Verif.Model.Base

/-!
# Identifier allocation

Models `/repo/core/src/utils/id_allocator.rs`. Identifiers are natural numbers, so that the counter never wraps (`usize` in the code).
-/

namespace Scallop

/-- Models `struct IdAllocator` (`id_allocator.rs` 5-7). -/
structure IdAllocator where
  id : Nat

/-- Models `IdAllocator::new_with_start` (`id_allocator.rs` 14-16); `new` (10-12) starts at 0. -/
def IdAllocator.newWithStart (start : Nat) : IdAllocator := ⟨start⟩

/-- Models `IdAllocator::alloc` (`id_allocator.rs` 18-22): the identifier and the allocator afterwards. -/
def IdAllocator.alloc (a : IdAllocator) : Nat × IdAllocator := (a.id, ⟨a.id + 1⟩)

/-- What any number of threads do with shared allocators (`IdAllocator2`, `id_allocator.rs` 27-49). The mutex makes each `alloc` one step, so
an execution is a sequence of steps, whatever threads take them. A handle is what `new` or `clone` returned. -/
inductive AllocOp where
  | new (start : Nat)
  | clone (handle : Nat)
  | alloc (handle : Nat)

/-- The shared cells (the `Mutex<IdAllocator>`s), the cell each handle points to (`Arc`), and the identifiers given out so far with the cell
they came from. -/
structure AllocState where
  cells : List IdAllocator
  handles : List Nat
  given : List (Nat × Nat)

/-- One step: `new_with_start` (`id_allocator.rs` 38-42), `clone` (derived, 26: the `Arc` is cloned), `alloc` (44-46). `none` for a handle that
does not exist. -/
def AllocState.step (s : AllocState) : AllocOp → Option AllocState
  | .new start => some ⟨s.cells ++ [IdAllocator.newWithStart start], s.handles ++ [s.cells.length], s.given⟩
  | .clone h => (s.handles[h]?).map (fun c => { s with handles := s.handles ++ [c] })
  | .alloc h => do
    let c ← s.handles[h]?
    let a ← s.cells[c]?
    let (id, a') := a.alloc
    some ⟨s.cells.set c a', s.handles, s.given ++ [(c, id)]⟩

/-- An execution. -/
def AllocState.run (ops : List AllocOp) : Option AllocState := ops.foldlM AllocState.step ⟨[], [], []⟩

end Scallop
