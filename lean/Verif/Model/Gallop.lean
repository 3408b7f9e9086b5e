import Verif.Model.Base

/-!
# Galloping search

Models `/repo/core/src/runtime/utils/gallop.rs` (24-45).
-/

namespace Scallop

/-- `cmp(&slice[i])` guarded by `i < slice.len()`; `false` when out of bounds, as in the loop conditions 28 and 35. -/
def cmpAt {β : Type*} (s : List β) (cmp : β → Bool) (i : Nat) : Bool :=
  match s[i]? with
  | some x => cmp x
  | none => false

/-- First loop of `gallop_index` (`gallop.rs` 28-31): `while begin + step < len && cmp(slice[begin+step])`,
`begin += step; step <<= 1`. Returns `(begin, step)`. The fuel is the slice length; `begin` grows with each turn so it is
never exhausted before the loop condition fails (the correctness theorem would not hold otherwise). -/
def gallopUp {β : Type*} (s : List β) (cmp : β → Bool) : Nat → Nat → Nat → Nat × Nat
  | 0, b, step => (b, step)
  | fuel + 1, b, step =>
    if cmpAt s cmp (b + step) then gallopUp s cmp fuel (b + step) (step * 2) else (b, step)

/-- Second loop of `gallop_index` (`gallop.rs` 34-39): `while step > 0`, probe, `step >>= 1`. The fuel is `step`, which
bounds the number of halvings. -/
def gallopDown {β : Type*} (s : List β) (cmp : β → Bool) : Nat → Nat → Nat → Nat
  | 0, b, _ => b
  | fuel + 1, b, step =>
    if step = 0 then b
    else gallopDown s cmp fuel (if cmpAt s cmp (b + step) then b + step else b) (step / 2)

/-- Models `gallop_index` (`core/src/runtime/utils/gallop.rs` 24-45). Note that the guard looks at `slice[0]`, not at
`slice[begin]` (26). -/
def gallopIndex {β : Type*} (s : List β) (b : Nat) (cmp : β → Bool) : Nat :=
  if cmpAt s cmp 0 then
    let p := gallopUp s cmp s.length b 1
    gallopDown s cmp (p.2 / 2) p.1 (p.2 / 2) + 1
  else b

end Scallop
