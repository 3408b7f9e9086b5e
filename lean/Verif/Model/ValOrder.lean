import Verif.Model.Value
import Mathlib.Data.Prod.Lex
import Mathlib.Data.String.Basic
import Mathlib.Order.WithBot
import Mathlib.Order.Lattice

/-!
# The order of values

Models `impl PartialOrd for Value` (derived, `/repo/core/src/common/value.rs` 10-38) and `impl Ord for Value` (106-113) for floats that are ordered
linearly, that is, without NaN (for which `cmp` answers `Equal`). Symbols are ordered by their names instead of by their place in the registry.
-/

namespace Scallop

/-- The place of an integer type in `enum Value` (`value.rs` 12-23). -/
def IntTy.rank : IntTy → Nat
  | .i8 => 0 | .i16 => 1 | .i32 => 2 | .i64 => 3 | .i128 => 4 | .isize => 5
  | .u8 => 6 | .u16 => 7 | .u32 => 8 | .u64 => 9 | .u128 => 10 | .usize => 11

/-- The place of the variant in `enum Value`, then what it holds: the derived order is lexicographic. -/
def Val.key {F : Type} : Val F → ℕ ×ₗ ℤ ×ₗ WithBot F ×ₗ String
  | .int k n => toLex (k.rank, toLex (n, toLex (⊥, "")))
  | .float .f32 x => toLex (12, toLex (0, toLex ((x : WithBot F), "")))
  | .float .f64 x => toLex (13, toLex (0, toLex ((x : WithBot F), "")))
  | .char c => toLex (14, toLex (c.toNat, toLex (⊥, "")))
  | .bool b => toLex (15, toLex (b.toNat, toLex (⊥, "")))
  | .string s => toLex (17, toLex (0, toLex (⊥, s)))
  | .symbol s => toLex (18, toLex (0, toLex (⊥, s)))
  | .entity e => toLex (22, toLex (e, toLex (⊥, "")))

theorem Val.key_injective {F : Type} : Function.Injective (Val.key (F := F)) := by
  have hk : ∀ k k' : IntTy, k.rank = k'.rank → k = k' := by intro k k'; cases k <;> cases k' <;> simp [IntTy.rank]
  have hr : ∀ k : IntTy, k.rank ≤ 11 := by intro k; cases k <;> simp [IntTy.rank]
  intro a b h
  have h1 : (ofLex a.key).1 = (ofLex b.key).1 := by rw [h]
  have h2 : (ofLex (ofLex a.key).2).1 = (ofLex (ofLex b.key).2).1 := by rw [h]
  have h3 : (ofLex (ofLex (ofLex a.key).2).2).1 = (ofLex (ofLex (ofLex b.key).2).2).1 := by rw [h]
  have h4 : (ofLex (ofLex (ofLex a.key).2).2).2 = (ofLex (ofLex (ofLex b.key).2).2).2 := by rw [h]
  clear h
  rcases a with ⟨k, n⟩ | ⟨_ | _, x⟩ | c | b' | s | s | e <;> rcases b with ⟨k', n'⟩ | ⟨_ | _, x'⟩ | c' | b'' | s' | s' | e' <;>
    simp only [Val.key, ofLex_toLex, WithBot.coe_inj, Int.natCast_inj] at h1 h2 h3 h4 <;>
    first
    | omega
    | (have := hr k; omega)
    | (have := hr k'; omega)
    | skip
  · rw [hk _ _ h1, h2]
  · rw [h3]
  · rw [h3]
  · rw [Char.toNat_inj.mp h2]
  · cases b' <;> cases b'' <;> simp_all
  · rw [h4]
  · rw [h4]
  · rw [h2]

/-- The order of values. -/
@[instance_reducible] def Val.order {F : Type} [LinearOrder F] : LinearOrder (Val F) := LinearOrder.lift' Val.key Val.key_injective

end Scallop
