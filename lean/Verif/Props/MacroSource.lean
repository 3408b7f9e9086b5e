import Verif.Proof.MacroSource

/-!
# C123: a program in a Rust macro is the program that was written
-/

namespace Scallop.Macro

/-- The text that is compiled consists of the tokens that were written, in order, and of spaces; the compiler does not panic. -/
theorem c123_nothing_lost (trees : List Tree) : ∃ first lines, srcLines (toksAll trees) = some (first, lines) ∧
    lines.flatten.filter (· ≠ ' ') = ((toksAll trees).flatMap Tok.text).filter (· ≠ ' ') := by
  unfold srcLines
  cases h : toksAll trees with
  | nil => exact ⟨0, [], rfl, rfl⟩
  | cons t ts =>
    obtain ⟨s', h1, -, h2, -⟩ := run_keeps (t :: ts) ⟨[], [], t.line⟩
    refine ⟨t.line, s'.lines ++ [s'.line], by simp only [h1, Option.map_some], ?_⟩
    simpa using h2

/-- A text `{ a }` over three lines. -/
example : srcLines (toksAll [.group (some ('{', '}')) 3 2 5 1 [.leaf ['a'] 4 4]]) = some (3, ["  {".toList, "    a".toList, "}".toList]) := by
  decide +kernel

/-- Every token is on its line, at its column or one further. -/
theorem c123_places (t₀ : Tok) (ts : List Tok) (h : Laid (t₀ :: ts)) :
    ∃ lines, srcLines (t₀ :: ts) = some (t₀.line, lines) ∧ ∀ t ∈ t₀ :: ts, ∃ d ≤ 1, HasAt t₀.line lines t.line (t.start + d) t.text := by
  obtain ⟨s', h1, -⟩ := run_keeps (t₀ :: ts) ⟨[], [], t₀.line⟩
  refine ⟨s'.lines ++ [s'.line], by simp only [srcLines, h1, Option.map_some], ?_⟩
  exact run_place (Nat.le_refl 1) _ _ h (by omega) rfl (by simp [Bytes])
    (fun t ht => by simp at ht; subst ht; simp [len]) s' h1

/-- If no closing delimiter is behind a space or first on its line, every token is at its place. -/
theorem c123_exact_partial (t₀ : Tok) (ts : List Tok) (h : Laid (t₀ :: ts)) (ht : Tight (t₀ :: ts)) (h₀ : t₀.back = false) :
    ∃ lines, srcLines (t₀ :: ts) = some (t₀.line, lines) ∧ ∀ t ∈ t₀ :: ts, HasAt t₀.line lines t.line t.start t.text := by
  obtain ⟨s', h1, -⟩ := run_keeps (t₀ :: ts) ⟨[], [], t₀.line⟩
  refine ⟨s'.lines ++ [s'.line], by simp only [srcLines, h1, Option.map_some], fun t hm => ?_⟩
  obtain ⟨d, hd, hp⟩ := run_place (D := 0) (by omega) _ _ h (fun _ => ht) rfl (by simp [Bytes])
    (fun t ht => by simp at ht; subst ht; simp [len, h₀]) s' h1 t hm
  obtain rfl : d = 0 := by omega
  exact hp

/-- `p(x)` and, on the next line, `and q`. -/
def sample : List Tok := toksAll [.leaf ['p'] 1 4, .group (some ('(', ')')) 1 5 1 8 [.leaf ['x'] 1 6], .leaf "and".toList 2 4, .leaf ['q'] 2 8]

example : Laid sample ∧ Tight sample ∧ srcLines sample = some (1, ["    p(x)".toList, "    and q".toList]) := by
  refine ⟨?_, ?_, by decide +kernel⟩
  · simp [sample, Laid, Tok.Ascii, Tok.Before, Tok.start, Tree.toks, toksAll]
    decide
  · simp [sample, Tight, Tok.start, Tree.toks, toksAll]

/-- Two names that are written apart may become one: behind a closing delimiter that has a space before it and none behind it. `p( x )and q` is compiled as
`p( x  )andq`. -/
theorem c123_delimiter_false : ∃ trees : List Tree, Laid (toksAll trees) ∧
    toksAll trees = [⟨['p'], 1, 0, false⟩, ⟨['('], 1, 1, false⟩, ⟨['x'], 1, 3, false⟩, ⟨[')'], 1, 6, true⟩, ⟨"and".toList, 1, 6, false⟩, ⟨['q'], 1, 10, false⟩] ∧
    srcLines (toksAll trees) = some (1, ["p( x  )andq".toList]) := by
  refine ⟨[.leaf ['p'] 1 0, .group (some ('(', ')')) 1 1 1 6 [.leaf ['x'] 1 3], .leaf "and".toList 1 6, .leaf ['q'] 1 10], ?_, rfl, by decide +kernel⟩
  simp [Laid, Tok.Ascii, Tok.Before, Tok.start, Tree.toks, toksAll]
  decide

/-- They may become one also behind characters of several bytes: `"éé" and q` is compiled as `"éé"andq`. -/
theorem c123_bytes_false : srcLines (toksAll [.leaf "\"éé\"".toList 1 0, .leaf "and".toList 1 5, .leaf ['q'] 1 9]) = some (1, ["\"éé\"andq".toList]) := by
  decide +kernel

end Scallop.Macro
