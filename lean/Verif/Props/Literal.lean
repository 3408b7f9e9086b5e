import Verif.Proof.Literal

/-!
# Property theorem C106: literals
-/

namespace Scallop.Literal

/-! ## C106: what literals denote and what can be written -/

/-- **C106 (partial).** The value of a string is the usual reading of its escapes exactly when no escaped backslash stands before `t`, `r`, `n` or `0`. The full claim
(every string is read as usual) is refuted by `c106_string_false`. -/
theorem c106_string_partial (b : List Char) : unescape b = decode b ↔ ¬ EscapedPair b :=
  ⟨fun h hp => unescape_noPair b (h ▸ decode_hasPair b hp), unescape_decode b⟩

example : ¬ EscapedPair "say \\\"hi\\\"\\n\\ta\\\\b\\d".toList ∧ unescape "say \\\"hi\\\"\\n\\ta\\\\b\\d".toList = "say \"hi\"\n\ta\\b\\d".toList := by
  refine ⟨?_, by decide +kernel⟩
  rw [← c106_string_partial]
  decide +kernel

/-- **C106, refuted.** The literal `"C:\\new"`, with its backslash escaped, denotes `C:`, a backslash, a line break and `ew`. -/
theorem c106_string_false : ∃ b, stringBody b = true ∧ decode b = "C:\\new".toList ∧ unescape b = ['C', ':', '\\', '\n', 'e', 'w'] :=
  ⟨"C:\\\\new".toList, by decide +kernel, by decide +kernel, by decide +kernel⟩

/-- **C106.** A string can be written as a literal, with one quote or with three, exactly when it has no backslash followed by `t`, `r`, `n` or `0`. -/
theorem c106_writable (s : List Char) : (∃ text, StringLit text s) ↔ ¬ HasPair s := by
  constructor
  · rintro ⟨text, h⟩
    cases h with
    | single b _ => exact unescape_noPair b
    | triple b _ => exact unescape_noPair b
  · intro h
    have h1 : unescape (escape s) = s := by
      rw [unescape_decode _ (fun hp => h (escape_pair s hp)), decode_escape]
    have h2 := StringLit.single (escape s) (escape_body s)
    rw [h1] at h2
    exact ⟨_, h2⟩

/-- All strings without a backslash can be written. -/
theorem c106_no_backslash (s : List Char) (h : '\\' ∉ s) : ∃ text, StringLit text s :=
  (c106_writable s).2 (fun ⟨_, _, hc⟩ => h (hc.subset (by simp)))

/-- **C106, refuted: every string can be written.** There is no literal for `C:\new`. -/
theorem c106_unwritable_false : ¬ ∃ text, StringLit text "C:\\new".toList := by
  rw [c106_writable, not_not]
  exact ⟨'n', by decide, "C:".toList, "ew".toList, by decide +kernel⟩

/-- A quote of three can hold quotes. -/
example : StringLit "\"\"\"say \"hi\" \"\"\"".toList "say \"hi\" ".toList := by
  have h : TripleBody "say \"hi\" ".toList := by
    show TripleBody ['s', 'a', 'y', ' ', '"', 'h', 'i', '"', ' ']
    refine .char _ _ (by decide) (by decide) (.char _ _ (by decide) (by decide) (.char _ _ (by decide) (by decide) (.char _ _ (by decide) (by decide)
      (.quote _ _ (by decide) (.char _ _ (by decide) (by decide) (.quote _ _ (by decide) .nil))))))
  exact StringLit.triple _ h

/-- **C106.** Symbols are taken as they are: those that can be written are those without a quote. -/
theorem c106_symbol (s : List Char) : (∃ text, SymbolLit text s) ↔ '"' ∉ s :=
  ⟨fun ⟨_, h⟩ => by cases h; assumption, fun h => ⟨_, .mk s h⟩⟩

theorem single_not_triple (b b' : List Char) (h : stringBody b = true) : '"' :: b ++ ['"'] ≠ "\"\"\"".toList ++ b' ++ "\"\"\"".toList := by
  intro he
  have he' : b ++ ['"'] = '"' :: '"' :: (b' ++ ['"', '"', '"']) := by simpa using he
  cases b with
  | nil => simp at he'
  | cons x l =>
    simp only [List.cons_append, List.cons.injEq] at he'
    obtain ⟨rfl, -⟩ := he'
    simp [stringBody] at h

/-- **C106.** The text of a literal denotes one string, whichever of the two forms it is read as. -/
theorem c106_unique (text s s' : List Char) (h : StringLit text s) (h' : StringLit text s') : s = s' := by
  cases h with
  | single b hb =>
    generalize ht : '"' :: b ++ ['"'] = t at h'
    cases h' with
    | single b' hb' => have : b = b' := by simpa using ht
                       rw [this]
    | triple b' hb' => exact absurd ht (single_not_triple b b' hb)
  | triple b hb =>
    generalize ht : "\"\"\"".toList ++ b ++ "\"\"\"".toList = t at h'
    cases h' with
    | single b' hb' => exact absurd ht.symm (single_not_triple b' b hb')
    | triple b' hb' => have : b = b' := by simpa using ht
                       rw [this]

/-- **C106 (partial).** The characters that have a literal are the ASCII characters but the single quote. The full claim (every character has one) is refuted by
`c106_char_false`. -/
theorem c106_char_partial (c : Char) : (∃ text, CharLit text (some c)) ↔ c.toNat < 128 ∧ c ≠ '\'' := by
  constructor
  · rintro ⟨text, h⟩
    generalize ho : some c = o at h
    cases h with
    | mk b hb =>
      obtain ⟨h1, h2⟩ := (checkChar_some _ _).1 ho.symm
      refine ⟨h2, ?_⟩
      rintro rfl
      exact unescapeChar_quote hb (h1 ▸ by simp)
  · rintro ⟨h1, h2⟩
    have h : checkChar (unescapeChar [c]) = some c := (checkChar_some _ _).2 ⟨rfl, h1⟩
    exact ⟨_, h ▸ CharLit.mk [c] (by simpa using h2.symm)⟩

/-- **C106, refuted.** There is no literal for `é` and none for the single quote; the escapes `\r` and `\0` of strings are refused in characters, and so is `\\` before a letter. -/
theorem c106_char_false : (¬ ∃ text, CharLit text (some 'é')) ∧ (¬ ∃ text, CharLit text (some '\'')) ∧ CharLit "'\\r'".toList none ∧ CharLit "'\\0'".toList none ∧
    CharLit "'é'".toList none := by
  refine ⟨fun h => absurd ((c106_char_partial _).1 h).1 (by decide), fun h => absurd rfl ((c106_char_partial _).1 h).2, ?_, ?_, ?_⟩
  · exact (by decide +kernel : checkChar (unescapeChar ['\\', 'r']) = none) ▸ CharLit.mk ['\\', 'r'] (by decide)
  · exact (by decide +kernel : checkChar (unescapeChar ['\\', '0']) = none) ▸ CharLit.mk ['\\', '0'] (by decide)
  · exact (by decide +kernel : checkChar (unescapeChar ['é']) = none) ▸ CharLit.mk ['é'] (by decide)

/-- Tabs and line breaks can be written with escapes. -/
example : CharLit "'\\n'".toList (some '\n') ∧ CharLit "'\\t'".toList (some '\t') ∧ CharLit "'\\\\'".toList (some '\\') :=
  ⟨(by decide +kernel : checkChar (unescapeChar ['\\', 'n']) = some '\n') ▸ CharLit.mk ['\\', 'n'] (by decide),
   (by decide +kernel : checkChar (unescapeChar ['\\', 't']) = some '\t') ▸ CharLit.mk ['\\', 't'] (by decide),
   (by decide +kernel : checkChar (unescapeChar ['\\', '\\']) = some '\\') ▸ CharLit.mk ['\\', '\\'] (by decide)⟩

theorem parseI64_range {neg : Bool} {ds : List Char} {n : Int} (h : parseI64 neg ds = some n) : -2 ^ 63 ≤ n ∧ n < 2 ^ 63 := by
  simp only [parseI64] at h
  rw [Option.ite_none_right_eq_some] at h
  obtain ⟨h1, h2⟩ := h
  rw [Option.some.inj h2] at h1
  exact h1

/-- **C106.** A number in decimal digits is read as that number if it is an `i64`, otherwise parsing panics. -/
theorem c106_int (n : Int) : IntLit (Front.showInt n) (if -2 ^ 63 ≤ n ∧ n < 2 ^ 63 then some n else none) := by
  obtain ⟨h1, h2⟩ := toDigits_digit n.natAbs
  unfold Front.showInt
  split
  · rename_i hn
    have h := IntLit.neg _ h1 h2
    have e : -((n.natAbs : Nat) : Int) = n := by omega
    simp only [parseI64, digits_toDigits, if_true, e] at h
    exact h
  · rename_i hn
    have h := IntLit.pos _ h1 h2
    have e : ((n.natAbs : Nat) : Int) = n := by omega
    simp only [parseI64, digits_toDigits, Bool.false_eq_true, if_false, e] at h
    exact h

/-- **C106.** Whatever their digits, integer literals denote numbers of `i64`: the greater half of `u64` cannot be written. -/
theorem c106_int_range (n : Int) : (∃ text, IntLit text (some n)) ↔ -2 ^ 63 ≤ n ∧ n < 2 ^ 63 := by
  constructor
  · rintro ⟨text, h⟩
    generalize ho : some n = o at h
    cases h with
    | pos ds _ _ => exact parseI64_range ho.symm
    | neg ds _ _ => exact parseI64_range ho.symm
  · intro h
    have := c106_int n
    rw [if_pos h] at this
    exact ⟨_, this⟩

example : IntLit "18446744073709551615".toList none := by
  have := c106_int 18446744073709551615
  rw [if_neg (by decide)] at this
  exact (by decide +kernel : Front.showInt 18446744073709551615 = "18446744073709551615".toList) ▸ this

end Scallop.Literal
