import Verif.Model.Literal
import Verif.Spec.Literal
import Verif.Proof.Query

/-!
# Lemmas about literals
-/

namespace Scallop.Literal

/-! ### One replacement -/

theorem r_ne {a b c x : Char} (h : x ≠ a) (l : List Char) : replace2 a b c (x :: l) = x :: replace2 a b c l := by
  cases l with
  | nil => rfl
  | cons y l => rw [replace2, if_neg (fun hh => h hh.1)]

theorem r_hit (a b c : Char) (l : List Char) : replace2 a b c (a :: b :: l) = c :: replace2 a b c l := by
  rw [replace2, if_pos ⟨rfl, rfl⟩]

theorem r_miss {a b c : Char} (l : List Char) (h : l.head? ≠ some b) : replace2 a b c (a :: l) = a :: replace2 a b c l := by
  cases l with
  | nil => rfl
  | cons y l => rw [replace2, if_neg]; rintro ⟨-, rfl⟩; exact h rfl

theorem r_skip {b c x : Char} (h : x ≠ b) (h' : x ≠ '\\') (l : List Char) : replace2 '\\' b c ('\\' :: x :: l) = '\\' :: x :: replace2 '\\' b c l := by
  rw [r_miss _ (by simpa using h), r_ne h']

theorem r_skip2 {b c x : Char} (h : x ≠ b) (h' : x ≠ '\\') (hb : '\\' ≠ b) (l : List Char) :
    replace2 '\\' b c ('\\' :: '\\' :: x :: l) = '\\' :: '\\' :: x :: replace2 '\\' b c l := by
  rw [r_miss _ (by simpa using hb), r_skip h h']

theorem r_hit2 {b c : Char} (hb : '\\' ≠ b) (l : List Char) : replace2 '\\' b c ('\\' :: '\\' :: b :: l) = '\\' :: c :: replace2 '\\' b c l := by
  rw [r_miss _ (by simpa using hb), r_hit]

theorem r_head (a b c : Char) : ∀ l, (replace2 a b c l).head? = l.head? ∨ (replace2 a b c l).head? = some c
  | [] => .inl rfl
  | [x] => .inl rfl
  | x :: y :: l => by
    rw [replace2]
    split
    · exact .inr rfl
    · exact .inl rfl

theorem r_head_ne {a b c d : Char} (hc : c ≠ d) {l : List Char} (h : l.head? ≠ some d) : (replace2 a b c l).head? ≠ some d := by
  rcases r_head a b c l with h1 | h1 <;> rw [h1]
  · exact h
  · exact fun hh => hc (Option.some.inj hh)

theorem r_backslashes {b c : Char} (hb : b ≠ '\\') (l : List Char) (h : l.head? ≠ some b) :
    replace2 '\\' b c ('\\' :: '\\' :: l) = '\\' :: '\\' :: replace2 '\\' b c l := by
  rw [r_miss _ (by simpa using hb.symm), r_miss l h]

/-! ### The chain -/

theorem u_nil : unescape [] = [] := rfl

theorem u_last : unescape ['\\'] = ['\\'] := rfl

theorem u_char {x : Char} (h : x ≠ '\\') (l : List Char) : unescape (x :: l) = x :: unescape l := by
  simp only [unescape, r_ne h]

theorem u_known (c d : Char) (h : escapeOf c = some d) (hc : c ≠ '\\') (l : List Char) : unescape ('\\' :: c :: l) = d :: unescape l := by
  unfold escapeOf at h
  split at h <;> cases h <;> first
    | exact absurd rfl hc
    | simp (discharger := decide) only [unescape, r_skip, r_hit, r_ne]

theorem u_unknown (c : Char) (h : escapeOf c = none) (l : List Char) : unescape ('\\' :: c :: l) = '\\' :: c :: unescape l := by
  have h1 : c ≠ 't' := by rintro rfl; simp [escapeOf] at h
  have h2 : c ≠ 'r' := by rintro rfl; simp [escapeOf] at h
  have h3 : c ≠ 'n' := by rintro rfl; simp [escapeOf] at h
  have h4 : c ≠ '0' := by rintro rfl; simp [escapeOf] at h
  have h5 : c ≠ '"' := by rintro rfl; simp [escapeOf] at h
  have h6 : c ≠ '\'' := by rintro rfl; simp [escapeOf] at h
  have h7 : c ≠ '\\' := by rintro rfl; simp [escapeOf] at h
  simp only [unescape]
  rw [r_miss _ (by simpa using h1), r_ne h7, r_miss _ (by simpa using h2), r_ne h7, r_miss _ (by simpa using h3), r_ne h7, r_miss _ (by simpa using h4), r_ne h7,
    r_miss _ (by simpa using h5), r_ne h7, r_miss _ (by simpa using h6), r_ne h7, r_miss _ (by simpa using h7), r_ne h7]

theorem u_backslash (l : List Char) (h : ∀ c ∈ controls, l.head? ≠ some c) : unescape ('\\' :: '\\' :: l) = '\\' :: unescape l := by
  have h1 := h 't' (by decide)
  have h2 := h 'r' (by decide)
  have h3 := h 'n' (by decide)
  have h4 := h '0' (by decide)
  by_cases h5 : l.head? = some '"'
  · cases l with
    | nil => cases h5
    | cons y l =>
      cases h5
      simp (discharger := decide) only [unescape, r_skip, r_skip2, r_hit2, r_ne]
  · by_cases h6 : l.head? = some '\''
    · cases l with
      | nil => cases h6
      | cons y l =>
        cases h6
        simp (discharger := decide) only [unescape, r_skip, r_skip2, r_hit2, r_ne]
    · simp only [unescape]
      rw [r_backslashes (by decide) l h1, r_backslashes (by decide) _ (r_head_ne (by decide) h2),
        r_backslashes (by decide) _ (r_head_ne (by decide) (r_head_ne (by decide) h3)),
        r_backslashes (by decide) _ (r_head_ne (by decide) (r_head_ne (by decide) (r_head_ne (by decide) h4))),
        r_backslashes (by decide) _ (r_head_ne (by decide) (r_head_ne (by decide) (r_head_ne (by decide) (r_head_ne (by decide) h5)))),
        r_backslashes (by decide) _ (r_head_ne (by decide) (r_head_ne (by decide) (r_head_ne (by decide) (r_head_ne (by decide) (r_head_ne (by decide) h6))))), r_hit]

theorem decode_char {x : Char} (h : x ≠ '\\') (l : List Char) : decode (x :: l) = x :: decode l := by
  rw [decode]
  rintro _ _ rfl; exact absurd rfl h

theorem escaped_char {x : Char} (h : x ≠ '\\') (l : List Char) : EscapedPair (x :: l) ↔ EscapedPair l := by
  rw [EscapedPair]
  · rintro _ rfl; exact absurd rfl h
  · rintro _ _ rfl; exact absurd rfl h

/-- Induction over the tokens of a string. -/
theorem token_induction {P : List Char → Prop} (nil : P []) (last : P ['\\']) (char : ∀ x l, x ≠ '\\' → P l → P (x :: l)) (esc : ∀ c l, c ≠ '\\' → P l → P ('\\' :: c :: l))
    (back : ∀ l, P l → P ('\\' :: '\\' :: l)) : ∀ l, P l := by
  intro l
  induction hn : l.length using Nat.strongRecOn generalizing l with
  | _ n ih =>
    subst hn
    cases l with
    | nil => exact nil
    | cons x l =>
      by_cases hx : x = '\\'
      · subst hx
        cases l with
        | nil => exact last
        | cons c l =>
          have := ih l.length (by simp only [List.length_cons]; omega) l rfl
          by_cases hc : c = '\\'
          · subst hc; exact back l this
          · exact esc c l hc this
      · exact char x l hx (ih l.length (by simp) l rfl)

theorem escaped_esc {c : Char} (h : c ≠ '\\') (l : List Char) : EscapedPair ('\\' :: c :: l) ↔ EscapedPair l := by
  rw [EscapedPair]
  rintro rfl; exact absurd rfl h

theorem unescape_decode : ∀ l, ¬ EscapedPair l → unescape l = decode l := by
  intro l
  induction l using token_induction with
  | nil => intro _; rfl
  | last => intro _; rfl
  | char x l hx ih => intro h; rw [escaped_char hx] at h; rw [u_char hx, decode_char hx, ih h]
  | esc c l hc ih =>
    intro h
    rw [escaped_esc hc] at h
    rw [decode]
    cases he : escapeOf c with
    | none => rw [u_unknown c he, ih h]
    | some d => rw [u_known c d he hc, ih h]
  | back l ih =>
    intro h
    simp only [EscapedPair, not_or, not_exists, not_and] at h
    rw [u_backslash l h.1, ih h.2]
    rfl

/-! ### Pairs -/

theorem noPair_cons {y x : Char} {l : List Char} (h : ¬ ['\\', y] <:+: l) (h1 : x = '\\' → l.head? ≠ some y) : ¬ ['\\', y] <:+: x :: l := by
  rw [List.infix_cons_iff]
  rintro (hp | hp)
  · rw [List.cons_prefix_cons] at hp
    obtain ⟨hx, t, ht⟩ := hp
    exact h1 hx.symm (by rw [← ht]; rfl)
  · exact h hp

theorem noPair_tail {y x : Char} {l : List Char} (h : ¬ ['\\', y] <:+: x :: l) : ¬ ['\\', y] <:+: l := fun hh => h (List.infix_cons hh)

theorem noPair_head {y : Char} {l : List Char} (h : ¬ ['\\', y] <:+: '\\' :: l) : l.head? ≠ some y := by
  intro hh
  cases l with
  | nil => cases hh
  | cons z l => cases hh; exact h ⟨[], l, rfl⟩

/-- A replacement of `\y` leaves none. -/
theorem noPair_made {y c : Char} (hc : c ≠ y) (hc' : c ≠ '\\') : ∀ l, ¬ ['\\', y] <:+: replace2 '\\' y c l
  | [] => by simp [replace2]
  | [x] => by
    intro h
    have := h.length_le
    simp [replace2] at this
  | x :: z :: l => by
    rw [replace2]
    split
    · exact noPair_cons (noPair_made hc hc' l) (fun h => absurd h hc')
    · rename_i hn
      refine noPair_cons (noPair_made hc hc' (z :: l)) (fun hx => r_head_ne hc ?_)
      rintro hz
      cases hz
      exact hn ⟨hx, rfl⟩

/-- Other replacements make none. -/
theorem noPair_kept {y b c : Char} (hc : c ≠ y) (hc' : c ≠ '\\' ∨ b = '\\') : ∀ l, ¬ ['\\', y] <:+: l → ¬ ['\\', y] <:+: replace2 '\\' b c l
  | [], _ => by simp [replace2]
  | [x], _ => by
    intro h
    have := h.length_le
    simp [replace2] at this
  | x :: z :: l, h => by
    rw [replace2]
    split
    · rename_i hxz
      obtain ⟨rfl, rfl⟩ := hxz
      refine noPair_cons (noPair_kept hc hc' l (noPair_tail (noPair_tail h))) (fun hcb => r_head_ne hc ?_)
      rcases hc' with hc' | rfl
      · exact absurd hcb hc'
      · exact noPair_head (noPair_tail h)
    · refine noPair_cons (noPair_kept hc hc' (z :: l) (noPair_tail h)) (fun hx => r_head_ne hc ?_)
      subst hx
      exact noPair_head h

theorem unescape_noPair (b : List Char) : ¬ HasPair (unescape b) := by
  rintro ⟨c, hc, h⟩
  revert h
  simp only [controls, List.mem_cons, List.not_mem_nil, or_false] at hc
  rcases hc with rfl | rfl | rfl | rfl <;> simp only [unescape] <;>
    repeat (first | exact noPair_made (by decide) (by decide) _ | refine noPair_kept (by decide) (by decide) _ ?_)

theorem decode_hasPair : ∀ l, EscapedPair l → HasPair (decode l) := by
  have hcons : ∀ x l, HasPair l → HasPair (x :: l) := fun x l ⟨c, hc, h⟩ => ⟨c, hc, List.infix_cons h⟩
  intro l
  induction l using token_induction with
  | nil => intro h; exact h.elim
  | last => intro h; simp [EscapedPair] at h
  | char x l hx ih => intro h; rw [escaped_char hx] at h; rw [decode_char hx]; exact hcons _ _ (ih h)
  | esc c l hc ih =>
    intro h
    rw [escaped_esc hc] at h
    rw [decode]
    cases he : escapeOf c with
    | none => exact hcons _ _ (hcons _ _ (ih h))
    | some d => exact hcons _ _ (ih h)
  | back l ih =>
    rintro (⟨c, hc, h⟩ | h)
    · cases l with
      | nil => cases h
      | cons z l =>
        obtain rfl : z = c := by simpa using h
        refine ⟨z, hc, [], decode l, ?_⟩
        have : z ≠ '\\' := by rintro rfl; revert hc; decide
        show '\\' :: z :: decode l = '\\' :: decode (z :: l)
        rw [decode_char this]
    · exact hcons _ _ (ih h)

/-! ### Writing strings -/

/-- A literal for a string. -/
def escape : List Char → List Char
  | [] => []
  | c :: l => if c = '"' ∨ c = '\\' then '\\' :: c :: escape l else c :: escape l

theorem escape_body : ∀ s, stringBody (escape s) = true
  | [] => rfl
  | c :: l => by
    rw [escape]
    split
    · rename_i h
      rw [stringBody, escape_body l]
      rcases h with rfl | rfl <;> decide
    · rename_i h
      simp only [not_or] at h
      rw [stringBody, escape_body l]
      · simpa using h.1
      · rintro _ _ rfl; exact absurd rfl h.2
      · rintro rfl; exact absurd rfl h.2

theorem decode_escape : ∀ s, decode (escape s) = s
  | [] => rfl
  | c :: l => by
    rw [escape]
    split
    · rename_i h
      rw [decode, decode_escape l]
      rcases h with rfl | rfl <;> rfl
    · rename_i h
      simp only [not_or] at h
      rw [decode_char h.2, decode_escape l]

theorem escape_pair : ∀ s, EscapedPair (escape s) → HasPair s
  | [], h => h.elim
  | c :: l, h => by
    have hcons : HasPair l → HasPair (c :: l) := fun ⟨c, hc, h⟩ => ⟨c, hc, List.infix_cons h⟩
    rw [escape] at h
    split at h
    · rename_i hc
      rcases hc with rfl | rfl
      · rw [escaped_esc (by decide)] at h
        exact hcons (escape_pair l h)
      · rcases h with ⟨d, hd, h⟩ | h
        · cases l with
          | nil => cases h
          | cons z l =>
            rw [escape] at h
            split at h
            · simp only [List.head?_cons, Option.some.injEq] at h
              subst h
              exact absurd hd (by decide)
            · obtain rfl : z = d := by simpa using h
              exact ⟨z, hd, [], l, rfl⟩
        · exact hcons (escape_pair l h)
    · rename_i hc
      simp only [not_or] at hc
      rw [escaped_char hc.2] at h
      exact hcons (escape_pair l h)

/-! ### Characters -/

theorem mem_replace2 {a b c x : Char} : ∀ l, x ∈ replace2 a b c l → x ∈ l ∨ x = c
  | [], h => by simp [replace2] at h
  | [y], h => .inl h
  | y :: z :: l, h => by
    rw [replace2] at h
    split at h
    · rcases List.mem_cons.1 h with rfl | h
      · exact .inr rfl
      · rcases mem_replace2 l h with h | h
        · exact .inl (by simp [h])
        · exact .inr h
    · rcases List.mem_cons.1 h with rfl | h
      · exact .inl (by simp)
      · rcases mem_replace2 (z :: l) h with h | h
        · exact .inl (List.mem_cons_of_mem _ h)
        · exact .inr h

theorem replace2_none {a b c : Char} : ∀ l, b ∉ l → replace2 a b c l = l
  | [], _ => rfl
  | [y], _ => rfl
  | y :: z :: l, h => by
    simp only [List.mem_cons, not_or] at h
    rw [replace2, if_neg (fun hh => h.2.1 hh.2.symm), replace2_none (z :: l) (by simp [h.2])]

theorem unescapeChar_quote {b : List Char} (h : '\'' ∉ b) : '\'' ∉ unescapeChar b := by
  have h1 : '\'' ∉ replace2 '\\' 'n' '\n' (replace2 '\\' 't' '\t' b) := by
    intro hh
    rcases mem_replace2 _ hh with hh | hh
    · rcases mem_replace2 _ hh with hh | hh
      · exact h hh
      · revert hh; decide
    · revert hh; decide
  rw [unescapeChar, replace2_none _ h1]
  intro hh
  rcases mem_replace2 _ hh with hh | hh
  · exact h1 hh
  · revert hh; decide

theorem utf8Size_one (c : Char) : c.utf8Size = 1 ↔ c.toNat < 128 := by
  have h := c.utf8Size_pos
  unfold Char.utf8Size
  have e1 : ∀ h, (UInt32.ofNatLT 127 h).toNat = 127 := fun _ => rfl
  simp only [UInt32.le_iff_toNat_le, Char.toNat, e1]
  constructor
  · intro h
    split at h
    · rename_i h1; omega
    · split at h
      · omega
      · split at h <;> omega
  · intro h
    rw [if_pos (by omega)]

theorem checkChar_some (s : List Char) (c : Char) : checkChar s = some c ↔ s = [c] ∧ c.toNat < 128 := by
  unfold checkChar
  constructor
  · intro h
    split at h
    · rename_i h1
      cases s with
      | nil => cases h
      | cons x l =>
        obtain rfl : x = c := by simpa using h
        cases l with
        | nil => exact ⟨rfl, (utf8Size_one x).1 (by simpa using h1)⟩
        | cons y l =>
          have := x.utf8Size_pos
          have := y.utf8Size_pos
          simp at h1
          omega
    · cases h
  · rintro ⟨rfl, h⟩
    rw [if_pos (by simpa using (utf8Size_one c).2 h)]
    rfl

/-! ### Integers -/

theorem digits_eq (l : List Char) : ∀ n, l.foldl (fun n c => 10 * n + (c.toNat - '0'.toNat)) n = Nat.ofDigitChars 10 l n := by
  induction l with
  | nil => intro n; rfl
  | cons c l ih => intro n; rw [List.foldl_cons, ih]; rfl

theorem digits_toDigits (n : Nat) : digits (Nat.toDigits 10 n) = n := by
  rw [digits, digits_eq, Nat.ofDigitChars_toDigits (by omega) (by omega)]

theorem toDigits_digit (n : Nat) : Nat.toDigits 10 n ≠ [] ∧ ∀ c ∈ Nat.toDigits 10 n, c.isDigit := by
  refine ⟨fun h => ?_, fun c hc => Nat.isDigit_of_mem_toDigits (by omega) (by omega) hc⟩
  have := Nat.length_toDigits_pos (b := 10) (n := n)
  rw [h] at this
  simp at this

end Scallop.Literal
