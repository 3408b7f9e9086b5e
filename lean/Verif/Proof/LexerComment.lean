import Verif.Proof.LexerAngle

/-! # Blanks and comments -/

namespace Scallop.Lexer
open Re

theorem prefix_le {p : Char → Bool} {a v b y : List Char} (ha : ∀ c ∈ a, p c = true) (hy : ∀ c z, y = c :: z → p c = false)
    (e : a ++ v = b ++ y) : a.length ≤ b.length := by
  induction a generalizing b with
  | nil => exact Nat.zero_le _
  | cons c a ih =>
    cases b with
    | nil => have := hy c _ e.symm; rw [ha c (by simp)] at this; cases this
    | cons d b =>
      simp only [List.cons_append, List.cons.injEq] at e
      exact Nat.succ_le_succ (ih (fun c h => ha c (by simp [h])) e.2)

theorem split_at (p : Char → Bool) : ∀ x : List Char, ∃ a y, x = a ++ y ∧ (∀ c ∈ a, p c = true) ∧ ∀ c z, y = c :: z → p c = false
  | [] => ⟨[], [], rfl, by simp, by simp⟩
  | c :: x => by
    cases hc : p c with
    | false => exact ⟨[], c :: x, rfl, by simp, by intro d z e; cases e; exact hc⟩
    | true =>
      obtain ⟨a, y, e, h1, h2⟩ := split_at p x
      refine ⟨c :: a, y, by rw [e]; rfl, ?_, h2⟩
      intro d hd
      rcases List.mem_cons.1 hd with rfl | hd
      · exact hc
      · exact h1 d hd

theorem blank_piece {c : Char} {u : List Char} (hc : isBlank c = true) (hu : IsPiece (c :: u)) : ∀ d ∈ c :: u, isBlank d = true := by
  rcases hu with (h | h | h) | ⟨k, h⟩
  · exact blanks_shape.1 h
  · obtain ⟨v, e⟩ := line_shape h
    simp at e; rw [e.1] at hc; cases hc
  · obtain ⟨v, e⟩ := block_shape h
    simp at e; rw [e.1] at hc; cases hc
  · obtain ⟨d, w, hd, hs⟩ := token_head h
    simp at hd
    rw [← hd.1, blank_space hc] at hs; cases hs

theorem lex_skip {w rest : List Char} (h : LongestPiece w rest) (hs : IsSkip w) : lex (w ++ rest) = lex rest := by
  obtain ⟨k, hb, ⟨rfl, _⟩ | ⟨_, ht⟩⟩ := best_of_longest h
  · rw [lex_piece h.1 hb]; cases lex rest <;> rfl
  · exact absurd hs (token_not_skip ht)

theorem lex_blanks {a y : List Char} (ha : ∀ c ∈ a, isBlank c = true) (hy : ∀ c z, y = c :: z → isBlank c = false) :
    lex (a ++ y) = lex y := by
  cases a with
  | nil => rfl
  | cons c a =>
    have hs : IsSkip (c :: a) := .inl (blanks_shape.2 ha)
    refine lex_skip ⟨by simp, .inl hs, fun u v e hu => ?_⟩ hs
    cases u with
    | nil => exact Nat.zero_le _
    | cons d u =>
      have hd : c = d := by simp at e; exact e.1
      subst hd
      exact prefix_le (blank_piece (ha c (by simp)) hu) hy e.symm

theorem lex_blank {a x : List Char} (ha : ∀ c ∈ a, isBlank c = true) : lex (a ++ x) = lex x := by
  obtain ⟨b, y, rfl, hb, hy⟩ := split_at isBlank x
  rw [lex_blanks hb hy, ← List.append_assoc]
  refine lex_blanks (fun c hc => ?_) hy
  rcases List.mem_append.1 hc with h | h
  · exact ha c h
  · exact hb c h

/-- Not the end of a line. -/
def notEol (c : Char) : Bool := c != '\n' && c != '\r'

theorem notEol_eq {c : Char} : notEol c = false ↔ (c == '\n' || c == '\r') = true := by
  unfold notEol; by_cases h : c = '\n' <;> by_cases h' : c = '\r' <;> simp [h, h']

/-- A piece that begins with `//` is a comment up to the end of the line. -/
theorem line_piece {u : List Char} (hu : IsPiece ('/' :: '/' :: u)) : lineCommentRe.Matches ('/' :: '/' :: u) := by
  rcases hu with (h | h | h) | ⟨k, h⟩
  · exact absurd (blanks_shape.1 h '/' (by simp)) (by decide)
  · exact h
  · obtain ⟨v, e⟩ := block_shape h
    simp at e
  · generalize hw : '/' :: '/' :: u = w at h
    cases h with
    | @sym s hs => have := lit_second s hs; rw [← hw] at this; cases this
    | other hk hns hm _ =>
      obtain ⟨d, l, rfl, hh⟩ := other_head hk hns hm
      simp at hw
      rw [← hw.1] at hh
      exfalso; revert hh; decide

theorem line_full {w : List Char} : lineCommentRe.Matches w ↔
    ∃ p q, w = '/' :: '/' :: (p ++ q) ∧ (∀ c ∈ p, notEol c = true) ∧ ∀ c ∈ q, (c == '\n' || c == '\r') = true := by
  rw [lineCommentRe, seq_ch]; constructor
  · rintro ⟨v, rfl, h⟩
    rw [seq_ch] at h
    obtain ⟨v, rfl, h⟩ := h
    rw [matches_seq] at h
    obtain ⟨p, q, rfl, hp, hq⟩ := h
    exact ⟨p, q, rfl, star_chr.1 hp, star_chr.1 hq⟩
  · rintro ⟨p, q, rfl, hp, hq⟩
    exact ⟨_, rfl, seq_ch.2 ⟨_, rfl, .seq (star_chr.2 hp) (star_chr.2 hq)⟩⟩

theorem lex_line {body rest : List Char} (hb : ∀ c ∈ body, notEol c = true) (hr : ∀ c z, rest = c :: z → notEol c = false) :
    lex ('/' :: '/' :: (body ++ rest)) = lex rest := by
  obtain ⟨nl, y, rfl, hnl, hy⟩ := split_at (fun c => c == '\n' || c == '\r') rest
  have hblank : ∀ c ∈ nl, isBlank c = true := by
    intro c hc
    have := hnl c hc
    simp only [Bool.or_eq_true, beq_iff_eq] at this
    rcases this with rfl | rfl <;> decide
  rw [lex_blank hblank]
  have hs : IsSkip ('/' :: '/' :: (body ++ nl)) := .inr (.inl (line_full.2 ⟨body, nl, rfl, hb, hnl⟩))
  have e : '/' :: '/' :: (body ++ (nl ++ y)) = '/' :: '/' :: (body ++ nl) ++ y := by simp
  rw [e]
  refine lex_skip ⟨by simp, .inl hs, fun u v e hu => ?_⟩ hs
  cases u with
  | nil => exact Nat.zero_le _
  | cons d u =>
    cases u with
    | nil => simp
    | cons d' u =>
      simp only [List.cons_append, List.cons.injEq, List.append_assoc] at e
      obtain ⟨rfl, rfl, e⟩ := e
      obtain ⟨p, q, e', hp, hq⟩ := line_full.1 (line_piece hu)
      simp at e'
      subst e'
      cases q with
      | nil =>
        have := prefix_le hp (y := nl ++ y) (b := body) (v := v) hr (by simpa using e.symm)
        simp; omega
      | cons c q =>
        obtain ⟨rfl, e2⟩ := span_eq (p := notEol) hp hb (x := c :: q ++ v) (y := nl ++ y)
          (by intro d z h; simp at h; rw [← h.1]; exact notEol_eq.2 (hq c (by simp))) hr (by simpa using e.symm)
        have := prefix_le (p := fun c => c == '\n' || c == '\r') hq (v := v) (b := nl) (y := y) hy e2
        simp only [List.length_cons, List.length_append] at this ⊢
        omega

/-- What follows `/*` in a comment. -/
def blockTail : Re :=
  .seq (.star (.chr (· != '*'))) (.seq (plus (ch '*'))
    (.seq (.star (.seq (.chr fun c => c != '/' && c != '*') (.seq (.star (.chr (· != '*'))) (plus (ch '*'))))) (ch '/')))

/-- What follows a `*` in a comment. -/
def blockStar : Re :=
  .seq (.star (ch '*')) (.seq (.star (.seq (.chr fun c => c != '/' && c != '*') (.seq (.star (.chr (· != '*'))) (plus (ch '*')))))
    (ch '/'))

theorem blockTail_nil : ¬ blockTail.Matches [] := by rw [← nullable_iff]; decide
theorem blockStar_nil : ¬ blockStar.Matches [] := by rw [← nullable_iff]; decide

theorem blockTail_cons {c : Char} {w : List Char} :
    blockTail.Matches (c :: w) ↔ if c = '*' then blockStar.Matches w else blockTail.Matches w := by
  rw [← deriv_iff]
  by_cases h : c = '*'
  · subst h; simp only [if_true]; rfl
  · simp only [if_neg h]
    have : blockTail.deriv c = blockTail := by
      simp [blockTail, plus, ch, deriv, nullable, mkSeq, mkAlt, h]
    rw [this]

theorem blockStar_cons {c : Char} {w : List Char} :
    blockStar.Matches (c :: w) ↔ if c = '/' then w = [] else if c = '*' then blockStar.Matches w else blockTail.Matches w := by
  rw [← deriv_iff]
  by_cases h : c = '/'
  · subst h; simp only [if_true]; exact matches_eps
  · simp only [if_neg h]
    by_cases h' : c = '*'
    · subst h'; simp only [if_true]; rfl
    · simp only [if_neg h']
      have : blockStar.deriv c = .seq (.seq (.seq (.star (.chr (· != '*'))) (plus (ch '*')))
          (.star (.seq (.chr fun c => c != '/' && c != '*') (.seq (.star (.chr (· != '*'))) (plus (ch '*')))))) (ch '/') := by
        simp [blockStar, plus, ch, deriv, nullable, mkSeq, mkAlt, h, h']
      rw [this, blockTail]
      simp only [matches_seq]
      constructor
      · rintro ⟨_, x, rfl, ⟨_, y, rfl, ⟨z, z', rfl, h1, h2⟩, h3⟩, h4⟩
        exact ⟨z, _, by simp, h1, z', _, rfl, h2, y, x, rfl, h3, h4⟩
      · rintro ⟨z, _, rfl, h1, z', _, rfl, h2, y, x, rfl, h3, h4⟩
        exact ⟨_, x, by simp, ⟨_, y, rfl, ⟨z, z', rfl, h1, h2⟩, h3⟩, h4⟩

theorem block_close (body : List Char) : (∀ a b, body ≠ a ++ '*' :: '/' :: b) →
    (∀ {u v y}, u ++ v = body ++ '*' :: '/' :: y → (blockTail.Matches u ↔ u = body ++ ['*', '/'])) ∧
    ((∀ b, body ≠ '/' :: b) → ∀ {u v y}, u ++ v = body ++ '*' :: '/' :: y → (blockStar.Matches u ↔ u = body ++ ['*', '/'])) := by
  induction body with
  | nil =>
    intro _
    have hs : ∀ {u v y : List Char}, u ++ v = '/' :: y → (blockStar.Matches u ↔ u = ['/']) := by
      intro u v y e
      cases u with
      | nil => simp [blockStar_nil]
      | cons c u =>
        simp at e; obtain ⟨rfl, _⟩ := e
        rw [blockStar_cons]; simp
    have ht : ∀ {u v y : List Char}, u ++ v = '*' :: '/' :: y → (blockTail.Matches u ↔ u = ['*', '/']) := by
      intro u v y e
      cases u with
      | nil => simp [blockTail_nil]
      | cons c u =>
        simp at e; obtain ⟨rfl, e⟩ := e
        rw [blockTail_cons]; simp [hs e]
    refine ⟨ht, fun _ u v y e => ?_⟩
    cases u with
    | nil => simp [blockStar_nil]
    | cons c u =>
      simp at e; obtain ⟨rfl, e⟩ := e
      rw [blockStar_cons]; simp [hs e]
  | cons d body ih =>
    intro hn
    obtain ⟨ih1, ih2⟩ := ih fun a b e => hn (d :: a) b (by rw [e]; rfl)
    have hstar : d = '*' → ∀ b, body ≠ '/' :: b := fun h b e => hn [] b (by rw [h, e]; rfl)
    constructor
    · intro u v y e
      cases u with
      | nil => simp [blockTail_nil]
      | cons c u =>
        simp at e; obtain ⟨rfl, e⟩ := e
        rw [blockTail_cons]
        by_cases hc : c = '*'
        · simp only [if_pos hc, ih2 (hstar hc) e]; simp
        · simp only [if_neg hc, ih1 e]; simp
    · intro hsl u v y e
      cases u with
      | nil => simp [blockStar_nil]
      | cons c u =>
        simp at e; obtain ⟨rfl, e⟩ := e
        rw [blockStar_cons]
        by_cases hs : c = '/'
        · exact absurd (by rw [hs]) (hsl body)
        · by_cases hc : c = '*'
          · simp only [if_neg hs, if_pos hc, ih2 (hstar hc) e]; simp
          · simp only [if_neg hs, if_neg hc, ih1 e]; simp

/-- A piece that begins with `/*` is a comment. -/
theorem block_piece {u : List Char} (hu : IsPiece ('/' :: '*' :: u)) : blockTail.Matches u := by
  rcases hu with (h | h | h) | ⟨k, h⟩
  · exact absurd (blanks_shape.1 h '/' (by simp)) (by decide)
  · obtain ⟨v, e⟩ := line_shape h
    simp at e
  · rw [blockCommentRe, seq_ch] at h
    obtain ⟨v, e, h⟩ := h
    cases e
    rw [seq_ch] at h
    obtain ⟨v, e, h⟩ := h
    cases e
    exact h
  · generalize hw : '/' :: '*' :: u = w at h
    cases h with
    | @sym s hs => have := lit_second s hs; rw [← hw] at this; cases this
    | other hk hns hm _ =>
      obtain ⟨d, l, rfl, hh⟩ := other_head hk hns hm
      simp at hw
      rw [← hw.1] at hh
      exfalso; revert hh; decide

theorem lex_block {body rest : List Char} (hb : ∀ a b, body ≠ a ++ '*' :: '/' :: b) :
    lex ('/' :: '*' :: (body ++ '*' :: '/' :: rest)) = lex rest := by
  have hm : blockTail.Matches (body ++ ['*', '/']) := ((block_close body hb).1 (v := []) (y := []) (by simp)).2 rfl
  have hs : IsSkip ('/' :: '*' :: (body ++ ['*', '/'])) := .inr (.inr (seq_ch.2 ⟨_, rfl, seq_ch.2 ⟨_, rfl, hm⟩⟩))
  have e : '/' :: '*' :: (body ++ '*' :: '/' :: rest) = '/' :: '*' :: (body ++ ['*', '/']) ++ rest := by simp
  rw [e]
  refine lex_skip ⟨by simp, .inl hs, fun u v e hu => ?_⟩ hs
  cases u with
  | nil => exact Nat.zero_le _
  | cons d u =>
    cases u with
    | nil => simp
    | cons d' u =>
      simp only [List.cons_append, List.cons.injEq, List.append_assoc] at e
      obtain ⟨rfl, rfl, e⟩ := e
      have := ((block_close body hb).1 (u := u) (v := v) (y := rest) (by simpa using e.symm)).1 (block_piece hu)
      rw [this]; exact Nat.le_refl _

end Scallop.Lexer
