import Verif.Proof.LexerShape

/-! # The lexer cuts the text into the longest pieces -/

namespace Scallop.Lexer
open Re

theorem fold_spec (text : List Char) : ∀ (T : List (Kind × Re)) (cur : Nat × Kind),
    cur.1 ≤ (T.foldl (tryEntry text) cur).1 ∧
    (∀ e ∈ T, ∀ m, e.2.longest text = some m → m ≤ (T.foldl (tryEntry text) cur).1) ∧
    ((T.foldl (tryEntry text) cur = cur ∧ ∀ e ∈ T, e.2.longest text ≠ some cur.1) ∨
      ∃ T1 e T2, T = T1 ++ e :: T2 ∧ e.1 = (T.foldl (tryEntry text) cur).2 ∧
        e.2.longest text = some (T.foldl (tryEntry text) cur).1 ∧
        ∀ e' ∈ T2, e'.2.longest text ≠ some (T.foldl (tryEntry text) cur).1)
  | [], cur => ⟨Nat.le_refl _, fun _ h => (nomatch h), .inl ⟨rfl, fun _ h => (nomatch h)⟩⟩
  | e :: T, cur => by
    obtain ⟨h1, h2, h3⟩ := fold_spec text T (tryEntry text cur e)
    simp only [List.foldl_cons]
    have hc : cur.1 ≤ (tryEntry text cur e).1 := by
      unfold tryEntry; split
      · split
        · assumption
        · exact Nat.le_refl _
      · exact Nat.le_refl _
    have hm : ∀ m, e.2.longest text = some m → m ≤ (tryEntry text cur e).1 := by
      intro m h
      simp only [tryEntry, h]
      split
      · exact Nat.le_refl _
      · rename_i h'; exact Nat.le_of_lt (Nat.lt_of_not_le h')
    refine ⟨Nat.le_trans hc h1, ?_, ?_⟩
    · intro e' he' m hm'
      rcases List.mem_cons.1 he' with rfl | he'
      · exact Nat.le_trans (hm m hm') h1
      · exact h2 e' he' m hm'
    · rcases h3 with ⟨h3, h4⟩ | ⟨T1, e', T2, h4, h5, h6, h7⟩
      · rw [h3]
        cases hl : e.2.longest text with
        | none =>
          have ht : tryEntry text cur e = cur := by simp only [tryEntry, hl]
          rw [ht] at h4 ⊢
          refine .inl ⟨rfl, fun e' he' => ?_⟩
          rcases List.mem_cons.1 he' with rfl | he'
          · rw [hl]; simp
          · exact h4 e' he'
        | some n =>
          by_cases hn : cur.1 ≤ n
          · have ht : tryEntry text cur e = (n, e.1) := by simp only [tryEntry, hl, if_pos hn]
            rw [ht] at h4 ⊢
            exact .inr ⟨[], e, T, rfl, rfl, hl, h4⟩
          · have ht : tryEntry text cur e = cur := by simp only [tryEntry, hl, if_neg hn]
            rw [ht] at h4 ⊢
            refine .inl ⟨rfl, fun e' he' => ?_⟩
            rcases List.mem_cons.1 he' with rfl | he'
            · rw [hl]; intro h; cases h; exact hn (Nat.le_refl _)
            · exact h4 e' he'
      · exact .inr ⟨e :: T1, e', T2, by rw [h4]; rfl, h5, h6, h7⟩

theorem skip_matches {w : List Char} : IsSkip w ↔ ∃ r, (Kind.skip, r) ∈ regexes ∧ r.Matches w := by
  constructor
  · rintro (h | h | h)
    · exact ⟨_, by simp [regexes], h⟩
    · exact ⟨lineCommentRe, by simp [regexes], h⟩
    · exact ⟨blockCommentRe, by simp [regexes], h⟩
  · rintro ⟨r, hr, h⟩
    simp [regexes] at hr
    rcases hr with rfl | rfl | rfl
    · exact .inl h
    · exact .inr (.inl h)
    · exact .inr (.inr h)

theorem token_matches {k : Kind} {w : List Char} (h : IsToken ⟨k, w⟩) : ∃ r, (k, r) ∈ table ∧ r.Matches w := by
  cases h with
  | @sym s hs => exact ⟨_, List.mem_append_right _ (List.mem_map.2 ⟨s, hs, rfl⟩), matches_text.2 rfl⟩
  | other hk _ h _ => exact ⟨_, List.mem_append_left _ hk, h⟩

theorem piece_matches {w : List Char} (h : IsPiece w) : ∃ e ∈ table, e.2.Matches w := by
  rcases h with h | ⟨k, h⟩
  · obtain ⟨r, hr, h⟩ := skip_matches.1 h
    exact ⟨(.skip, r), List.mem_append_left _ hr, h⟩
  · obtain ⟨r, hr, h⟩ := token_matches h
    exact ⟨(k, r), hr, h⟩

theorem literals_ne : ∀ s ∈ literals, s.toList ≠ [] := by decide +kernel

theorem matches_piece {e : Kind × Re} {w : List Char} (he : e ∈ table) (h : e.2.Matches w) : IsPiece w := by
  obtain ⟨k, r⟩ := e
  rcases List.mem_append.1 he with he | he
  · by_cases hk : k = .skip
    · subst hk; exact .inl (skip_matches.2 ⟨r, he, h⟩)
    · by_cases hl : ∀ s ∈ literals, s.toList ≠ w
      · exact .inr ⟨k, .other he hk h hl⟩
      · have : ∃ s ∈ literals, s.toList = w := Classical.byContradiction fun hn => hl fun s hs e => hn ⟨s, hs, e⟩
        obtain ⟨s, hs, rfl⟩ := this
        exact .inr ⟨_, .sym hs⟩
  · obtain ⟨s, hs, e⟩ := List.mem_map.1 he
    cases e
    have := matches_text.1 h
    subst this
    exact .inr ⟨_, .sym hs⟩

theorem sym_skip {s : String} (hs : s ∈ literals) : ¬ IsSkip s.toList := by
  intro h
  have hd : ∀ s ∈ literals, (s.toList.head?.all (fun c => !isBlank c) &&
      (match s.toList with | '/' :: '/' :: _ => false | '/' :: '*' :: _ => false | _ => true)) = true := by decide +kernel
  have := hd s hs
  rcases h with h | h | h
  · have hn := literals_ne s hs
    revert this hn
    cases hl : s.toList with
    | nil => intro _ h; exact absurd rfl h
    | cons c l =>
      rw [hl] at h
      have := blanks_shape.1 h c (by simp)
      simp [this]
  · obtain ⟨v, e⟩ := line_shape h
    rw [e] at this; simp at this
  · obtain ⟨v, e⟩ := block_shape h
    rw [e] at this; simp at this

theorem token_ne {t : Tok} (h : IsToken t) : t.text ≠ [] := by
  cases h with
  | sym hs => exact literals_ne _ hs
  | @other k r w hk hne h _ =>
    rintro (rfl : w = [])
    have hd : ∀ e ∈ regexes, e.1 ≠ Kind.skip → e.2.nullable = false := by decide +kernel
    rw [← nullable_iff, hd _ hk hne] at h
    cases h

theorem token_kind {t t' : Tok} (h : IsToken t) (h' : IsToken t') (e : t.text = t'.text) : t = t' := by
  cases h with
  | @sym s hs =>
    cases h' with
    | @sym s' hs' => have := String.toList_injective e; subst this; rfl
    | other _ _ _ hl => exact absurd e (hl s hs)
  | @other k r w hk hne hm hl =>
    cases h' with
    | @sym s' hs' => exact absurd e.symm (hl s' hs')
    | @other k' r' w' hk' hne' hm' hl' =>
      have hw := token_ne (.other hk hne hm hl)
      have e : w = w' := e
      subst e
      rw [← sig_of_matches hk hm hw, ← sig_of_matches hk' hm' hw]

theorem token_not_skip {t : Tok} (h : IsToken t) : ¬ IsSkip t.text := by
  intro hs
  cases h with
  | sym h => exact sym_skip h hs
  | @other k r w hk hne hm hl =>
    obtain ⟨r', hr', hm'⟩ := skip_matches.1 hs
    have hw := token_ne (.other hk hne hm hl)
    have := sig_of_matches hr' hm' hw
    exact hne ((sig_of_matches hk hm hw).symm.trans this)

/-- What `best` finds. -/
theorem best_spec {text : List Char} {n : Nat} {k : Kind} (h : best text = (n + 1, k)) :
    ∃ w rest, text = w ++ rest ∧ w.length = n + 1 ∧ LongestPiece w rest ∧
      ((k = .skip ∧ IsSkip w) ∨ (k ≠ .skip ∧ IsToken ⟨k, w⟩)) := by
  obtain ⟨-, h2, h3⟩ := fold_spec text table (0, .skip)
  change _ = _ at h
  unfold best at h
  rw [h] at h2 h3
  rcases h3 with ⟨h3, _⟩ | ⟨T1, e, T2, hT, rfl, hl, hlater⟩
  · cases h3
  · obtain ⟨⟨w, rest, rfl, hw, hm⟩, -⟩ := longest_some hl
    have he : e ∈ table := by rw [hT]; simp
    have hwne : w ≠ [] := by intro h; rw [h] at hw; cases hw
    refine ⟨w, rest, rfl, hw, ⟨hwne, matches_piece he hm, ?_⟩, ?_⟩
    · intro u v e' hu
      obtain ⟨e1, he1, hm1⟩ := piece_matches hu
      obtain ⟨m, hlm, hle⟩ := longest_isSome (v := v) hm1
      rw [← e'] at hlm
      have := h2 e1 he1 m hlm
      rw [hw]; exact Nat.le_trans hle this
    · by_cases hk : ∃ s ∈ literals, s.toList = w
      · obtain ⟨s, hs, rfl⟩ := hk
        -- the literal itself is in the table; it is `e` or it comes later or earlier
        have hmem : (Kind.sym s, Re.text s.toList) ∈ table := List.mem_append_right _ (List.mem_map.2 ⟨s, hs, rfl⟩)
        have hmax : (Re.text s.toList).longest (s.toList ++ rest) = some (n + 1) := by
          obtain ⟨m, hlm, hle⟩ := longest_isSome (v := rest) (matches_text.2 (rfl : s.toList = s.toList))
          have := h2 _ hmem m hlm
          rw [hlm]; exact congrArg some (Nat.le_antisymm this (Nat.le_trans (Nat.le_of_eq hw.symm) hle))
        have hnot : (Kind.sym s, Re.text s.toList) ∉ T2 := fun hmem2 => hlater _ hmem2 hmax
        -- `e` is a literal
        have hlit : e ∈ literals.map (fun s => (Kind.sym s, Re.text s.toList)) := by
          rcases List.mem_append.1 (show e ∈ regexes ++ literals.map _ from he) with hr | hr
          · exfalso
            have hin : (Kind.sym s, Re.text s.toList) ∈ T2 := by
              unfold table at hT
              rcases List.append_eq_append_iff.1 hT with ⟨as, e1, e2⟩ | ⟨bs, e1, e2⟩
              · -- T1 = regexes ++ as, the literals are as ++ e :: T2
                exfalso
                have : e ∈ literals.map (fun s => (Kind.sym s, Re.text s.toList)) := by rw [e2]; simp
                obtain ⟨s', _, e3⟩ := List.mem_map.1 this
                rw [← e3] at hr
                simp [regexes] at hr
              · cases bs with
                | nil =>
                  exfalso
                  simp only [List.nil_append] at e2
                  have : e ∈ literals.map (fun s => (Kind.sym s, Re.text s.toList)) := by rw [← e2]; simp
                  obtain ⟨s', _, e3⟩ := List.mem_map.1 this
                  rw [← e3] at hr
                  simp [regexes] at hr
                | cons b bs =>
                  cases e2
                  exact List.mem_append_right _ (List.mem_map.2 ⟨s, hs, rfl⟩)
            exact hnot hin
          · exact hr
        obtain ⟨s', hs', rfl⟩ := List.mem_map.1 hlit
        have := matches_text.1 hm
        refine .inr ⟨by simp, ?_⟩
        rw [this]; exact .sym hs'
      · have hk' : ∀ s ∈ literals, s.toList ≠ w := fun s hs e => hk ⟨s, hs, e⟩
        obtain ⟨k, r⟩ := e
        rcases List.mem_append.1 (show (k, r) ∈ regexes ++ literals.map _ from he) with hr | hr
        · by_cases hks : k = .skip
          · subst hks; exact .inl ⟨rfl, skip_matches.2 ⟨r, hr, hm⟩⟩
          · exact .inr ⟨hks, .other hr hks hm hk'⟩
        · obtain ⟨s', hs', e'⟩ := List.mem_map.1 hr
          cases e'
          exact absurd (matches_text.1 hm).symm (hk' s' hs')

theorem best_of_longest {w rest : List Char} (h : LongestPiece w rest) :
    ∃ k, best (w ++ rest) = (w.length, k) ∧ ((k = .skip ∧ IsSkip w) ∨ (k ≠ .skip ∧ IsToken ⟨k, w⟩)) := by
  obtain ⟨e, he, hm⟩ := piece_matches h.2.1
  obtain ⟨m, hlm, hle⟩ := longest_isSome (v := rest) hm
  obtain ⟨-, h2, -⟩ := fold_spec (w ++ rest) table (0, .skip)
  have h1 : m ≤ (best (w ++ rest)).1 := h2 e he m hlm
  cases hb : best (w ++ rest) with
  | mk n k =>
    rw [hb] at h1
    have hwpos : 0 < w.length := List.length_pos_iff.2 h.1
    cases n with
    | zero => exact absurd (Nat.le_trans hle h1) (Nat.not_le_of_lt hwpos)
    | succ n =>
      obtain ⟨w', rest', e', hl', hp', hk⟩ := best_spec hb
      have hle' := h.2.2 w' rest' e' hp'.2.1
      have hle'' := hp'.2.2 w rest e'.symm h.2.1
      have hlen : w.length = w'.length := Nat.le_antisymm hle'' hle'
      obtain ⟨rfl, rfl⟩ := List.append_inj e' hlen
      exact ⟨k, by rw [hl'], hk⟩

theorem lexN_more : ∀ (f : Nat) (l : List Char) (g : Nat), l.length ≤ f → l.length ≤ g → lexN f l = lexN g l
  | 0, [], g, _, _ => by cases g <;> rfl
  | _ + 1, [], g, _, _ => by cases g <;> rfl
  | 0, _ :: _, _, h, _ => absurd h (Nat.not_succ_le_zero _)
  | _ + 1, _ :: _, 0, _, h => absurd h (Nat.not_succ_le_zero _)
  | f + 1, c :: l, g + 1, hf, hg => by
    unfold lexN
    rcases best (c :: l) with ⟨n, k⟩
    cases n with
    | zero => rfl
    | succ n =>
      have hd : (l.drop n).length ≤ l.length := by rw [List.length_drop]; exact Nat.sub_le _ _
      simp only
      rw [lexN_more f (l.drop n) g (Nat.le_trans hd (Nat.le_of_succ_le_succ hf))
        (Nat.le_trans hd (Nat.le_of_succ_le_succ hg))]

theorem lex_piece {w rest : List Char} {k : Kind} (hw : w ≠ []) (hb : best (w ++ rest) = (w.length, k)) :
    lex (w ++ rest) = match lex rest with
      | none => none
      | some ts => if k = .skip then some ts else some (⟨k, w⟩ :: ts) := by
  cases w with
  | nil => exact absurd rfl hw
  | cons c w =>
    have hlen : rest.length ≤ (w ++ rest).length := by rw [List.length_append]; exact Nat.le_add_left _ _
    unfold lex
    simp only [List.cons_append, List.length_cons]
    rw [lexN]
    simp only [List.cons_append, List.length_cons] at hb
    rw [hb]
    simp only [List.drop_left, List.take_succ_cons, List.take_left]
    rw [lexN_more _ rest rest.length hlen (Nat.le_refl _)]
    cases lexN rest.length rest <;> rfl

theorem cut_lex {text : List Char} {ts : List Tok} (h : Cut text ts) : lex text = some ts := by
  induction h with
  | done => rfl
  | @skip w rest ts hp hs _ ih =>
    obtain ⟨k, hb, ⟨rfl, _⟩ | ⟨_, ht⟩⟩ := best_of_longest hp
    · rw [lex_piece hp.1 hb, ih]; rfl
    · exact absurd hs (token_not_skip ht)
  | @token t rest ts hp ht _ ih =>
    obtain ⟨k, hb, ⟨rfl, hs⟩ | ⟨hk, ht'⟩⟩ := best_of_longest hp
    · exact absurd hs (token_not_skip ht)
    · have := token_kind ht' ht rfl
      rw [lex_piece hp.1 hb, ih]
      simp only [if_neg hk, this]

theorem lex_cut : ∀ (n : Nat) (text : List Char) (ts : List Tok), text.length ≤ n → lex text = some ts → Cut text ts
  | _, [], ts, _, h => by cases h; exact .done
  | 0, _ :: _, _, hl, _ => absurd hl (Nat.not_succ_le_zero _)
  | n + 1, c :: l, ts, hl, h => by
    cases hb : best (c :: l) with
    | mk m k =>
      cases m with
      | zero =>
        unfold lex at h
        simp only [List.length_cons] at h
        rw [lexN, hb] at h
        cases h
      | succ m =>
        obtain ⟨w, rest, e, hw, hp, hk⟩ := best_spec hb
        rw [e] at hb h hl ⊢
        rw [lex_piece hp.1 (hb.trans (by rw [hw]))] at h
        have hrest : rest.length ≤ n := by
          rw [List.length_append, hw] at hl
          omega
        cases hr : lex rest with
        | none => rw [hr] at h; cases h
        | some us =>
          rw [hr] at h
          have ih := lex_cut n rest us hrest hr
          rcases hk with ⟨rfl, hs⟩ | ⟨hk, ht⟩
          · simp only [if_true] at h; cases h
            exact .skip hp hs ih
          · simp only [if_neg hk] at h; cases h
            exact .token (t := ⟨k, w⟩) hp ht ih

end Scallop.Lexer
