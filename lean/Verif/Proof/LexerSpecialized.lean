import Verif.Proof.LexerKinds

/-! # Reading specialized names -/

namespace Scallop.Lexer
open Re

theorem space_char {c : Char} (h : isSpace c = true) : c ≠ ',' ∧ c ≠ '<' := by
  refine ⟨?_, ?_⟩
  · rintro rfl; revert h; decide
  · rintro rfl; revert h; decide

theorem ident_char {c : Char} (h : isIdent c = true) : isSpace c = false ∧ c ≠ ',' ∧ c ≠ '<' := by
  refine ⟨?_, ?_, ?_⟩
  · cases hs : isSpace c with
    | false => rfl
    | true => rw [space_not_ident hs] at h; cases h
  · rintro rfl; revert h; decide
  · rintro rfl; revert h; decide

theorem name_chars {n : List Char} (h : IsName n) : ∀ c ∈ n, isIdent c = true := by
  obtain ⟨c, l, rfl, hc, hl⟩ := name_shape.1 (name_iff.2 h)
  intro d hd
  rcases List.mem_cons.1 hd with rfl | hd
  · simp [isIdent, hc]
  · exact hl d hd

theorem name_ne {n : List Char} (h : IsName n) : n ≠ [] := by cases h; simp

theorem dropSpaces {s w : List Char} (hs : ∀ c ∈ s, isSpace c = true) (hw : ∀ c ∈ w.head?, isSpace c = false) :
    (s ++ w).dropWhile isSpace = w := by
  induction s with
  | nil => cases w with
    | nil => rfl
    | cons c w => simp [hw c (by simp)]
  | cons c s ih =>
    simp only [List.cons_append, List.dropWhile, hs c (by simp)]
    exact ih fun d hd => hs d (List.mem_cons_of_mem _ hd)

theorem trimEnd_name {n s : List Char} (hn : ∀ c ∈ n, isSpace c = false) (hs : ∀ c ∈ s, isSpace c = true) : trimEnd (n ++ s) = n := by
  rw [trimEnd, List.reverse_append, dropSpaces (by simpa using hs), List.reverse_reverse]
  intro c hc
  exact hn c (by
    have := List.mem_of_mem_head? hc
    simpa using this)

theorem trim_arg {a : Arg} (h : a.Ok) : trimEnd (trimStart (a.before ++ (a.name ++ a.after))) = a.name := by
  have hc := name_chars h.2.1
  rw [trimStart, dropSpaces h.1]
  · exact trimEnd_name (fun c hc' => (ident_char (hc c hc')).1) h.2.2
  · intro c hc'
    have hne := name_ne h.2.1
    cases hn : a.name with
    | nil => exact absurd hn hne
    | cons d l =>
      rw [hn] at hc'
      simp at hc'
      subst hc'
      exact (ident_char (hc _ (by rw [hn]; simp))).1

theorem commaParts_ne (l : List Char) : commaParts l ≠ [] := by
  cases l with
  | nil => simp [commaParts]
  | cons c l =>
    rw [commaParts]
    split
    · simp
    · split <;> simp

theorem commaParts_none {p : List Char} (h : ',' ∉ p) : commaParts p = [p] := by
  induction p with
  | nil => rfl
  | cons c p ih =>
    simp only [List.mem_cons, not_or] at h
    rw [commaParts, if_neg (Ne.symm h.1), ih h.2]

theorem commaParts_cons {p q : List Char} (h : ',' ∉ p) : commaParts (p ++ ',' :: q) = p :: commaParts q := by
  induction p with
  | nil => simp [commaParts]
  | cons c p ih =>
    simp only [List.mem_cons, not_or] at h
    rw [List.cons_append, commaParts, if_neg (Ne.symm h.1), ih h.2]

theorem arg_chars {a : Arg} (h : a.Ok) : ∀ c ∈ a.before ++ (a.name ++ a.after), c ≠ ',' ∧ c ≠ '<' := by
  intro c hc
  simp only [List.mem_append] at hc
  rcases hc with hc | hc | hc
  · exact (space_char (h.1 c hc))
  · exact (ident_char (name_chars h.2.1 c hc)).2
  · exact (space_char (h.2.2 c hc))

theorem parts_args (a : Arg) (l : List Arg) (h : ∀ b ∈ a :: l, b.Ok) :
    (commaParts (argsText a l).dropLast).map (fun p => trimEnd (trimStart p)) = (a :: l).map Arg.name := by
  induction l generalizing a with
  | nil =>
    have ha := h a (by simp)
    have e : argsText a [] = (a.before ++ (a.name ++ a.after)) ++ ['>'] := by simp [argsText]
    rw [e, List.dropLast_concat, commaParts_none fun hm => (arg_chars ha _ hm).1 rfl]
    simp [trim_arg ha]
  | cons b l ih =>
    have ha := h a (by simp)
    have e : argsText a (b :: l) = (a.before ++ (a.name ++ a.after)) ++ ',' :: argsText b l := by simp [argsText]
    have hne : argsText b l ≠ [] := by cases l <;> simp [argsText]
    rw [e, List.dropLast_append_of_ne_nil (by simp), List.dropLast_cons_of_ne_nil hne,
      commaParts_cons fun hm => (arg_chars ha _ hm).1 rfl, List.map_cons, trim_arg ha, ih b fun c hc => h c (List.mem_cons_of_mem _ hc)]
    simp

theorem read_specialized {n s : List Char} {a : Arg} {l : List Arg} (hn : IsName n) (hs : ∀ c ∈ s, isSpace c = true)
    (h : ∀ b ∈ a :: l, b.Ok) : readSpecialized (n ++ (s ++ '<' :: argsText a l)) = some (n, (a :: l).map Arg.name) := by
  have hno : ∀ c ∈ n ++ s, (c != '<') = true := by
    intro c hc
    rw [bne_iff_ne]
    rcases List.mem_append.1 hc with hc | hc
    · exact (ident_char (name_chars hn c hc)).2.2
    · exact (space_char (hs c hc)).2
  have e : n ++ (s ++ '<' :: argsText a l) = (n ++ s) ++ '<' :: argsText a l := by simp
  have hd : ((n ++ s) ++ '<' :: argsText a l).dropWhile (· != '<') = '<' :: argsText a l := by
    rw [List.dropWhile_append_of_pos hno]; rfl
  have ht : ((n ++ s) ++ '<' :: argsText a l).takeWhile (· != '<') = n ++ s := by
    rw [List.takeWhile_append_of_pos hno]; simp [List.takeWhile]
  rw [readSpecialized, e, hd, ht]
  simp only [parts_args a l h, trimEnd_name (fun c hc => (ident_char (name_chars hn c hc)).1) hs]

theorem names_of_args (a : Arg) (l : List Arg) (h : ∀ b ∈ a :: l, b.Ok) : ∃ u, argsText a l = a.before ++ (a.name ++ u) ∧ NamesGt u := by
  induction l generalizing a with
  | nil => exact ⟨_, rfl, .gt (h a (by simp)).2.2⟩
  | cons b l ih =>
    obtain ⟨u, e, hu⟩ := ih b fun c hc => h c (List.mem_cons_of_mem _ hc)
    have hb := h b (by simp)
    exact ⟨_, rfl, e ▸ .comma (h a (by simp)).2.2 hb.1 hb.2.1 hu⟩

theorem args_of_names {u : List Char} (hu : NamesGt u) : ∀ {s n : List Char}, (∀ c ∈ s, isSpace c = true) → IsName n →
    ∃ a l, s ++ (n ++ u) = argsText a l ∧ ∀ b ∈ a :: l, b.Ok := by
  induction hu with
  | @gt s'' hs'' =>
    intro s n hs hn
    refine ⟨⟨s, n, s''⟩, [], rfl, ?_⟩
    intro b hb
    simp at hb; subst hb
    exact ⟨hs, hn, hs''⟩
  | @comma t t' n' u ht ht' hn' _ ih =>
    intro s n hs hn
    obtain ⟨a, l, e, h⟩ := ih ht' hn'
    refine ⟨⟨s, n, t⟩, a :: l, by rw [e]; rfl, ?_⟩
    intro b hb
    rcases List.mem_cons.1 hb with rfl | hb
    · exact ⟨hs, hn, ht⟩
    · exact h b hb

end Scallop.Lexer
