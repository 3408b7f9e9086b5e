import Verif.Proof.LexerExpr
import Verif.Proof.LexerSpecialized
import Verif.Props.Grammar

/-!
# Property theorems C113: the text of a program
-/

namespace Scallop.Lexer

/-- C113: a text is cut, from left to right, into the longest pieces that are blanks, comments or tokens, and the
tokens among them are read; it is refused if at some place there is no such piece. -/
theorem c113_longest (text : List Char) (ts : List Tok) : lex text = some ts ↔ Cut text ts :=
  ⟨lex_cut _ text ts (Nat.le_refl _), cut_lex⟩

/-- C113: there is one way to cut a text. -/
theorem c113_unique {text : List Char} {ts ts' : List Tok} (h : Cut text ts) (h' : Cut text ts') : ts = ts' :=
  Option.some.inj ((cut_lex h).symm.trans (cut_lex h'))

/-- C113: a text is a token of one kind, and no token is a comment or blank. -/
theorem c113_kind {t t' : Tok} (h : IsToken t) (h' : IsToken t') (e : t.text = t'.text) : t = t' ∧ ¬ IsSkip t.text :=
  ⟨token_kind h h' e, token_not_skip h⟩

/-- C113: what the tokens of each kind look like: the symbols and keywords, and names, numbers, strings and so on. -/
theorem c113_tokens (t : Tok) : IsToken t ↔ Shape t.kind t.text :=
  ⟨shape_of_token, token_of_shape⟩

/-- C113: what is skipped: blanks and line ends, a comment from `//` to the end of its line, a comment from `/*` to the
next `*/`. -/
theorem c113_skips (w : List Char) : IsSkip w ↔ SkipShape w := skip_iff

/-- For example a number with a sign and an exponent, and a comment with stars in it. -/
example : IsToken ⟨.float, "-1.5e-3".toList⟩ ∧ IsSkip "/* a ** b */".toList :=
  ⟨(c113_tokens _).2 (.floatExp (sg := ['-']) (ds := ['1']) (fs := ['5']) (sg' := ['-']) (es := ['3']) (.inr rfl) ⟨by simp, by decide⟩
    ⟨by simp, by decide⟩ (.inr rfl) ⟨by simp, by decide⟩),
   .inr (.inr (accepts_iff.1 (by decide +kernel)))⟩

example : lex "rel p(x) = q(x,\n  y) // rest".toList = some
    [⟨.sym "rel", "rel".toList⟩, ⟨.name, ['p']⟩, ⟨.sym "(", ['(']⟩, ⟨.name, ['x']⟩, ⟨.sym ")", [')']⟩, ⟨.sym "=", ['=']⟩,
     ⟨.name, ['q']⟩, ⟨.sym "(", ['(']⟩, ⟨.name, ['x']⟩, ⟨.sym ",", [',']⟩, ⟨.name, ['y']⟩, ⟨.sym ")", [')']⟩] := by
  decide +kernel

/-- C113: a program is read as it is laid out: with any blanks and line ends between its tokens, and none where one
of the neighbours is a bracket, comma or semicolon, provided that nowhere in it `name < name, name … >` stands. -/
theorem c113_layout_partial (l : Layout) (h : l.Fits) (hn : NoAngles l.toks) : lex l.chars = some l.toks :=
  cut_lex (cut_layout h hn)

/-- C113: in particular tokens can be written with one blank after each. -/
theorem c113_spaced_partial (ts : List Tok) (h : ∀ t ∈ ts, IsToken t) (hn : NoAngles ts) : lex (spaced ts) = some ts := by
  have := c113_layout_partial _ (fits_spaced h) (by rw [toks_spaced]; exact hn)
  rwa [toks_spaced] at this

theorem isToken_name {n : List Char} (h : nameRe.Matches n) (hl : ∀ s ∈ literals, s.toList ≠ n) : IsToken ⟨.name, n⟩ :=
  .other (r := nameRe) (by simp [regexes]) (by simp) h hl

theorem exampleTokens : ∀ t ∈ [(⟨.name, ['a']⟩ : Tok), ⟨.sym "<", ['<']⟩, ⟨.name, ['b']⟩, ⟨.sym ",", [',']⟩, ⟨.name, ['c']⟩,
    ⟨.sym ">", ['>']⟩, ⟨.name, ['d']⟩], IsToken t := by
  have hname : ∀ c ∈ ['a', 'b', 'c', 'd'], IsToken ⟨.name, [c]⟩ := by
    intro c hc
    refine isToken_name (name_shape.2 ⟨c, [], rfl, ?_, by simp⟩) ?_
    · revert c; decide
    · revert c; decide +kernel
  intro t ht
  simp only [List.mem_cons, List.not_mem_nil, or_false] at ht
  rcases ht with rfl | rfl | rfl | rfl | rfl | rfl | rfl
  · exact hname 'a' (by simp)
  · exact .sym (s := "<") (by decide)
  · exact hname 'b' (by simp)
  · exact .sym (s := ",") (by decide)
  · exact hname 'c' (by simp)
  · exact .sym (s := ">") (by decide)
  · exact hname 'd' (by simp)

/-- The hypotheses of `c113_layout_partial` are met by `a < b, c`. -/
example : Layout.Fits [(⟨.name, ['a']⟩, [' ']), (⟨.sym "<", ['<']⟩, ['\n', ' ']), (⟨.name, ['b']⟩, []), (⟨.sym ",", [',']⟩, []),
    (⟨.name, ['c']⟩, [])] ∧
    NoAngles [⟨.name, ['a']⟩, ⟨.sym "<", ['<']⟩, ⟨.name, ['b']⟩, ⟨.sym ",", [',']⟩, ⟨.name, ['c']⟩] := by
  have ht := exampleTokens
  constructor
  · refine .cons (ht _ (by simp)) (by simp [isBlank]) (.inl (by simp)) (.cons (ht _ (by simp)) (by simp [isBlank]) (.inl (by simp))
      (.cons (ht _ (by simp)) (by simp) (.inr (.inr (by simp [Tok.IsPunct]))) (.cons (ht _ (by simp)) (by simp)
        (.inr (.inl (by simp [Tok.IsPunct]))) (.last (ht _ (by simp)) (by simp)))))
  · intro us vs e hv
    cases hv with
    | @mk t t' ts h1 h2 h3 =>
      have : ∀ x : Tok, x ∈ us ++ t :: ⟨.sym "<", ['<']⟩ :: t' :: ts → x ≠ ⟨.sym ">", ['>']⟩ ∧ x ≠ ⟨.sym ">=", ['>', '=']⟩ := by
        intro x hx
        rw [← e] at hx
        simp only [List.mem_cons, List.not_mem_nil, or_false] at hx
        rcases hx with rfl | rfl | rfl | rfl | rfl <;> decide
      have hc : ∀ ts, ClosesAngle ts → ∃ x ∈ ts, x = ⟨.sym ">", ['>']⟩ ∨ x = ⟨.sym ">=", ['>', '=']⟩ := by
        intro ts h
        induction h with
        | gt => exact ⟨_, by simp, .inl rfl⟩
        | geq => exact ⟨_, by simp, .inr rfl⟩
        | comma _ _ ih => obtain ⟨x, hx, h⟩ := ih; exact ⟨x, by simp [hx], h⟩
      obtain ⟨x, hx, h⟩ := hc _ h3
      have := this x (by simp [hx])
      rcases h with h | h
      · exact this.1 h
      · exact this.2 h

/-- C113, without the proviso: false.  Two comparisons `a < b, c > d` in the body of a rule are read as the name of a
specialized predicate followed by a name. -/
theorem c113_layout_false : ∃ ts : List Tok, (∀ t ∈ ts, IsToken t) ∧ spaced ts = "a < b , c > d ".toList ∧
    lex (spaced ts) = some [⟨.specialized, "a < b , c >".toList⟩, ⟨.name, ['d']⟩] ∧ lex (spaced ts) ≠ some ts := by
  refine ⟨_, exampleTokens, by decide +kernel, by decide +kernel, by decide +kernel⟩

/-- C113: blanks and line ends at the beginning of a text, or after any token, change nothing. -/
theorem c113_blanks (b rest : List Char) (h : ∀ c ∈ b, c = ' ' ∨ c = '\n' ∨ c = '\r') : lex (b ++ rest) = lex rest :=
  lex_blank fun c hc => by rcases h c hc with rfl | rfl | rfl <;> rfl

/-- C113: a comment up to the end of the line changes nothing. -/
theorem c113_line_comment (body rest : List Char) (h : '\n' ∉ body ∧ '\r' ∉ body)
    (hr : rest = [] ∨ ∃ z, rest = '\n' :: z ∨ rest = '\r' :: z) : lex ("//".toList ++ body ++ rest) = lex rest := by
  refine lex_line (fun c hc => ?_) (fun c z e => ?_)
  · unfold notEol
    simp only [Bool.and_eq_true, bne_iff_ne]
    exact ⟨fun e => h.1 (e ▸ hc), fun e => h.2 (e ▸ hc)⟩
  · rcases hr with rfl | ⟨z', rfl | rfl⟩
    · cases e
    · cases e; rfl
    · cases e; rfl

/-- C113: a comment in `/* … */` changes nothing, and it ends with the first `*/`. -/
theorem c113_block_comment (body rest : List Char) (h : ∀ a b, body ≠ a ++ "*/".toList ++ b) :
    lex ("/*".toList ++ body ++ "*/".toList ++ rest) = lex rest := by
  have := lex_block (body := body) (rest := rest) fun a b e => h a b (by rw [e]; simp)
  rw [← this]; simp

example : lex "p /* a ** // \" */ ( // x\n)".toList = some [⟨.name, ['p']⟩, ⟨.sym "(", ['(']⟩, ⟨.sym ")", [')']⟩] := by decide +kernel

/-- C113: without blanks around it a minus sign belongs to the number: `x-1` is a name and a number, which is no
expression, whereas `x - 1` is a difference; likewise `b?x:-1` contains the symbol `:-`. -/
theorem c113_minus_false :
    lex "x-1".toList = some [⟨.name, ['x']⟩, ⟨.int, ['-', '1']⟩] ∧
    StandAll [⟨.name, ['x']⟩, ⟨.int, ['-', '1']⟩] [.name "x", .lit "-1"] ∧
    (¬ ∃ e, Syn.Reads [.name "x", .lit "-1"] e) ∧
    lex "x - 1".toList = some [⟨.name, ['x']⟩, ⟨.sym "-", ['-']⟩, ⟨.int, ['1']⟩] ∧
    Syn.Reads [.name "x", .sym .minus, .lit "1"] (.bin .sub (.var "x") (.lit "1")) ∧
    lex "b?x:-1".toList = some [⟨.name, ['b']⟩, ⟨.sym "?", ['?']⟩, ⟨.name, ['x']⟩, ⟨.sym ":-", [':', '-']⟩, ⟨.int, ['1']⟩] := by
  have hx : Syn.Reads [.name "x"] (.var "x") := (Syn.c112_written (.var "x") _).2 rfl
  refine ⟨by decide +kernel, .cons (.name "x") (.cons (.lit "-1" (by simp)) .nil), ?_, by decide +kernel, ?_, by decide +kernel⟩
  · exact Syn.c112_adjacent hx (t := .lit "-1") ⟨by simp, by simp, fun o => by simp⟩ []
  · exact .iteOf (.andOrOf (.cmpOf (.addOfB (.add (l := [.name "x"]) (s := .minus) (r := [.lit "1"]) (.addOf (.mulOf (.unaryOf .var))) rfl
      (.mulOf (.unaryOf .lit))))))

/-- C113: a specialized name is read as its name and its arguments, whatever white space stands between them, and
every token of that kind is such a text. -/
theorem c113_specialized (w : List Char) : IsToken ⟨.specialized, w⟩ ↔
    ∃ n s a l, w = n ++ (s ++ '<' :: argsText a l) ∧ IsName n ∧ (∀ c ∈ s, isSpace c = true) ∧ (∀ b ∈ a :: l, b.Ok) ∧
      readSpecialized w = some (n, (a :: l).map Arg.name) := by
  rw [c113_tokens]
  constructor
  · intro h
    obtain ⟨n, s, s', n', u, e, h1, h2, h3, h4, h5⟩ : ∃ n s s' n' u, w = n ++ (s ++ '<' :: (s' ++ (n' ++ u))) ∧ IsName n ∧
        (∀ c ∈ s, isSpace c = true) ∧ (∀ c ∈ s', isSpace c = true) ∧ IsName n' ∧ NamesGt u := by
      generalize hk : (⟨.specialized, w⟩ : Tok).kind = k at h
      cases h with
      | specialized h1 h2 h3 h4 h5 => exact ⟨_, _, _, _, _, rfl, h1, h2, h3, h4, h5⟩
      | _ => cases hk
    obtain ⟨a, l, e', hl⟩ := args_of_names h5 h3 h4
    rw [e'] at e
    exact ⟨n, s, a, l, e, h1, h2, hl, e ▸ read_specialized h1 h2 hl⟩
  · rintro ⟨n, s, a, l, rfl, h1, h2, hl, -⟩
    obtain ⟨u, e, hu⟩ := names_of_args a l hl
    rw [e]
    exact .specialized h1 h2 (hl a (by simp)).1 (hl a (by simp)).2.1 hu

/-- For example `add < x ,y>`. -/
example : lex "add < x ,y>".toList = some [⟨.specialized, "add < x ,y>".toList⟩] ∧
    readSpecialized "add < x ,y>".toList = some ("add".toList, [['x'], ['y']]) := by
  refine ⟨by decide +kernel, by decide +kernel⟩

/-- C113: tabs are no blanks. -/
theorem c113_tab_false : lex "p\tq".toList = none ∧ lex "p q".toList = some [⟨.name, ['p']⟩, ⟨.name, ['q']⟩] ∧
    lex "p\t<\tq\t>".toList = some [⟨.specialized, "p\t<\tq\t>".toList⟩] := by
  refine ⟨by decide +kernel, by decide +kernel, by decide +kernel⟩

/-- C113, with C112: every expression can be written as a text: with parentheses around every operator and a blank after
every token it is read back as that expression and as no other. -/
theorem c113_expression (e : Syn.Ast) (us : List Tok) (hs : StandAll us (Syn.written e)) (ht : ∀ u ∈ us, IsToken u) :
    lex (spaced us) = some us ∧ ∀ e', Syn.Reads (Syn.written e) e' ↔ e' = e := by
  have hb : NoBad (Syn.written e) := by
    have := noBad_written e [] trivial
    rwa [List.append_nil] at this
  exact ⟨c113_spaced_partial us ht (noAngles_of_noBad hs hb), Syn.c112_written e⟩

/-- For example `(a < b)`. -/
example : StandAll [⟨.sym "(", ['(']⟩, ⟨.name, ['a']⟩, ⟨.sym "<", ['<']⟩, ⟨.name, ['b']⟩, ⟨.sym ")", [')']⟩]
    (Syn.written (.bin .lt (.var "a") (.var "b"))) ∧
    lex "( a < b ) ".toList = some [⟨.sym "(", ['(']⟩, ⟨.name, ['a']⟩, ⟨.sym "<", ['<']⟩, ⟨.name, ['b']⟩, ⟨.sym ")", [')']⟩] :=
  ⟨.cons (.sym .lpar) (.cons (.name "a") (.cons (.sym .lt) (.cons (.name "b") (.cons (.sym .rpar) .nil)))), by decide +kernel⟩

end Scallop.Lexer
