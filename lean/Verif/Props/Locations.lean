import Verif.Proof.Locations

/-!
# Property theorems C114: the locations in error messages
-/

namespace Scallop.Loc

/-- C114: a place after `ls` complete lines and the part `a` of its own line has the row `ls.length` and as its column the length of
`a` in bytes (both counted from 0). -/
theorem c114_position (ls : List (List Char)) (h : ∀ l ∈ ls, OneLine l) (a b : List Char) (ha : OneLine a) :
    rowCol (rows (ended ls ++ a ++ b)) (blen (ended ls ++ a)) = (ls.length, blen a) := by
  have := rowCol_at ls h a b ha 0 0
  rw [rowCol, rows_eq, List.append_assoc, blen_append]
  simpa using this

/-- C114: the text shown for a row is its line. -/
theorem c114_line (ls : List (List Char)) (h : ∀ l ∈ ls, OneLine l) (l rest : List Char) (hl : OneLine l)
    (hr : rest = [] ∨ ∃ t, rest = '\n' :: t) : line (ended ls ++ l ++ rest) ls.length = some l := by
  rw [List.append_assoc]; exact line_at ls h l rest hl hr

/-- C114: there are as many rows as line ends, and one more. -/
theorem c114_rows (s : List Char) : (rows s).length = s.count '\n' + 1 := by
  obtain ⟨ls, l, rfl, h, hl⟩ := lines_of s
  rw [rows_eq, rows_length ls h l hl 0, List.count_append, List.count_eq_zero.2 hl]
  congr 1
  induction ls with
  | nil => rfl
  | cons m ls ih =>
    rw [ended, List.count_append, List.count_eq_zero.2 (h m (by simp)), List.count_cons_self, List.length_cons,
      ih fun x hx => h x (List.mem_cons_of_mem _ hx)]
    omega

/-- C114: different places have different locations, and later places have later ones. -/
theorem c114_order (s : List Char) (a b : Nat) :
    (a < b ↔ (rowCol (rows s) a).1 < (rowCol (rows s) b).1 ∨
      ((rowCol (rows s) a).1 = (rowCol (rows s) b).1 ∧ (rowCol (rows s) a).2 < (rowCol (rows s) b).2)) ∧
    (a = b ↔ rowCol (rows s) a = rowCol (rows s) b) := by
  have key : ∀ a b : Nat, a < b → (rowCol (rows s) a).1 < (rowCol (rows s) b).1 ∨
      ((rowCol (rows s) a).1 = (rowCol (rows s) b).1 ∧ (rowCol (rows s) a).2 < (rowCol (rows s) b).2) := by
    intro a b h
    obtain ⟨m1, m2, -⟩ := rowCol_mono s (Nat.le_of_lt h)
    rcases Nat.lt_or_ge (rowCol (rows s) a).1 (rowCol (rows s) b).1 with hlt | hge
    · exact .inl hlt
    · have e : (rowCol (rows s) a).1 = (rowCol (rows s) b).1 := by omega
      exact .inr ⟨e, by have := m2 e; omega⟩
  constructor
  · refine ⟨key a b, fun h => ?_⟩
    rcases Nat.lt_trichotomy a b with hab | hab | hab
    · exact hab
    · subst hab; omega
    · have := key b a hab; omega
  · refine ⟨fun h => h ▸ rfl, fun h => ?_⟩
    rcases Nat.lt_trichotomy a b with hab | hab | hab
    · have := key a b hab; rw [h] at this; omega
    · exact hab
    · have := key b a hab; rw [h] at this; omega

example : rowCol (rows "rel p(1)\nrel q(∃)\n".toList) 13 = (1, 4) ∧ line "rel p(1)\nrel q(∃)\n".toList 1 = some "rel q(∃)".toList ∧
    OneLine "rel q(".toList := by
  refine ⟨by decide +kernel, by decide +kernel, by unfold OneLine; decide⟩

/-- C114: every report can be made, also of places inside characters or after the end of the text. -/
theorem c114_report (name : Option (List Char)) (s : List Char) (a b : Nat) (h : a ≤ b) : report name s a b ≠ none := by
  obtain ⟨t, ht⟩ := report_some name s h
  rw [ht]; simp

/-- C114: the report about a part of a line shows the line, with its number, and marks below exactly that part, provided that
the characters before and in the part take one byte each. -/
theorem c114_marks_partial (ls : List (List Char)) (h : ∀ l ∈ ls, OneLine l) (pre part post rest : List Char)
    (hl : OneLine (pre ++ part ++ post)) (hr : rest = [] ∨ ∃ t, rest = '\n' :: t) (ha : Ascii (pre ++ part)) :
    report none (ended ls ++ (pre ++ part ++ post ++ rest)) (blen (ended ls ++ pre)) (blen (ended ls ++ pre ++ part)) =
    some (expected ls.length pre part post) := by
  have h1 : blen pre = pre.length := blen_ascii fun c hc => ha c (List.mem_append_left _ hc)
  have h2 : blen part = part.length := blen_ascii fun c hc => ha c (List.mem_append_right _ hc)
  have e : ∀ n : List Char, List.replicate (2 + n.length) ' ' = [' ', ' '] ++ n.map (fun _ => ' ') := by
    intro n
    rw [← replicate_map, Nat.add_comm]; rfl
  have e1 : blen (ended ls ++ pre) = blen (ended ls) + blen pre := blen_append _ _
  have e2 : blen (ended ls ++ pre ++ part) = blen (ended ls) + blen pre + blen part := by rw [blen_append, e1]
  rw [e1, e2]
  refine (report_line none ls h pre part post rest hl hr).trans (congrArg some ?_)
  rw [h1, h2, e]
  have key : ∀ n : List Char, title none ++ ("  ".toList ++ n ++ " | ".toList ++ (pre ++ part ++ post) ++ ['\n'] ++
      ([' ', ' '] ++ n.map (fun _ => ' ') ++ " | ".toList ++ highlight pre.length part.length)) =
      "  ".toList ++ n ++ " | ".toList ++ pre ++ part ++ post ++ ['\n'] ++
      "  ".toList ++ n.map (fun _ => ' ') ++ " | ".toList ++ pre.map (fun _ => ' ') ++ part.map (fun _ => '^') := by
    intro n
    simp only [title, highlight, replicate_map]
    simp
  exact key (lineName ls.length)

/-- For example the `q` in the second line of a program. -/
example : report none "rel p(1)\nrel q = p(1)".toList 13 14 = some "  2 | rel q = p(1)\n    |     ^".toList ∧
    expected 1 "rel ".toList "q".toList " = p(1)".toList = "  2 | rel q = p(1)\n    |     ^".toList ∧ Ascii "rel q".toList := by
  refine ⟨by decide +kernel, by decide +kernel, by unfold Ascii; decide⟩

/-- C114 fails after characters of several bytes, which the language itself has: the marks below `q(x)` in `∃q(x)` stand two columns
too far to the right, and under the quantifier there are three marks. -/
theorem c114_marks_false :
    report none "rel p = ∃ x: q(x)".toList (blen "rel p = ∃ x: ".toList) (blen "rel p = ∃ x: q(x)".toList) =
      some ("  1 | rel p = ∃ x: q(x)\n" ++ "    |                ^^^^").toList ∧
    expected 0 "rel p = ∃ x: ".toList "q(x)".toList [] =
      ("  1 | rel p = ∃ x: q(x)\n" ++ "    |              ^^^^").toList ∧
    report none "rel p = ∃ x: q(x)".toList (blen "rel p = ".toList) (blen "rel p = ∃".toList) =
      some ("  1 | rel p = ∃ x: q(x)\n" ++ "    |         ^^^").toList := by
  refine ⟨by decide +kernel, by decide +kernel, by decide +kernel⟩

/-- C114 fails for places of several lines: the marks of a line are followed by the next line without a line end, and between the first
and the last line nothing is marked; when the end of the program is missing at the end of a line, nothing is marked at all. -/
theorem c114_lines_false :
    report none "p(a,\n  b,\n  c)".toList 0 14 =
      some ("  1 | p(a,\n    | ^^^^" ++ "  2 |   b,\n    | " ++ "  3 |   c)\n    | ^^^^").toList ∧
    report none "rel p =\n".toList 7 8 = some ("  1 | rel p =\n    |        " ++ "  2 | \n    | ").toList := by
  refine ⟨by decide +kernel, by decide +kernel⟩

/-- C114: in a program inside a Rust macro, whose first line is line `first` of the file, locations are those in the program with
`first` added to the row, and the lines are those of the program. -/
theorem c114_macro (first : Nat) (ls : List (List Char)) (hne : ls ≠ []) (h : ∀ l ∈ ls, OneLine l) :
    ∃ rs, macroRows first ls = some rs ∧
      (∀ off, rowCol rs off = (first + (rowCol (rows (joined ls)) off).1, (rowCol (rows (joined ls)) off).2)) ∧
      ∀ r, r < ls.length → macroLine first ls (first + r) = line (joined ls) r ∧ line (joined ls) r = ls[r]? := by
  refine ⟨_, macroRows_eq first ls, ?_, ?_⟩
  · intro off
    rw [← rowsAt_joined ls 0 hne h, rowCol, rowColFrom_before, rowColFrom_shift, Nat.zero_add]
  · intro r hr
    have hlen : (ls.take r).length = r := by simp; omega
    have e : ls = ls.take r ++ ls[r] :: ls.drop (r + 1) := by simp
    obtain ⟨rest, e', hrest⟩ := joined_split (ls.take r) ls[r] (ls.drop (r + 1))
    rw [← e] at e'
    have hl := line_at (ls.take r) (fun x hx => h x (List.mem_of_mem_take hx)) ls[r] rest (h _ (List.getElem_mem hr)) hrest
    rw [← e', hlen] at hl
    rw [hl, macroLine, if_pos (by omega), Nat.add_sub_cancel_left]
    simp [hr]

example : macroRows 2 ["rel p(1)".toList, "rel q(2)".toList] = some [(0, 0), (0, 0), (0, 8), (9, 8)] ∧
    rowCol [(0, 0), (0, 0), (0, 8), (9, 8)] 13 = (3, 4) := by decide +kernel

/-- C114: the condition is necessary. The report about a part of a line is the expected one if and only if the characters before and in the part take one
byte each. -/
theorem c114_marks_iff (ls : List (List Char)) (h : ∀ l ∈ ls, OneLine l) (pre part post rest : List Char)
    (hl : OneLine (pre ++ part ++ post)) (hr : rest = [] ∨ ∃ t, rest = '\n' :: t) :
    report none (ended ls ++ (pre ++ part ++ post ++ rest)) (blen (ended ls ++ pre)) (blen (ended ls ++ pre ++ part)) =
      some (expected ls.length pre part post) ↔ Ascii (pre ++ part) := by
  refine ⟨fun he => ?_, c114_marks_partial ls h pre part post rest hl hr⟩
  have e1 : blen (ended ls ++ pre) = blen (ended ls) + blen pre := blen_append _ _
  have e2 : blen (ended ls ++ pre ++ part) = blen (ended ls) + blen pre + blen part := by rw [blen_append, e1]
  rw [e1, e2, report_line none ls h pre part post rest hl hr] at he
  replace he := Option.some.inj he
  unfold expected lineName at he
  simp only [title, highlight, List.nil_append] at he
  generalize (toString (ls.length + 1)).toList = n at he
  have hc := congrArg (List.count '^') he
  have hb := congrArg List.length he
  have hcs : ∀ l : List Char, List.count '^' (List.map (fun _ => ' ') l) = 0 := by
    intro l
    rw [← replicate_map]; simp [List.count_replicate]
  have hct : List.count '^' (List.map (fun _ => '^') part) = part.length := by
    rw [← replicate_map]; simp
  have hd1 : ∀ k, List.count '^' (List.replicate k ' ') = 0 := fun k => by simp [List.count_replicate]
  have hd2 : ∀ k, List.count '^' (List.replicate k '^') = k := fun k => by simp
  have hd3 : List.count '^' "  ".toList = 0 := by decide
  have hd4 : "  ".toList.length = 2 := by decide
  simp only [List.count_append, hcs, hct, hd1, hd2, hd3] at hc
  simp only [List.length_append, List.length_replicate, List.length_map, hd4] at hb
  apply ascii_of_blen
  rw [blen_append, List.length_append]
  omega

/-- C114: a report about a part of several lines shows all of its lines in order, with their numbers. The first line is marked from where the part begins, the last up to where it ends, those
between are not marked. -/
theorem c114_span_partial (name : Option (List Char)) (bs ms : List (List Char)) (hb : ∀ l ∈ bs, OneLine l) (hm : ∀ l ∈ ms, OneLine l) (a t u b rest : List Char)
    (h1 : OneLine (a ++ t)) (h2 : OneLine (u ++ b)) (hr : rest = [] ∨ ∃ t, rest = '\n' :: t) :
    ∃ pad is, is = (lineName bs.length, a ++ t, List.replicate (blen a) ' ' ++ List.replicate (blen t) '^') ::
        ((ms.zipIdx (bs.length + 1)).map (fun x => (lineName x.2, x.1, [])) ++ [(lineName (bs.length + 1 + ms.length), u ++ b, List.replicate (blen u) '^')]) ∧
      (∀ x ∈ is, x.1.length + 2 ≤ pad) ∧
      report name (ended (bs ++ (a ++ t) :: ms) ++ (u ++ b ++ rest)) (blen (ended bs ++ a)) (blen (ended (bs ++ (a ++ t) :: ms) ++ u)) =
        some (title name ++ printed pad is) := by
  have e := infos_span bs ms hb hm a t u b rest h1 h2 hr _ rfl
  refine ⟨_, _, rfl, ?_, by rw [report]; simp only [e]; rfl⟩
  intro x hx
  have key : ∀ (is : List (List Char × List Char × List Char)) (m : Nat), m ≤ is.foldl (fun m x => max m x.1.length) m ∧
      ∀ x ∈ is, x.1.length ≤ is.foldl (fun m x => max m x.1.length) m := by
    intro is
    induction is with
    | nil => intro m; simp
    | cons y is ih =>
      intro m
      obtain ⟨i1, i2⟩ := ih (max m y.1.length)
      refine ⟨Nat.le_trans (Nat.le_max_left _ _) i1, fun x hx => ?_⟩
      rcases List.mem_cons.mp hx with rfl | hx
      · exact Nat.le_trans (Nat.le_max_right _ _) i1
      · exact i2 x hx
  have := (key _ 0).2 x hx
  omega

example : OneLine ("rel ".toList ++ "q(x) =".toList) ∧ OneLine ("  and r(x)".toList ++ []) ∧ ∀ l ∈ ["  p(x)".toList], OneLine l := by
  refine ⟨by unfold OneLine; decide, by unfold OneLine; decide, by unfold OneLine; decide⟩

/-- C114 fails for all parts of several lines, not only in the example: what is printed has as many line ends as lines of the program are shown, although there are marks below each of them, so
that each line after the first is printed behind the marks of the line before. -/
theorem c114_span_false (bs ms : List (List Char)) (hb : ∀ l ∈ bs, OneLine l) (hm : ∀ l ∈ ms, OneLine l) (a t u b rest : List Char)
    (h1 : OneLine (a ++ t)) (h2 : OneLine (u ++ b)) (hr : rest = [] ∨ ∃ t, rest = '\n' :: t) :
    ∃ x, report none (ended (bs ++ (a ++ t) :: ms) ++ (u ++ b ++ rest)) (blen (ended bs ++ a)) (blen (ended (bs ++ (a ++ t) :: ms) ++ u)) = some x ∧
      x.count '\n' = ms.length + 2 := by
  obtain ⟨pad, is, his, -, he⟩ := c114_span_partial none bs ms hb hm a t u b rest h1 h2 hr
  refine ⟨_, he, ?_⟩
  rw [title, List.nil_append, count_printed]
  · simp [his]
  · have hmark : ∀ p k, '\n' ∉ List.replicate p ' ' ++ List.replicate k '^' := by
      intro p k hm
      simp only [List.mem_append, List.mem_replicate] at hm
      rcases hm with ⟨_, hm⟩ | ⟨_, hm⟩ <;> exact absurd hm (by decide)
    intro x hx
    rw [his] at hx
    rcases List.mem_cons.mp hx with rfl | hx
    · exact ⟨lineName_oneLine _, h1, hmark _ _⟩
    · rcases List.mem_append.mp hx with hx | hx
      · obtain ⟨y, hy, rfl⟩ := List.mem_map.mp hx
        have := List.mem_zipIdx hy
        refine ⟨lineName_oneLine _, hm _ ?_, by simp⟩
        rw [this.2.2]; exact List.getElem_mem _
      · simp only [List.mem_singleton] at hx
        subst hx
        exact ⟨lineName_oneLine _, h2, fun hm => absurd (List.mem_replicate.mp hm).2 (by decide)⟩

/-- C114: a report about a part of a line of the prompt shows this line and marks the part, if the characters before and in it take one byte each. -/
theorem c114_prompt_partial (id : Nat) (pre part post : List Char) (ha : Ascii (pre ++ part)) :
    ∃ n, n = "REPL:".toList ++ (toString id).toList ∧ promptReport id (pre ++ part ++ post) (blen pre) (blen (pre ++ part)) =
      some ("  ".toList ++ n ++ " | ".toList ++ pre ++ part ++ post ++ ['\n'] ++ "  ".toList ++ n.map (fun _ => ' ') ++ " | ".toList ++
        pre.map (fun _ => ' ') ++ part.map (fun _ => '^')) := by
  have h1 : blen pre = pre.length := blen_ascii fun c hc => ha c (List.mem_append_left _ hc)
  have h2 : blen part = part.length := blen_ascii fun c hc => ha c (List.mem_append_right _ hc)
  refine ⟨_, rfl, ?_⟩
  have e : ∀ n : List Char, List.replicate (2 + n.length) ' ' = [' ', ' '] ++ n.map (fun _ => ' ') := by
    intro n
    rw [← replicate_map, Nat.add_comm]; rfl
  have en : ("REPL:" ++ toString id).toList = "REPL:".toList ++ (toString id).toList := by simp
  rw [promptReport]
  simp only [en]
  generalize "REPL:".toList ++ (toString id).toList = n
  simp [rowCol, rowColFrom, highlighted, sub, blen_append, printed, highlight, h1, h2, e, replicate_map]

example : promptReport 2 "rel q = p(".toList 4 5 = some "  REPL:2 | rel q = p(\n         |     ^".toList := by decide +kernel

/-- C114: a syntax error in a file is reported with the name of the file, the message and the place, in the file, where it is; one that is only at a point is marked there. Such a report can
always be made. -/
theorem c114_syntax_partial (name s msg : List Char) (a b : Nat) (hab : a ≤ b) (e : SyntaxError)
    (he : (∃ p, e = ⟨msg, some (a, b), p⟩) ∨ (e = ⟨msg, none, some a⟩ ∧ b = a + 1)) :
    ∃ r, report (some name) s a b = some r ∧
      e.report (some name) (report (some name) s) = some ("Syntax error in ".toList ++ name ++ ": ".toList ++ msg ++ ['\n'] ++ r) := by
  obtain ⟨r, hr⟩ := report_some (some name) s hab
  refine ⟨r, hr, ?_⟩
  rcases he with ⟨p, rfl⟩ | ⟨rfl, rfl⟩
  · simp only [SyntaxError.report, SyntaxError.place, hr, Option.map_some]
  · simp only [SyntaxError.report, SyntaxError.place, hr, Option.map_some]

example : ∃ r, report (some "a.scl".toList) "rel = 1".toList 4 5 = some r := report_some _ _ (by decide)

/-- C114 fails for syntax errors in sources without a name, which are strings (all programs of the Python API), lines of the prompt and Rust macros: they are reported without the line they are in, wherever
they are. -/
theorem c114_syntax_false (e : SyntaxError) (rep : Nat → Nat → Option (List Char)) : e.report none rep = some ("Syntax error: ".toList ++ e.message) := rfl

end Scallop.Loc
