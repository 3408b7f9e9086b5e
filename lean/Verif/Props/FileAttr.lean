import Verif.Proof.FileAttr

/-!
# Attributes that name files

C109: `@file` at a type declaration or a query names the file the facts come from or the results go to, with the options as written; what is not as required is refused.
-/

namespace Scallop.Attr

/-! ## C109: files named by attributes -/

/-- **C109.** The extension that decides how a file is read is what follows the last dot of the last name of the path, if something comes before that dot. -/
theorem c109_extension (s e : List Char) : extension s = some e ↔ HasExtension s e := extension_iff s e

/-- `data/edge.csv`, `./a.b.csv/` and `..x/y.csv/.` are csv files; `.csv`, `edge`, `csv/..`, `a.csv/b` and the empty path are not; `a.` has an empty extension. -/
example : extension "data/edge.csv".toList = some "csv".toList ∧ extension "./a.b.csv/".toList = some "csv".toList ∧ extension "..x/y.csv/.".toList = some "csv".toList ∧
    extension ".csv".toList = none ∧ extension "edge".toList = none ∧ extension "csv/..".toList = none ∧ extension "a.csv/b".toList = none ∧ extension [] = none ∧
    extension "a.".toList = some [] ∧ extension "a.txt".toList = some "txt".toList := by decide +kernel

/-- **C109.** An attribute of a type declaration is accepted exactly if its first positional argument is the path of a csv file and its options have values of the right kinds, and then means what the options
say (`ReadsInput`); at most one file is meant. -/
theorem c109_options (a : Attribute) : (∀ f, readInput a = .ok f ↔ ReadsInput a f) ∧ (∀ f g, ReadsInput a f → ReadsInput a g → f = g) ∧
    ((∃ e, readInput a = .error e) ↔ ∀ f, ¬ ReadsInput a f) := by
  refine ⟨readInput_iff a, fun f g hf hg => ?_, ?_, ?_⟩
  · rw [← readInput_iff] at hf hg
    rw [hf] at hg
    exact Except.ok.inj hg
  · rintro ⟨e, he⟩ f hf
    rw [← readInput_iff, he] at hf
    cases hf
  · intro h
    match he : readInput a with
    | .error e => exact ⟨e, rfl⟩
    | .ok f => exact absurd ((readInput_iff a f).1 he) (h f)

/-- The same for attributes of queries, which have one option. -/
theorem c109_output_options (a : Attribute) : (∀ f, readOutput a = .ok f ↔ ReadsOutput a f) ∧ ((∃ e, readOutput a = .error e) ↔ ∀ f, ¬ ReadsOutput a f) := by
  refine ⟨readOutput_iff a, ?_, ?_⟩
  · rintro ⟨e, he⟩ f hf
    rw [← readOutput_iff, he] at hf
    cases hf
  · intro h
    match he : readOutput a with
    | .error e => exact ⟨e, rfl⟩
    | .ok f => exact absurd ((readOutput_iff a f).1 he) (h f)

private def edgeFile : Attribute := ⟨"file", [.pos (.str "data/edge.csv"), .kw "deliminator" (.str ";"), .kw "keys" (.list [some "id", some "year"]), .kw "header" (.bool false), .kw "colour" (.int 3)]⟩
private def nodeFile : Attribute := ⟨"file", [.kw "has_probability" (.bool true), .pos (.str "node.csv"), .kw "header" (.bool true)]⟩
private def txtFile : Attribute := ⟨"file", [.pos (.str "node.txt")]⟩

/-- Attributes with options, and the errors of others. -/
example : readInput edgeFile = .ok ⟨"data/edge.csv", 59, true, false, some ["id", "year"], none⟩ ∧ readInput nodeFile = .ok ⟨"node.csv", 44, true, true, none, none⟩ ∧
    readInput txtFile = .error (.unknownExtension "txt".toList) ∧ readInput ⟨"file", []⟩ = .error .numArgs ∧
    readInput ⟨"file", [.pos (.str "a.csv"), .kw "deliminator" (.str "é")]⟩ = .error .delimSingle ∧
    readInput ⟨"file", [.pos (.str "a.csv"), .kw "keys" (.list [])]⟩ = .error .keysEmpty ∧
    readInput ⟨"file", [.pos (.str "a.csv"), .kw "fields" (.str "id")]⟩ = .error .fields ∧
    readInput ⟨"file", [.pos (.str "a.csv"), .kw "has_header" (.int 1)]⟩ = .error .header := by decide +kernel

/-- A delimiter that is not ASCII is refused for not being a single character: the message made for this case is never given. -/
theorem c109_ascii_message (a : Attribute) : readInput a ≠ .error .delimAscii ∧ readOutput a ≠ .error .delimAscii := by
  have hp : readPath a ≠ .error .delimAscii := by
    unfold readPath
    split
    · split
      · split <;> simp
      · simp
    · simp
    · simp
  have hd := delim_never_ascii (a.kwArg "deliminator")
  have hb : ∀ e v, e ≠ .delimAscii → readBool e v ≠ .error .delimAscii := by
    intro e v he
    unfold readBool
    split <;> simp [he]
  have hk : ∀ v, readKeys v ≠ .error .delimAscii := by
    intro v
    unfold readKeys
    split
    · simp
    · simp
    · split
      · simp
      · split <;> simp
    · simp
  have hf : ∀ v, readFields v ≠ .error .delimAscii := by
    intro v
    unfold readFields
    split
    · simp
    · split <;> simp
    · simp
  have key : ∀ {α β : Type} (x : Except FileErr α) (k : α → Except FileErr β), x ≠ .error .delimAscii → (∀ y, k y ≠ .error .delimAscii) → (x >>= k) ≠ .error .delimAscii := by
    intro α β x k h1 h2
    cases x with
    | error e =>
      simp only [bind, Except.bind]
      intro h
      exact h1 (by rw [Except.error.inj h])
    | ok y => exact h2 y
  constructor
  · exact key _ _ hp fun _ => key _ _ hd fun _ => key _ _ (hb _ _ (by simp)) fun _ => key _ _ (hb _ _ (by simp)) fun _ => key _ _ (hk _) fun _ => key _ _ (hf _) fun _ => by simp
  · exact key _ _ hp fun _ => key _ _ hd fun _ => by simp

/-- **C109.** A program is accepted exactly if the first `@file` of every type declaration is as required. -/
theorem c109_accepts (ds : List Decl) : compileFiles ds ≠ none ↔
    ∀ attrs rels, .item (.types attrs rels) ∈ ds → rels ≠ [] → ∀ a, FirstFile attrs a → ∃ f, ReadsInput a f := by
  have := visitInput_errors ds ⟨[], []⟩
  unfold compileFiles
  by_cases h : (ds.foldl visitInput ⟨[], []⟩).errors = []
  · simp only [h, if_true, ne_eq, reduceCtorEq, not_false_eq_true, true_iff]
    exact (this.1 h).2
  · simp only [h, if_false, ne_eq, not_true_eq_false, false_iff]
    exact fun h' => h (this.2 ⟨rfl, h'⟩)

/-- **C109.** In an accepted program a relation is read from a file exactly if a type declaration says so; if several do, the last one counts. -/
theorem c109_inputs (ds : List Decl) (r : Files) (h : compileFiles ds = some r) (p : String) (f : InputFile) : r.input p = some f ↔ Last ds (fun d => SaysInput d p) f := by
  unfold compileFiles at h
  simp only at h
  split at h
  · simp only [Option.some.injEq] at h
    subst h
    simp only
    rw [fold_files visitInput SaysInput visitInput_files]
    simp
  · cases h

private theorem queried (ds : List Decl) (n : String) :
    ds.any (Decl.queries n) = true ↔ ∃ attrs, .query attrs n ∈ ds := by
  rw [List.any_eq_true]
  constructor
  · rintro ⟨d, hd, h⟩
    cases d with
    | item it => simp [Decl.queries] at h
    | query attrs m =>
      simp only [Decl.queries, beq_iff_eq] at h
      subst h
      exact ⟨attrs, hd⟩
  · rintro ⟨attrs, h⟩
    exact ⟨_, h, by simp [Decl.queries]⟩

/-- **C109.** In an accepted program the results of a query go to a file exactly if a query of this name says so, the last one if several do; they are printed if no query of this name says so. -/
theorem c109_outputs (ds : List Decl) (r : Files) (h : compileFiles ds = some r) (n : String) :
    (∀ f, r.output n = some (some f) ↔ Last ds (fun d => SaysOutput d n) f) ∧
    (r.output n = some none ↔ (∃ attrs, .query attrs n ∈ ds) ∧ ∀ d ∈ ds, ∀ f, ¬ SaysOutput d n f) ∧
    (r.output n = none ↔ ¬ ∃ attrs, .query attrs n ∈ ds) := by
  unfold compileFiles at h
  simp only at h
  split at h
  · simp only [Option.some.injEq] at h
    subst h
    simp only [outputOf]
    have hf := fun f => fold_files visitOutput SaysOutput visitOutput_files ds ⟨[], []⟩ n f
    simp only [List.lookup_nil, reduceCtorEq, and_false, or_false] at hf
    have hq : ∀ f, Last ds (fun d => SaysOutput d n) f → ∃ attrs, .query attrs n ∈ ds := by
      rintro f ⟨l, d, r, rfl, ⟨attrs, a, rfl, _⟩, _⟩
      exact ⟨attrs, by simp⟩
    have hsome : (∃ d ∈ ds, ∃ f, SaysOutput d n f) → ∃ f, Last ds (fun d => SaysOutput d n) f := by
      clear hf hq
      intro h
      induction ds with
      | nil => simp at h
      | cons d ds ih =>
        by_cases h' : ∃ d ∈ ds, ∃ f, SaysOutput d n f
        · obtain ⟨f, hf⟩ := ih (by
            rename_i hE
            exact ((visitInput_errors ds ⟨[], []⟩).2 ⟨rfl, fun attrs rels hm => ((visitInput_errors (d :: ds) ⟨[], []⟩).1 hE).2 attrs rels (by simp [hm])⟩)) h'
          exact ⟨f, (last_cons d ds _ f).2 (Or.inl hf)⟩
        · obtain ⟨d', hd', f, hf⟩ := h
          rcases List.mem_cons.1 hd' with rfl | hd'
          · exact ⟨f, (last_cons d' ds _ f).2 (Or.inr ⟨fun d hd g hg => h' ⟨d, hd, g, hg⟩, hf⟩)⟩
          · exact absurd ⟨d', hd', f, hf⟩ h'
    by_cases hn : ∃ attrs, .query attrs n ∈ ds
    · rw [if_pos ((queried ds n).2 hn)]
      simp only [Option.some.injEq, hn, true_and, reduceCtorEq, not_true_eq_false, and_true, iff_self]
      refine ⟨hf, ?_⟩
      constructor
      · intro hl d hd f hs
        obtain ⟨g, hg⟩ := hsome ⟨d, hd, f, hs⟩
        rw [← hf, hl] at hg
        cases hg
      · intro hno
        match hl : (ds.foldl visitOutput ⟨[], []⟩).files.lookup n with
        | none => rfl
        | some f =>
          obtain ⟨l, d, r, rfl, h1, _⟩ := (hf f).1 hl
          exact absurd h1 (hno d (by simp) f)
    · rw [if_neg (fun h => hn ((queried ds n).1 h))]
      simp only [reduceCtorEq, false_iff, hn, false_and, not_false_eq_true, and_true, implies_true, true_and]
      exact fun f h => hn (hq f h)
  · cases h

private def edgeProgram : List Decl :=
  [.item (.types [⟨"hidden", []⟩, edgeFile, nodeFile] [⟨"edge", [none, none]⟩, ⟨"back", [none, none]⟩]),
   .item (.types [nodeFile] [⟨"edge", [none, none]⟩]),
   .item (.rule [⟨"file", [.pos (.str "path.csv")]⟩] (.atom "path" 2)),
   .query [⟨"file", [.pos (.str "out.csv")]⟩] "path",
   .query [] "path",
   .query [txtFile] "node"]

/-- A program: two relations from one file, one of them declared again; a query with a file, the same without, and one with a file that cannot be written. -/
example : ∃ r, compileFiles edgeProgram = some r ∧ r.input "back" = some ⟨"data/edge.csv", 59, true, false, some ["id", "year"], none⟩ ∧ r.input "edge" = some ⟨"node.csv", 44, true, true, none, none⟩ ∧
    r.input "path" = none ∧ r.output "path" = some (some ⟨"out.csv", 44⟩) ∧ r.output "node" = some none ∧ r.output "edge" = none := by
  refine ⟨⟨_, _⟩, rfl, ?_⟩
  decide +kernel

/-- It meets the condition of `c109_accepts`; with a text file at a type declaration it does not. -/
example : compileFiles edgeProgram ≠ none ∧ compileFiles (.item (.types [txtFile] [⟨"node", [none]⟩]) :: edgeProgram) = none := ⟨by simp [compileFiles]; rfl, rfl⟩

/-- **C109 is false of queries**: whatever is written in a `@file` at a query, the program is accepted if it is without it, for the errors are never reported. -/
theorem c109_query_errors_false (attrs : List Attribute) (n : String) (ds : List Decl) (h : compileFiles ds ≠ none) : compileFiles (.query attrs n :: ds) ≠ none := by
  rw [c109_accepts] at h ⊢
  intro attrs' rels hm
  rcases List.mem_cons.1 hm with h' | h'
  · cases h'
  · exact h attrs' rels h'

/-- The results of a query to a text file are printed, without a word; at a type declaration the same attribute is an error. The message of that error names `.txt` among the extensions that are expected. -/
theorem c109_silent_false : (∃ r, compileFiles [.query [txtFile] "node"] = some r ∧ r.output "node" = some none) ∧ (∀ f, ¬ ReadsOutput txtFile f) ∧
    compileFiles [.item (.types [txtFile] [⟨"node", [none]⟩])] = none := by
  refine ⟨⟨⟨_, _⟩, rfl, by decide +kernel⟩, ?_, rfl⟩
  exact (c109_output_options txtFile).2.1 ⟨_, rfl⟩

/-- **C109 is false of other declarations**: a `@file` at a rule, a fact, a set of facts or a reduce rule is not looked at. -/
theorem c109_elsewhere_false (it : Item) (ds : List Decl) (h : ∀ attrs rels, it ≠ .types attrs rels) : compileFiles (.item it :: ds) = compileFiles ds := by
  have h1 : visitInput ⟨[], []⟩ (.item it) = ⟨[], []⟩ := by
    unfold visitInput
    split
    · rename_i heq
      simp only [Decl.item.injEq] at heq
      exact absurd heq (h _ _)
    · rfl
  unfold compileFiles
  simp only [List.foldl_cons, h1, visitOutput]
  congr 2

/-- **C109 is false of headers**: `has_header = false` has no effect beside keys or fields. -/
theorem c109_header_false (a : Attribute) (f : InputFile) (h : ReadsInput a f) (hk : a.kwArg "keys" ≠ none ∨ a.kwArg "fields" ≠ none) : f.header = true := by
  obtain ⟨-, -, ⟨hd, -, hh⟩, -, h5, h6⟩ := h
  rw [hh]
  rcases hk with hk | hk
  · rcases h5 with ⟨h5, -⟩ | ⟨w, y, -, h5, -⟩
    · exact absurd h5 hk
    · exact Or.inr (Or.inl (by simp [h5]))
  · rcases h6 with ⟨h6, -⟩ | ⟨w, y, -, h6, -⟩
    · exact absurd h6 hk
    · exact Or.inr (Or.inr (by simp [h6]))

example : ReadsInput edgeFile ⟨"data/edge.csv", 59, true, false, some ["id", "year"], none⟩ ∧ edgeFile.kwArg "header" = some (.bool false) :=
  ⟨(c109_options edgeFile).1 _ |>.1 (by decide +kernel), by decide +kernel⟩

end Scallop.Attr
