import Verif.Proof.Csv
import Verif.Props.InputTags

/-!
# C99: facts in files

What a cell, a row and a file say is in `Verif/Spec/Csv.lean`.
-/

namespace Scallop.Csv

open Scallop.Input (DynTag Reg internalize saidProb)

variable {K : Type*}

/-! ## Reading -/

/-- C99: a text is read as a value of a type exactly if it says this value. -/
theorem c99_value (F : FloatText K) (ty : Ty) (t : Text) (v : Val K) : parse F ty t = .ok v ↔ Reads F ty t v := parse_iff F ty t v

/-- C99: a file without named fields gives one fact for each row, in order, and is refused exactly if some row is not a fact. -/
theorem c99_raw (F : FloatText K) (probability : Bool) (c : Content) (types : List Ty) (facts : List (DynTag K × List (Val K))) :
    loadRaw F probability c types = .ok facts ↔ List.Forall₂ (RawFact F probability types) c.rows facts := by
  unfold loadRaw
  rw [collect_iff]
  simp only [rawRow_fact]

/-- C99: with named fields, each row gives one fact with the values under these headers, whatever the order of the columns. -/
theorem c99_fields (F : FloatText K) (fields : List Text) (probability : Bool) (c : Content) (hd : c.fields.Nodup) (types : List Ty) (facts : List (DynTag K × List (Val K))) :
    loadFields F fields probability c types = .ok facts ↔ types.length = fields.length ∧ (∀ h ∈ fields, h ∈ c.fields) ∧
      List.Forall₂ (FieldsFact F probability c.fields fields types) c.rows facts := by
  unfold loadFields
  by_cases hl : types.length = fields.length
  · simp only [hl, ne_eq, not_true_eq_false, if_false, true_and]
    cases hc : columns c fields types with
    | error e =>
      simp only [reduceCtorEq, false_iff]
      rintro ⟨h, _⟩
      obtain ⟨cols, h'⟩ := (columns_ok c fields types (by omega)).mpr h
      rw [hc] at h'; simp at h'
    | ok cols =>
      simp only [collect_iff, fieldsRow_iff F probability c hd fields types (by omega) cols hc]
      exact ⟨fun h => ⟨(columns_ok c fields types (by omega)).mp ⟨cols, hc⟩, h⟩, And.right⟩
  · simp [hl]

/-- C99: with keys, each row gives one fact for each other column (of the named fields, if any): the keys, the header and the text; each once. -/
theorem c99_keys (F : FloatText K) (keys : List Text) (fields : Option (List Text)) (probability : Bool) (c : Content) (hd : c.fields.Nodup) (types : List Ty)
    (facts : List (DynTag K × List (Val K))) (h : loadKeys F keys fields probability c types = .ok facts) :
    ∃ rss, facts = rss.flatten ∧ List.Forall₂ (fun row rs => rs.Nodup ∧ ∀ f, f ∈ rs ↔ KeysFact F probability c.fields keys fields types row f) c.rows rss := by
  obtain ⟨h1, _, cols, only, rss, hc, ho, hf, rfl⟩ := (loadKeys_eq F keys fields probability c types facts).mp h
  exact ⟨rss, rfl, hf.imp (fun row rs hr => keysRow_mem F probability c hd keys types (by omega) cols hc fields only ho row rs hr)⟩

/-- C99: loading with keys is refused exactly if the types do not fit, a header is missing, or a row has no tag or no keys. -/
theorem c99_keys_accepts (F : FloatText K) (keys : List Text) (fields : Option (List Text)) (probability : Bool) (c : Content) (hd : c.fields.Nodup)
    (hr : ∀ row ∈ c.rows, row.length = c.fields.length) (types : List Ty) :
    (∃ facts, loadKeys F keys fields probability c types = .ok facts) ↔ types.length = keys.length + 2 ∧ types.drop keys.length = [.symbol, .string] ∧
      (∀ h ∈ keys, h ∈ c.fields) ∧ (∀ fs, fields = some fs → ∀ h ∈ fs, h ∈ c.fields) ∧
      ∀ row ∈ c.rows, (∃ t : DynTag K, RowTag F probability row t) ∧ ∃ ks : List (Val K), FieldsRead F c.fields keys types row ks := by
  constructor
  · rintro ⟨facts, h⟩
    obtain ⟨h1, h2, cols, only, rss, hc, ho, hf, rfl⟩ := (loadKeys_eq F keys fields probability c types facts).mp h
    refine ⟨h1, h2, (columns_ok c keys types (by omega)).mp ⟨cols, hc⟩, fun fs hfs => ?_, fun row hrow => ?_⟩
    · rcases ho with ⟨rfl, _⟩ | ⟨fs', is, rfl, _, h5⟩
      · simp at hfs
      · obtain rfl := Option.some.inj hfs
        exact (onlyOf_ok c fs').mp ⟨is, h5⟩
    · exact (keysRow_ok F probability c hd keys types (by omega) cols hc only row (hr row hrow)).mp ((forall₂_exists c.rows).mp ⟨rss, hf⟩ row hrow)
  · rintro ⟨h1, h2, h3, h4, h5⟩
    obtain ⟨cols, hc⟩ := (columns_ok c keys types (by omega)).mpr h3
    have ⟨only, ho⟩ : ∃ only, OnlyFor c fields only := by
      cases fields with
      | none => exact ⟨none, Or.inl ⟨rfl, rfl⟩⟩
      | some fs =>
        obtain ⟨is, his⟩ := (onlyOf_ok c fs).mpr (h4 fs rfl)
        exact ⟨some is, Or.inr ⟨fs, is, rfl, rfl, his⟩⟩
    obtain ⟨rss, hf⟩ := (forall₂_exists c.rows).mpr (fun row hrow => (keysRow_ok F probability c hd keys types (by omega) cols hc only row (hr row hrow)).mpr (h5 row hrow))
    exact ⟨_, (loadKeys_eq F keys fields probability c types _).mpr ⟨h1, h2, cols, only, rss, hc, ho, hf, rfl⟩⟩

/-- C99: the options decide what a row says: keys before fields, fields before the whole row; and the facts are those of the rows, in order. -/
theorem c99_load (F : FloatText K) (o : Options) (c : Content) (hd : c.fields.Nodup) (types : List Ty) (facts : List (DynTag K × List (Val K)))
    (h : load F o c types = .ok facts) :
    (∀ ks, o.keys = some ks → ∃ rss, facts = rss.flatten ∧
      List.Forall₂ (fun row rs => rs.Nodup ∧ ∀ f, f ∈ rs ↔ KeysFact F o.probability c.fields ks o.fields types row f) c.rows rss) ∧
    (o.keys = none → ∀ fs, o.fields = some fs → List.Forall₂ (FieldsFact F o.probability c.fields fs types) c.rows facts) ∧
    (o.keys = none → o.fields = none → List.Forall₂ (RawFact F o.probability types) c.rows facts) := by
  unfold load at h
  refine ⟨fun ks hk => ?_, fun hk fs hf => ?_, fun hk hf => ?_⟩
  · simp only [hk] at h
    exact c99_keys F ks o.fields o.probability c hd types facts h
  · simp only [hk, hf] at h
    exact ((c99_fields F fs o.probability c hd types facts).mp h).2.2
  · simp only [hk, hf] at h
    exact (c99_raw F o.probability c types facts).mp h

/-- C99: all rows of a file that is read with a header are as long as the header. -/
theorem c99_rectangular (f : File) (delim : Char) (c : Content) (h : fromFile f delim true = .ok c) : ∀ row ∈ c.rows, row.length = c.fields.length := by
  unfold fromFile at h
  simp only [if_true] at h
  split at h
  · rename_i hall
    obtain rfl := Except.ok.inj h
    intro row hrow
    have := List.all_eq_true.mp hall row (List.mem_of_mem_tail hrow)
    simpa using this
  · simp at h

/-- C99: naming keys or fields makes the first row the header. -/
theorem c99_header (path : Nat) (delim : Option Char) (header probability : Option Bool) (keys fields : Option (List Text)) :
    (withOptions path delim header probability keys fields).header = true ↔ header = some true ∨ (∃ k, keys = some k) ∨ ∃ f, fields = some f := by
  rcases header with _ | (_ | _) <;> rcases keys with _ | k <;> rcases fields with _ | f <;> simp [withOptions]

/-! ## Several relations -/

/-- C99 (partial): each relation gets the facts of its own file as its own options say, if all options for one path agree on delimiter and header. -/
theorem c99_registry_partial (disk : Nat → Option File) (os : List Options) (hos : ∀ o ∈ os, ∀ o' ∈ os, o.path = o'.path → o.delim = o'.delim ∧ o.header = o'.header)
    (reg : Registry) (h : Registry.load disk [] os = .ok reg) (F : FloatText K) (o : Options) (ho : o ∈ os) (types : List Ty) (r : Rel K)
    (hr : Rel.loadFrom F reg o types ⟨[], []⟩ = .ok r) : ∃ f c, disk o.path = some f ∧ fromFile f o.delim o.header = .ok c ∧ load F o c types = .ok r.input := by
  obtain ⟨o', ho', hp, f, hf, c, hc, hl⟩ := registry_first disk os [] reg h o ho rfl
  obtain ⟨e1, e2⟩ := hos o' ho' o ho hp
  rw [e1, e2] at hc
  refine ⟨f, c, hf, hc, ?_⟩
  unfold Rel.loadFrom at hr
  rw [hl] at hr
  simp only [List.contains_nil, Bool.false_eq_true, if_false] at hr
  split at hr
  · simp at hr
  · rename_i fs hfs
    obtain rfl := Except.ok.inj hr
    simpa using hfs

/-- No floating point numbers. -/
def noFloats : FloatText ℚ := ⟨fun _ => none, fun _ => []⟩

/-- A file with two rows of numbers. -/
def numbersFile : File := fun _ => ["1".toList, "2".toList] :: ["3".toList, "4".toList] :: []

/-- The first relation names its columns, the second does not. -/
def twoRelations : List Options :=
  [withOptions 0 none (some true) none none none, withOptions 0 none none none none none]

/-- C99, refuted: of two relations that read one file, one with and one without header, the second silently loses the first row. -/
theorem c99_registry_refuted : ¬∀ (disk : Nat → Option File) (os : List Options) (reg : Registry) (_ : Registry.load disk [] os = .ok reg) (o : Options) (_ : o ∈ os)
    (types : List Ty) (r : Rel ℚ) (_ : Rel.loadFrom noFloats reg o types ⟨[], []⟩ = .ok r),
    ∃ f c, disk o.path = some f ∧ fromFile f o.delim o.header = .ok c ∧ load noFloats o c types = .ok r.input := by
  intro h
  obtain ⟨f, c, hf, hc, hl⟩ := h (fun _ => some numbersFile) twoRelations [(0, ⟨["1".toList, "2".toList], [["3".toList, "4".toList]]⟩)] (by decide +kernel)
    (withOptions 0 none none none none none) (by decide +kernel) [.int true 32, .int true 32]
    ⟨[0], [(.none, [.int true 32 3, .int true 32 4])]⟩ (by rfl)
  obtain rfl := Option.some.inj hf
  have hcc : fromFile numbersFile ',' false = .ok ⟨[], [["1".toList, "2".toList], ["3".toList, "4".toList]]⟩ := by decide +kernel
  change fromFile numbersFile ',' false = .ok c at hc
  rw [hcc] at hc
  obtain rfl := Except.ok.inj hc
  have hll : load noFloats (withOptions 0 none none none none none) ⟨[], [["1".toList, "2".toList], ["3".toList, "4".toList]]⟩ [.int true 32, .int true 32] =
      .ok [(.none, [.int true 32 1, .int true 32 2]), (.none, [.int true 32 3, .int true 32 4])] := by rfl
  rw [hll] at hl
  have := congrArg List.length (Except.ok.inj hl)
  simp at this

/-- C99, refuted: and whether a program is accepted depends on the order of its relations. -/
theorem c99_registry_order_refuted : ∃ (disk : Nat → Option File) (o₁ o₂ : Options) (reg reg' : Registry) (types : List Ty) (r : Rel ℚ),
    Registry.load disk [] [o₁, o₂] = .ok reg ∧ Registry.load disk [] [o₂, o₁] = .ok reg' ∧
      Rel.loadFrom noFloats reg o₁ types ⟨[], []⟩ = .ok r ∧ Rel.loadFrom noFloats reg' o₁ types ⟨[], []⟩ = .error .field :=
  ⟨fun _ => some numbersFile, withOptions 0 none none none none (some ["2".toList]), withOptions 0 none none none none none,
    [(0, ⟨["1".toList, "2".toList], [["3".toList, "4".toList]]⟩)], [(0, ⟨[], [["1".toList, "2".toList], ["3".toList, "4".toList]]⟩)],
    [.int true 32], ⟨[0], [(.none, [.int true 32 4])]⟩, by decide +kernel, by decide +kernel, by rfl, by rfl⟩

/-- C99: running a program again does not add the facts of a file again. -/
theorem c99_once (F : FloatText K) (reg : Registry) (o : Options) (types : List Ty) (r r' : Rel K) (h : Rel.loadFrom F reg o types r = .ok r') :
    Rel.loadFrom F reg o types r' = .ok r' := by
  unfold Rel.loadFrom at h ⊢
  split at h
  · simp at h
  · split at h
    · rename_i hc
      obtain rfl := Except.ok.inj h
      simp [List.contains_iff_mem.mp hc]
    · split at h
      · simp at h
      · obtain rfl := Except.ok.inj h
        simp

/-! ## Types that cannot be read -/

/-- C99, refuted: a column of symbols stops the process, for every file with a row of the right length and readable cells before it. -/
theorem c99_symbol_refuted (F : FloatText K) (types : List Ty) (cells : List Text) (vs : List (Val K)) (h : RowReads F types cells vs) (t : Text) (rows : List (List Text))
    (fields : List Text) (more : List Ty) (rest : List Text) (hm : more.length = rest.length) :
    loadRaw F false ⟨fields, (cells ++ t :: rest) :: rows⟩ (types ++ .symbol :: more) = .error .panic := by
  have hcol : ∀ (types : List Ty) (cells : List Text) (vs : List (Val K)), RowReads F types cells vs →
      collect (fun q => parse F q.2 q.1) ((cells ++ t :: rest).zip (types ++ .symbol :: more)) = .error .panic := by
    intro types
    induction types with
    | nil =>
      intro cells vs h
      have : cells = [] := List.length_eq_zero_iff.mp h.1
      subst this
      rfl
    | cons ty types ih =>
      intro cells vs h
      obtain ⟨h1, h2, h3⟩ := h
      match cells, vs, h1, h2 with
      | x :: cells, v :: vs, h1, h2 =>
        have hp := (parse_iff F ty x v).mpr (h3 0 ty x v rfl rfl rfl)
        have := ih cells vs ⟨by simpa using h1, by simpa using h2, fun j ty' t' v' a b d => h3 (j + 1) ty' t' v' (by simpa using a) (by simpa using b) (by simpa using d)⟩
        simp only [List.cons_append, List.zip_cons_cons, collect, hp, this]
  unfold loadRaw collect rawRow
  have hlen : (cells ++ t :: rest).length = (types ++ Ty.symbol :: more).length := by simp [h.1, hm]
  have hz := hcol types cells vs h
  simp only [Bool.false_eq_true, if_false, Nat.add_zero, hlen, ne_eq, not_true_eq_false, rowTag, List.drop_zero, hz]

/-! ## Writing and reading again -/

/-- C99 (partial): numbers and booleans that are written to a file and read again are the same (floating point numbers if their text can be read again). -/
theorem c99_roundtrip_partial (F : FloatText K) (types : List Ty) (facts : List (List (Val K)))
    (ht : ∀ t ∈ facts, List.Forall₂ HasType types t) (hF : ∀ t ∈ facts, ∀ f, Val.float f ∈ t → F.parse (F.show_ f) = some f)
    (hs : ∀ ty ∈ types, ty ≠ .char ∧ ty ≠ .string ∧ ty ≠ .symbol) (delim : Char) :
    ∃ c, fromFile (fun _ => store F facts) delim false = .ok c ∧ loadRaw F false c types = .ok (facts.map (fun t => (.none, t))) := by
  have hlen : ∀ t ∈ facts, t.length = types.length := fun t h => (ht t h).length_eq.symm
  refine ⟨⟨[], store F facts⟩, ?_, ?_⟩
  · unfold fromFile
    have hall : (store F facts).all (fun r => r.length == ((store F facts).headD []).length) = true := by
      rw [List.all_eq_true]
      intro r hr
      obtain ⟨t, htm, rfl⟩ := List.mem_map.mp hr
      cases facts with
      | nil => simp at htm
      | cons t₀ facts =>
        simp only [store, List.map_cons, List.headD_cons, List.length_map, hlen t htm, hlen t₀ (by simp), beq_self_eq_true]
    exact if_pos hall
  · rw [c99_raw, forall₂_get]
    refine ⟨by simp [store], fun j row f hrow hf => ?_⟩
    simp only [store, List.getElem?_map, Option.map_eq_some_iff] at hrow hf
    obtain ⟨t, h1, rfl⟩ := hrow
    obtain ⟨t', h2, rfl⟩ := hf
    rw [h1] at h2
    obtain rfl := Option.some.inj h2
    have htm := List.mem_of_getElem? h1
    refine ⟨rfl, ?_⟩
    simp only [Bool.false_eq_true, if_false, List.drop_zero]
    refine ⟨by simp [hlen t htm], hlen t htm, fun k ty x v a b d => ?_⟩
    simp only [List.getElem?_map, d, Option.map_some, Option.some.injEq] at b
    subst b
    have hty := (forall₂_get.mp (ht t htm)).2 k ty v a d
    have hns := hs ty (List.mem_of_getElem? a)
    cases ty with
    | int s b =>
      cases v <;> simp only [HasType] at hty
      obtain ⟨rfl, rfl, hr⟩ := hty
      exact Or.inl ⟨_, _, _, rfl, rfl, showInt_text _ _ _ hr⟩
    | float =>
      cases v <;> simp only [HasType] at hty
      exact Or.inr (Or.inl ⟨_, rfl, rfl, hF t htm _ (List.mem_of_getElem? d)⟩)
    | bool =>
      cases v <;> simp only [HasType] at hty
      rename_i b
      cases b
      · exact Or.inr (Or.inr (Or.inr (Or.inl ⟨rfl, rfl, rfl⟩)))
      · exact Or.inr (Or.inr (Or.inl ⟨rfl, rfl, rfl⟩))
    | char => exact absurd rfl hns.1
    | string => exact absurd rfl hns.2.1
    | symbol => exact absurd rfl hns.2.2
    | «opaque» => cases v <;> exact hty.elim

/-- C99, refuted for every string: written to a file and read again it is another string (the file has the quotes and the escapes). -/
theorem c99_roundtrip_string_refuted (F : FloatText K) (s : Text) : ∃ s', loadRaw F false ⟨[], store F [[.string s]]⟩ [.string] = .ok [(.none, [.string s'])] ∧ s.length + 2 ≤ s'.length := by
  refine ⟨_, rfl, ?_⟩
  have : ∀ s : Text, s.length ≤ (s.flatMap escape).length := by
    intro s
    induction s with
    | nil => simp
    | cons c s ih =>
      have hc : 1 ≤ (escape c).length := by unfold escape; split <;> simp
      simp only [List.flatMap_cons, List.length_append, List.length_cons]
      omega
  have := this s
  simp only [show_, List.length_cons, List.length_append, List.length_nil]
  omega

/-- C99, refuted for every character and every symbol: what is written cannot be read again. -/
theorem c99_roundtrip_char_refuted (F : FloatText K) (c : Char) (s : Text) :
    loadRaw F false ⟨[], store F [[.char c]]⟩ [.char] = .error .value ∧ loadRaw F false ⟨[], store F [[.symbol s]]⟩ [.symbol] = .error .panic := ⟨rfl, rfl⟩

/-! ## Probabilities of rows -/

/-- The facts as they come to a provenance. -/
def asTuples (facts : List (DynTag K × List (Val K))) : List (DynTag K × Tup (Val K)) := facts.map (fun f => (f.1, .tup (f.2.map .val)))

/-- C99 (partial): with one fact for each row, rows hold with their probabilities, independently of each other. -/
theorem c99_probability_partial {K : Type*} [Field K] [LinearOrder K] [IsStrictOrderedRing K] (F : FloatText K) (c : Content) (types : List Ty)
    (facts : List (DynTag K × List (Val K))) (h : loadRaw F true c types = .ok facts) (s : Reg K) (es : List (Elem (Tup (Val K)) Dnf))
    (hi : internalize .exclusiveDiffProb Reg.new (asTuples facts) = some (s, es)) (J : Finset Nat)
    (p : Nat → K) (hp : ∀ j ∈ J, ∃ row t, c.rows[j]? = some row ∧ row[0]? = some t ∧ t ≠ "true".toList ∧ t ≠ "false".toList ∧ F.parse t = some (p j)) :
    eventProb s.prob (Finset.range s.probs.length) (fun w => ∀ j ∈ J, ∀ e, es[j]? = some e → dnfHolds w e.tag) = ∏ j ∈ J, p j := by
  rw [Input.c97_probability _ s es hi J]
  refine Finset.prod_congr rfl (fun j hj => ?_)
  obtain ⟨row, t, h1, h2, h3, h4, h5⟩ := hp j hj
  obtain ⟨hl, hg⟩ := forall₂_get.mp ((c99_raw F true c types facts).mp h)
  have hjl : j < facts.length := by rw [hl]; exact (List.getElem?_eq_some_iff.mp h1).1
  obtain ⟨⟨t', cells, rfl, htag⟩, _⟩ := hg j row facts[j] h1 (List.getElem?_eq_getElem hjl)
  simp only [List.getElem?_cons_zero, Option.some.injEq] at h2
  subst h2
  have hf : facts[j].1 = .float (p j) := by
    rcases htag with ⟨h, _⟩ | ⟨h, _⟩ | ⟨_, _, f, hf, hff⟩
    · exact absurd h h3
    · exact absurd h h4
    · rw [h5] at hf
      rw [hff, Option.some.inj hf]
  unfold saidProb asTuples
  rw [List.getElem?_map, List.getElem?_eq_getElem hjl]
  simp [hf, DynTag.says]

/-- A file with a probability, a key and two other columns. -/
def keyedContent : Content := ⟨["p".toList, "id".toList, "name".toList, "town".toList], [["0.5".toList, "7".toList, "ann".toList, "rome".toList]]⟩

/-- One half. -/
def halfText : FloatText ℚ := ⟨fun t => if t = "0.5".toList then some (1 / 2) else none, fun _ => "0.5".toList⟩

/-- The facts of the one row. -/
def keyedFacts : List (DynTag ℚ × List (Val ℚ)) :=
  [(.float (1 / 2), [.int true 32 7, .symbol "name".toList, .string "ann".toList]), (.float (1 / 2), [.int true 32 7, .symbol "town".toList, .string "rome".toList])]

theorem keyedFacts_loaded : loadKeys halfText ["id".toList] none true keyedContent [.int true 32, .symbol, .string] = .ok keyedFacts := by rfl

/-- C99, refuted: the facts of one row of probability 1/2 do not hold together with probability 1/2, but with 1/4. -/
theorem c99_row_probability_refuted : ∃ (s : Reg ℚ) (es : List (Elem (Tup (Val ℚ)) Dnf)),
    loadKeys halfText ["id".toList] none true keyedContent [.int true 32, .symbol, .string] = .ok keyedFacts ∧
      internalize .exclusiveDiffProb Reg.new (asTuples keyedFacts) = some (s, es) ∧
      eventProb s.prob (Finset.range s.probs.length) (fun w => ∀ j ∈ Finset.range 2, ∀ e, es[j]? = some e → dnfHolds w e.tag) = 1 / 4 := by
  refine ⟨_, _, keyedFacts_loaded, rfl, ?_⟩
  rw [Input.c97_probability (asTuples keyedFacts) _ _ rfl (Finset.range 2)]
  simp [Finset.prod_range_succ, saidProb, asTuples, keyedFacts, DynTag.says]
  norm_num

/-! ## Symbols -/

/-- C99: over any sequence of registrations, two symbols are equal exactly if their names are, and a symbol has its name. -/
theorem c99_symbols (ns : List Text) : (Symbols.new.registerAll ns).2.length = ns.length ∧
    (∀ (j k : Nat) n m a b, ns[j]? = some n → ns[k]? = some m → (Symbols.new.registerAll ns).2[j]? = some a → (Symbols.new.registerAll ns).2[k]? = some b → (a = b ↔ n = m)) ∧
    ∀ (j : Nat) n a, ns[j]? = some n → (Symbols.new.registerAll ns).2[j]? = some a → (Symbols.new.registerAll ns).1.get a = some n := by
  obtain ⟨h1, _, h3, h4⟩ := registerAll_spec ns Symbols.new symOK_new
  refine ⟨h3, fun j k n m a b hj hk ha hb => ?_, h4⟩
  have ea := h4 j n a hj ha
  have eb := h4 k m b hk hb
  constructor
  · rintro rfl
    rw [ea] at eb
    exact Option.some.inj eb
  · rintro rfl
    obtain ⟨g1, g2⟩ := List.getElem?_eq_some_iff.mp ea
    obtain ⟨g3, g4⟩ := List.getElem?_eq_some_iff.mp eb
    exact (List.Nodup.getElem_inj_iff h1.nodup).mp (g2.trans g4.symm)

/-- C99: later registrations change neither symbols nor names. -/
theorem c99_symbols_stable (ns : List Text) (n : Text) (a : Nat) (m : Text) (h : (Symbols.new.registerAll ns).1.get a = some m) :
    ((Symbols.new.registerAll ns).1.register n).1.get a = some m := by
  obtain ⟨h1, _⟩ := registerAll_spec ns Symbols.new symOK_new
  obtain ⟨_, _, q, hq⟩ := symOK_register h1 n
  unfold Symbols.get at h ⊢
  rw [← hq, List.getElem?_append_left (List.getElem?_eq_some_iff.mp h).1]
  exact h

/-! ## Cases -/

/-- A file with a header, its columns in another order than the relation wants. -/
def peopleContent : Content := ⟨["p".toList, "name".toList, "age".toList], [["0.5".toList, "ann".toList, "-3".toList], ["true".toList, "bob".toList, "+40".toList]]⟩

example : peopleContent.fields.Nodup ∧ keyedContent.fields.Nodup ∧ (∀ row ∈ keyedContent.rows, row.length = keyedContent.fields.length) := by decide +kernel
example : loadFields halfText ["age".toList, "name".toList] true peopleContent [.int true 8, .string] =
    .ok [(.float (1 / 2), [.int true 8 (-3), .string "ann".toList]), (.bool true, [.int true 8 40, .string "bob".toList])] := by rfl
example : loadFields halfText ["age".toList, "name".toList] true peopleContent [.int false 8, .string] = .error .value := by rfl
example : loadRaw halfText true peopleContent [.string, .int true 8] =
    .ok [(.float (1 / 2), [.string "ann".toList, .int true 8 (-3)]), (.bool true, [.string "bob".toList, .int true 8 40])] := by rfl
example : loadRaw halfText false peopleContent [.string, .int true 8] = .error .arity := by rfl
example : loadKeys halfText ["id".toList] (some ["town".toList]) true keyedContent [.int true 32, .symbol, .string] =
    .ok [(.float (1 / 2), [.int true 32 7, .symbol "town".toList, .string "rome".toList])] := by rfl
example : loadKeys halfText ["id".toList] (some ["zip".toList]) true keyedContent [.int true 32, .symbol, .string] = .error .field := by rfl
example : parse halfText (.int true 8) "128".toList = .error .value ∧ parse halfText (.int true 8) "-128".toList = .ok (.int true 8 (-128)) ∧
    parse halfText (.int false 8) "-0".toList = .error .value := ⟨rfl, rfl, rfl⟩
example : ∃ reg r, Registry.load (fun _ => some numbersFile) [] [withOptions 0 none none none none none, withOptions 0 none (some false) none none none] = .ok reg ∧
    Rel.loadFrom noFloats reg (withOptions 0 none (some false) none none none) [.int true 32, .int true 32] ⟨[], []⟩ = .ok r ∧ r.input.length = 2 :=
  ⟨_, _, rfl, rfl, rfl⟩
example : RowReads halfText [.int true 8, .string] ["5".toList, "x".toList] [.int true 8 5, .string "x".toList] := by
  have := (rawRow_iff halfText false [.int true 8, .string] ["5".toList, "x".toList] (.none, [.int true 8 5, .string "x".toList])).mp rfl
  exact this.2.2
example : (∀ t ∈ [[Val.int true 8 (-3), .float (1 / 2 : ℚ)], [.int true 8 100, .float (1 / 2)]], List.Forall₂ HasType [.int true 8, .float] t) ∧
    halfText.parse (halfText.show_ (1 / 2)) = some (1 / 2) ∧ store halfText [[.int true 8 (-3), .float (1 / 2)]] = [["-3".toList, "0.5".toList]] := by
  refine ⟨?_, by decide +kernel, by rfl⟩
  intro t ht
  simp only [List.mem_cons, List.not_mem_nil, or_false] at ht
  rcases ht with rfl | rfl
  · exact .cons ⟨rfl, rfl, by norm_num [InRange]⟩ (.cons trivial .nil)
  · exact .cons ⟨rfl, rfl, by norm_num [InRange]⟩ (.cons trivial .nil)
example : ∃ s es, internalize .exclusiveDiffProb Reg.new (asTuples keyedFacts) = some (s, es) ∧ s.probs = [1 / 2, 1 / 2] := ⟨_, _, rfl, by decide +kernel⟩
example : (Symbols.new.registerAll ["a".toList, "b".toList, "a".toList]).2 = [0, 1, 0] := by decide +kernel

end Scallop.Csv
