import Verif.Spec.FileAttr

/-!
# Attributes that name files: proofs
-/

namespace Scallop.Attr

/-! ### Paths -/

theorem splitSlash_ne_nil : ∀ s, splitSlash s ≠ []
  | [] => by simp [splitSlash]
  | c :: cs => by
    unfold splitSlash
    split
    · simp
    · split <;> simp

theorem splitSlash_append_slash : ∀ a b, splitSlash (a ++ '/' :: b) = splitSlash a ++ splitSlash b
  | [], b => by simp [splitSlash]
  | c :: cs, b => by
    by_cases h : c = '/'
    · simp [splitSlash, h, splitSlash_append_slash cs b]
    · simp only [List.cons_append, splitSlash, h, if_false, splitSlash_append_slash cs b]
      cases hs : splitSlash cs with
      | nil => exact absurd hs (splitSlash_ne_nil cs)
      | cons w ws => simp

theorem splitSlash_name : ∀ w, '/' ∉ w → splitSlash w = [w]
  | [], _ => rfl
  | c :: cs, h => by
    simp only [List.mem_cons, not_or] at h
    simp [splitSlash, Ne.symm h.1, splitSlash_name cs h.2]

theorem splitSlash_mem : ∀ s, ∀ w ∈ splitSlash s, '/' ∉ w
  | [], w, h => by simp [splitSlash] at h; simp [h]
  | c :: cs, w, h => by
    by_cases hc : c = '/'
    · simp only [splitSlash, hc, if_true, List.mem_cons] at h
      rcases h with rfl | h
      · simp
      · exact splitSlash_mem cs w h
    · simp only [splitSlash, hc, if_false] at h
      cases hs : splitSlash cs with
      | nil => exact absurd hs (splitSlash_ne_nil cs)
      | cons v vs =>
        rw [hs] at h
        have ih := fun w hw => splitSlash_mem cs w hw
        simp only [List.mem_cons] at h
        rcases h with rfl | h
        · simp [ih v (by simp [hs]), Ne.symm hc]
        · exact ih w (by simp [hs, h])

/-- Putting the parts together. -/
def joinSlash : List (List Char) → List Char
  | [] => []
  | [w] => w
  | w :: v :: l => w ++ '/' :: joinSlash (v :: l)

theorem joinSlash_split : ∀ s, joinSlash (splitSlash s) = s
  | [] => rfl
  | c :: cs => by
    have ih := joinSlash_split cs
    cases hs : splitSlash cs with
    | nil => exact absurd hs (splitSlash_ne_nil cs)
    | cons v vs =>
      rw [hs] at ih
      by_cases hc : c = '/'
      · simp [splitSlash, hc, hs, joinSlash, ih]
      · simp only [splitSlash, hc, if_false, hs]
        cases vs with
        | nil => simpa [joinSlash] using ih
        | cons u us => simpa [joinSlash] using ih

theorem joinSlash_cons (w : List Char) (l : List (List Char)) (h : l ≠ []) : joinSlash (w :: l) = w ++ '/' :: joinSlash l := by
  cases l with
  | nil => exact absurd rfl h
  | cons v l => rfl

theorem joinSlash_append : ∀ (pre : List (List Char)) (l : List (List Char)), l ≠ [] → pre ≠ [] → joinSlash (pre ++ l) = joinSlash pre ++ '/' :: joinSlash l
  | [], _, _, h => absurd rfl h
  | [w], l, h, _ => joinSlash_cons w l h
  | w :: v :: pre, l, h, _ => by
    have := joinSlash_append (v :: pre) l h (by simp)
    simp only [List.cons_append] at this ⊢
    simp [joinSlash, this]

theorem joinSlash_trailing (w : List Char) : ∀ l, (∀ v ∈ l, v = [] ∨ v = ['.']) → ∃ t, Trailing t ∧ joinSlash (w :: l) = w ++ t
  | [], _ => ⟨[], .nil, by simp [joinSlash]⟩
  | v :: l, h => by
    obtain ⟨t, ht, h1⟩ := joinSlash_trailing v l (fun u hu => h u (by simp [hu]))
    refine ⟨'/' :: (v ++ t), ?_, by simp [joinSlash, h1]⟩
    rcases h v (by simp) with rfl | rfl
    · exact .slash ht
    · exact .dot ht

theorem split_trailing (w : List Char) (hw : '/' ∉ w) : ∀ {t}, Trailing t → ∃ l, splitSlash (w ++ t) = w :: l ∧ ∀ v ∈ l, v = [] ∨ v = ['.'] := by
  intro t ht
  have h0 : ∀ {t}, Trailing t → ∀ u, '/' ∉ u → ∃ l, splitSlash (u ++ t) = u :: l ∧ ∀ v ∈ l, v = [] ∨ v = ['.'] := by
    intro t ht
    induction ht with
    | nil => exact fun u hu => ⟨[], by simp [splitSlash_name u hu], by simp⟩
    | @slash t _ ih =>
      intro u hu
      obtain ⟨l, h1, h2⟩ := ih [] (by simp)
      refine ⟨[] :: l, by rw [splitSlash_append_slash, splitSlash_name u hu]; simpa using h1, ?_⟩
      intro v hv
      rcases List.mem_cons.1 hv with rfl | hv
      · exact Or.inl rfl
      · exact h2 v hv
    | @dot t _ ih =>
      intro u hu
      obtain ⟨l, h1, h2⟩ := ih ['.'] (by simp)
      refine ⟨['.'] :: l, by rw [splitSlash_append_slash, splitSlash_name u hu]; simpa using h1, ?_⟩
      intro v hv
      rcases List.mem_cons.1 hv with rfl | hv
      · exact Or.inr rfl
      · exact h2 v hv
  exact h0 ht w hw

theorem fileName_iff (s w : List Char) : fileName s = some w ↔
    ∃ dir tail, s = dir ++ w ++ tail ∧ (dir = [] ∨ ∃ d, dir = d ++ ['/']) ∧ '/' ∉ w ∧ w ≠ [] ∧ w ≠ ['.'] ∧ w ≠ ['.', '.'] ∧ Trailing tail := by
  unfold fileName
  constructor
  · intro h
    split at h
    · rename_i v hv
      split at h
      · cases h
      · rename_i hne
        simp only [Option.some.injEq] at h
        subst h
        obtain ⟨pre, post, h1, h2⟩ : ∃ pre post, splitSlash s = pre ++ v :: post ∧ ∀ u ∈ post, u = [] ∨ u = ['.'] := by
          clear hne
          generalize splitSlash s = l at hv
          induction l with
          | nil => simp at hv
          | cons u l ih =>
            by_cases hl : (l.filter (fun w => decide (w ≠ [] ∧ w ≠ ['.']))) = []
            · by_cases hu : u ≠ [] ∧ u ≠ ['.']
              · rw [List.filter_cons_of_pos (by simpa using hu), hl] at hv
                simp only [List.getLast?_singleton, Option.some.injEq] at hv
                subst hv
                refine ⟨[], l, rfl, fun x hx => ?_⟩
                have := List.filter_eq_nil_iff.1 hl x hx
                simp only [decide_eq_true_eq, not_and, not_not] at this
                by_cases hx' : x = []
                · exact Or.inl hx'
                · exact Or.inr (this hx')
              · rw [List.filter_cons_of_neg (by simpa using hu), hl] at hv
                simp at hv
            · have : (l.filter (fun w => decide (w ≠ [] ∧ w ≠ ['.']))).getLast? = some v := by
                by_cases hu : u ≠ [] ∧ u ≠ ['.']
                · rw [List.filter_cons_of_pos (by simpa using hu)] at hv
                  obtain ⟨a, b, hab⟩ := List.exists_cons_of_ne_nil hl
                  rw [hab] at hv ⊢
                  simpa using hv
                · rwa [List.filter_cons_of_neg (by simpa using hu)] at hv
              obtain ⟨pre, post, rfl, h2⟩ := ih this
              exact ⟨u :: pre, post, rfl, h2⟩
        have hmem := List.mem_of_getLast? hv
        simp only [List.mem_filter, decide_eq_true_eq] at hmem
        obtain ⟨t, ht, hj⟩ := joinSlash_trailing v post h2
        have hs := joinSlash_split s
        rw [h1] at hs
        by_cases hp : pre = []
        · subst hp
          simp only [List.nil_append] at hs
          exact ⟨[], t, by rw [← hs, hj]; simp, Or.inl rfl, splitSlash_mem s v hmem.1, hmem.2.1, hmem.2.2, hne, ht⟩
        · rw [joinSlash_append pre _ (by simp) hp, hj] at hs
          exact ⟨joinSlash pre ++ ['/'], t, by rw [← hs]; simp, Or.inr ⟨_, rfl⟩, splitSlash_mem s v hmem.1, hmem.2.1, hmem.2.2, hne, ht⟩
    · cases h
  · rintro ⟨dir, tail, rfl, hd, h1, h2, h3, h4, ht⟩
    obtain ⟨l, hl, hj⟩ := split_trailing w h1 ht
    have hfl : l.filter (fun w => decide (w ≠ [] ∧ w ≠ ['.'])) = [] := by
      rw [List.filter_eq_nil_iff]
      intro v hv
      rcases hj v hv with rfl | rfl <;> simp
    have key : ∃ pre, splitSlash (dir ++ w ++ tail) = pre ++ w :: l := by
      rcases hd with rfl | ⟨d, rfl⟩
      · exact ⟨[], by simpa using hl⟩
      · refine ⟨splitSlash d, ?_⟩
        rw [← hl, ← splitSlash_append_slash]
        simp
    obtain ⟨pre, hp⟩ := key
    rw [hp, List.filter_append, List.filter_cons_of_pos (by simp [h2, h3]), hfl]
    simp [h4]

theorem rsplitDot_iff : ∀ (w b a : List Char), rsplitDot w = some (b, a) ↔ w = b ++ '.' :: a ∧ '.' ∉ a := by
  have none_iff : ∀ w, rsplitDot w = none ↔ '.' ∉ w := by
    intro w
    induction w with
    | nil => simp [rsplitDot]
    | cons c cs ih =>
      simp only [rsplitDot]
      split
      · rename_i b a h
        simp only [reduceCtorEq, List.mem_cons, not_or, false_iff, not_and, not_not]
        intro _
        by_contra hc
        rw [ih.2 hc] at h
        cases h
      · rename_i h
        have := ih.1 h
        by_cases hc : c = '.'
        · simp [hc]
        · simp [hc, this, Ne.symm hc]
  intro w
  induction w with
  | nil => simp [rsplitDot]
  | cons c cs ih =>
    intro b a
    simp only [rsplitDot]
    split
    · rename_i b' a' h
      have h' := (ih b' a').1 h
      simp only [Option.some.injEq, Prod.mk.injEq]
      constructor
      · rintro ⟨rfl, rfl⟩
        exact ⟨by simp [h'.1], h'.2⟩
      · rintro ⟨h1, h2⟩
        cases b with
        | nil =>
          simp only [List.nil_append, List.cons.injEq] at h1
          exfalso
          apply h2
          rw [← h1.2, h'.1]
          simp
        | cons d b =>
          simp only [List.cons_append, List.cons.injEq] at h1
          have := (ih b a).2 ⟨h1.2, h2⟩
          rw [h] at this
          simp only [Option.some.injEq, Prod.mk.injEq] at this
          exact ⟨by rw [h1.1, this.1], this.2⟩
    · rename_i h
      have h' := (none_iff cs).1 h
      by_cases hc : c = '.'
      · simp only [hc, if_true, Option.some.injEq, Prod.mk.injEq]
        constructor
        · rintro ⟨rfl, rfl⟩; exact ⟨rfl, h'⟩
        · rintro ⟨h1, h2⟩
          cases b with
          | nil => simp only [List.nil_append, List.cons.injEq, true_and] at h1; exact ⟨rfl, h1⟩
          | cons d b =>
            simp only [List.cons_append, List.cons.injEq] at h1
            exact absurd (by rw [h1.2]; simp) h'
      · simp only [hc, if_false, reduceCtorEq, false_iff, not_and, not_not]
        intro h1
        cases b with
        | nil => simp only [List.nil_append, List.cons.injEq] at h1; exact absurd h1.1 hc
        | cons d b =>
          simp only [List.cons_append, List.cons.injEq] at h1
          exact absurd (by rw [h1.2]; simp) h'

theorem extension_iff (s e : List Char) : extension s = some e ↔ HasExtension s e := by
  have h0 : extension s = some e ↔ ∃ w b, fileName s = some w ∧ rsplitDot w = some (b, e) ∧ b ≠ [] := by
    unfold extension
    constructor
    · intro h
      split at h
      · cases h
      · rename_i w hw
        split at h
        · cases h
        · rename_i b a hr
          split at h
          · cases h
          · rename_i hb
            simp only [Option.some.injEq] at h
            subst h
            exact ⟨w, b, hw, hr, hb⟩
    · rintro ⟨w, b, h1, h2, h3⟩
      simp [h1, h2, h3]
  rw [h0]
  constructor
  · rintro ⟨w, b, h1, h2, h3⟩
    obtain ⟨rfl, h4⟩ := (rsplitDot_iff w b e).1 h2
    obtain ⟨dir, tail, rfl, hd, h5, -, -, h6, ht⟩ := (fileName_iff _ _).1 h1
    simp only [List.mem_append, List.mem_cons, not_or] at h5
    exact ⟨dir, b, tail, rfl, hd, h3, h5.1, h5.2.2, h4, h6, ht⟩
  · rintro ⟨dir, b, tail, rfl, hd, h3, h5, h5', h4, h6, ht⟩
    refine ⟨b ++ '.' :: e, b, (fileName_iff _ _).2 ⟨dir, tail, rfl, hd, by simp [h5, h5'], by simp, ?_, h6, ht⟩, (rsplitDot_iff _ _ _).2 ⟨rfl, h4⟩, h3⟩
    intro h
    have := congrArg List.length h
    simp only [List.length_append, List.length_cons, List.length_nil] at this
    have : b.length ≠ 0 := by simpa using h3
    omega

/-! ### Options -/

theorem utf8_pos (c : Char) : 0 < c.utf8Size := Char.utf8Size_pos c

theorem ascii_of_size {c : Char} (h : c.utf8Size = 1) : c.toNat < 128 := by
  unfold Char.utf8Size at h
  simp only at h
  split at h
  · rename_i hc
    have : c.val.toNat ≤ 127 := UInt32.le_iff_toNat_le.1 hc
    exact Nat.lt_succ_of_le this
  · split at h
    · cases h
    · split at h <;> cases h

theorem size_of_ascii {c : Char} (h : c.toNat < 128) : c.utf8Size = 1 := by
  unfold Char.utf8Size
  rw [if_pos]
  apply UInt32.le_iff_toNat_le.2
  have : c.val.toNat < 128 := h
  show c.val.toNat ≤ 127
  omega

theorem readDelim_iff (v : Option Value) (d : Option Nat) : readDelim v = .ok d ↔ Opt v MeansChar d := by
  unfold Opt MeansChar
  constructor
  · intro h
    match v, h with
    | none, h => simp only [readDelim, Except.ok.injEq] at h; exact Or.inl ⟨rfl, h.symm⟩
    | some (.str s), h =>
      simp only [readDelim] at h
      split at h
      · rename_i hsum
        split at h
        · rename_i c cs hs
          split at h
          · rename_i hc
            simp only [Except.ok.injEq] at h
            rw [hs] at hsum
            simp only [List.map_cons, List.sum_cons] at hsum
            have hcs : cs = [] := by
              cases cs with
              | nil => rfl
              | cons c' cs =>
                simp only [List.map_cons, List.sum_cons] at hsum
                have := utf8_pos c
                have := utf8_pos c'
                omega
            subst hcs
            exact Or.inr ⟨.str s, c.toNat, rfl, h.symm, c, by rw [← hs, String.ofList_toList], rfl, hc⟩
          · cases h
        · cases h
      · cases h
    | some (.int _), h | some (.bool _), h | some .constant, h | some (.list _), h | some .tuple, h => simp [readDelim] at h
  · rintro (⟨rfl, rfl⟩ | ⟨w, y, rfl, rfl, c, rfl, rfl, hc⟩)
    · rfl
    · simp [readDelim, size_of_ascii hc, hc]

theorem delim_never_ascii (v : Option Value) : readDelim v ≠ .error .delimAscii := by
  match v with
  | none => simp [readDelim]
  | some (.str s) =>
    simp only [readDelim]
    split
    · rename_i hsum
      split
      · rename_i c cs hs
        rw [hs] at hsum
        simp only [List.map_cons, List.sum_cons] at hsum
        have : c.utf8Size = 1 := by have := utf8_pos c; omega
        simp [ascii_of_size this]
      · simp
    · simp
  | some (.int _) | some (.bool _) | some .constant | some (.list _) | some .tuple => simp [readDelim]

theorem readBool_iff (e : FileErr) (v : Option Value) (b : Option Bool) : readBool e v = .ok b ↔ Opt v MeansBool b := by
  unfold Opt MeansBool
  constructor
  · intro h
    match v, h with
    | none, h => simp only [readBool, Except.ok.injEq] at h; exact Or.inl ⟨rfl, h.symm⟩
    | some (.bool c), h => simp only [readBool, Except.ok.injEq] at h; exact Or.inr ⟨_, c, rfl, h.symm, rfl⟩
    | some (.int _), h | some (.str _), h | some .constant, h | some (.list _), h | some .tuple, h => simp [readBool] at h
  · rintro (⟨rfl, rfl⟩ | ⟨w, y, rfl, rfl, rfl⟩) <;> rfl

theorem allStrings_iff : ∀ (l : List (Option String)) (ks : List String), allStrings l = some ks ↔ l = ks.map some
  | [], ks => by
    simp only [allStrings, Option.some.injEq]
    constructor
    · rintro rfl; rfl
    · intro h; simpa using h.symm
  | none :: l, ks => by
    simp only [allStrings, reduceCtorEq, false_iff]
    intro h
    cases ks <;> simp at h
  | some s :: l, ks => by
    simp only [allStrings, Option.map_eq_some_iff]
    constructor
    · rintro ⟨ks', h, rfl⟩
      rw [(allStrings_iff l ks').1 h]
      rfl
    · intro h
      cases ks with
      | nil => simp at h
      | cons k ks =>
        simp only [List.map_cons, List.cons.injEq, Option.some.injEq] at h
        exact ⟨ks, (allStrings_iff l ks).2 h.2, by rw [h.1]⟩

theorem readKeys_iff (v : Option Value) (k : Option (List String)) : readKeys v = .ok k ↔ Opt v MeansKeys k := by
  unfold Opt MeansKeys MeansStrings
  constructor
  · intro h
    match v, h with
    | none, h => simp only [readKeys, Except.ok.injEq] at h; exact Or.inl ⟨rfl, h.symm⟩
    | some (.str s), h => simp only [readKeys, Except.ok.injEq] at h; exact Or.inr ⟨_, [s], rfl, h.symm, Or.inl ⟨s, rfl, rfl⟩⟩
    | some (.list l), h =>
      simp only [readKeys] at h
      split at h
      · cases h
      · rename_i hl
        split at h
        · rename_i ks hks
          simp only [Except.ok.injEq] at h
          have := (allStrings_iff l ks).1 hks
          refine Or.inr ⟨_, ks, rfl, h.symm, Or.inr ⟨?_, by rw [this]⟩⟩
          rintro rfl
          exact hl this
        · cases h
    | some (.int _), h | some (.bool _), h | some .constant, h | some .tuple, h => simp [readKeys] at h
  · rintro (⟨rfl, rfl⟩ | ⟨w, y, rfl, rfl, ⟨s, rfl, rfl⟩ | ⟨hn, rfl⟩⟩)
    · rfl
    · rfl
    · simp only [readKeys]
      rw [if_neg (by simpa using hn), (allStrings_iff _ y).2 rfl]

theorem readFields_iff (v : Option Value) (k : Option (List String)) : readFields v = .ok k ↔ Opt v MeansStrings k := by
  unfold Opt MeansStrings
  constructor
  · intro h
    match v, h with
    | none, h => simp only [readFields, Except.ok.injEq] at h; exact Or.inl ⟨rfl, h.symm⟩
    | some (.list l), h =>
      simp only [readFields] at h
      split at h
      · rename_i ks hks
        simp only [Except.ok.injEq] at h
        exact Or.inr ⟨_, ks, rfl, h.symm, by rw [(allStrings_iff l ks).1 hks]⟩
      · cases h
    | some (.str _), h | some (.int _), h | some (.bool _), h | some .constant, h | some .tuple, h => simp [readFields] at h
  · rintro (⟨rfl, rfl⟩ | ⟨w, y, rfl, rfl, rfl⟩)
    · rfl
    · simp only [readFields]
      rw [(allStrings_iff _ y).2 rfl]

theorem readPath_iff (a : Attribute) (s : String) : readPath a = .ok s ↔ a.IsFile s := by
  unfold readPath Attribute.IsFile
  constructor
  · intro h
    split at h
    · rename_i s' vs hv
      split at h
      · rename_i e he
        split at h
        · rename_i hcsv
          simp only [Except.ok.injEq] at h
          subst h hcsv
          exact ⟨⟨vs, hv⟩, (extension_iff _ _).1 he⟩
        · cases h
      · cases h
    · cases h
    · cases h
  · rintro ⟨⟨vs, h1⟩, h2⟩
    have h3 : extension s.toList = some ['c', 's', 'v'] := (extension_iff _ _).2 h2
    rw [h1]
    simp only
    rw [h3]
    simp

theorem except_bind_ok {ε α β : Type} (x : Except ε α) (f : α → Except ε β) (b : β) : (x >>= f) = .ok b ↔ ∃ a, x = .ok a ∧ f a = .ok b := by
  cases x with
  | error e => simp [bind, Except.bind]
  | ok a => simp [bind, Except.bind]

theorem headerArg_eq (a : Attribute) : a.headerArg = (if a.kwArg "has_header" = none then a.kwArg "header" else a.kwArg "has_header") := by
  unfold Attribute.headerArg
  cases a.kwArg "has_header" <;> simp

theorem opt_unique {α : Type} {v : Option Value} {P : Value → α → Prop} (hP : ∀ w x y, P w x → P w y → x = y) {x y : Option α} (h1 : Opt v P x) (h2 : Opt v P y) : x = y := by
  rcases h1 with ⟨rfl, rfl⟩ | ⟨w, z, rfl, rfl, h⟩
  · rcases h2 with ⟨_, rfl⟩ | ⟨w, z, h, _⟩
    · rfl
    · cases h
  · rcases h2 with ⟨h, _⟩ | ⟨w', z', h', rfl, h2⟩
    · cases h
    · simp only [Option.some.injEq] at h'
      subst h'
      rw [hP w z z' h h2]

theorem readInput_iff (a : Attribute) (f : InputFile) : readInput a = .ok f ↔ ReadsInput a f := by
  unfold readInput ReadsInput
  simp only [except_bind_ok, readPath_iff, readDelim_iff, readBool_iff, readKeys_iff, readFields_iff, headerArg_eq, Except.ok.injEq]
  constructor
  · rintro ⟨path, h1, d, h2, h, h3, q, h4, k, h5, fs, h6, rfl⟩
    refine ⟨h1, ⟨d, h2, ?_⟩, ⟨h, h3, ?_⟩, ⟨q, h4, ?_⟩, h5, h6⟩
    · cases d with
      | none => exact Or.inl ⟨rfl, rfl⟩
      | some d => exact Or.inr rfl
    · simp only [inputFile, Bool.or_eq_true, Option.isSome_iff_ne_none, ne_eq, or_assoc]
      cases h with
      | none => simp [orElse]
      | some b => simp [orElse]
    · cases q with
      | none => simp [inputFile, orElse]
      | some b => simp [inputFile, orElse]
  · rintro ⟨h1, ⟨d, h2, h2'⟩, ⟨h, h3, h3'⟩, ⟨q, h4, h4'⟩, h5, h6⟩
    refine ⟨_, h1, d, h2, h, h3, q, h4, _, h5, _, h6, ?_⟩
    obtain ⟨p, de, he, pr, ks, fs⟩ := f
    simp only at *
    have e1 : orElse 44 d = de := by
      rcases h2' with ⟨rfl, rfl⟩ | rfl <;> rfl
    have e2 : (orElse false h || ks.isSome || fs.isSome) = he := by
      rw [Bool.eq_iff_iff, h3', Bool.or_eq_true, Bool.or_eq_true, Option.isSome_iff_ne_none, Option.isSome_iff_ne_none, or_assoc]
      cases h with
      | none => simp [orElse]
      | some b => simp [orElse]
    have e3 : orElse false q = pr := by
      rw [Bool.eq_iff_iff, h4']
      cases q with
      | none => simp [orElse]
      | some b => simp [orElse]
    simp only [inputFile, e1, e2, e3]

theorem readOutput_iff (a : Attribute) (f : OutputFile) : readOutput a = .ok f ↔ ReadsOutput a f := by
  unfold readOutput ReadsOutput
  simp only [except_bind_ok, readPath_iff, readDelim_iff, Except.ok.injEq]
  constructor
  · rintro ⟨path, h1, d, h2, rfl⟩
    refine ⟨h1, d, h2, ?_⟩
    cases d with
    | none => exact Or.inl ⟨rfl, rfl⟩
    | some d => exact Or.inr rfl
  · rintro ⟨h1, d, h2, h2'⟩
    refine ⟨_, h1, d, h2, ?_⟩
    obtain ⟨p, de⟩ := f
    simp only at *
    rcases h2' with ⟨rfl, rfl⟩ | rfl <;> rfl

/-! ### The analyses -/

theorem findFile_iff (attrs : List Attribute) (a : Attribute) : findAttr attrs "file" = some a ↔ FirstFile attrs a := by
  unfold findAttr FirstFile
  rw [List.find?_eq_some_iff_append]
  simp only [beq_iff_eq, ne_eq, Bool.not_eq_true', beq_eq_false_iff_ne]
  constructor
  · rintro ⟨h, l, r, rfl, hl⟩
    exact ⟨l, r, rfl, h, fun b hb => hl b hb⟩
  · rintro ⟨l, r, rfl, h, hl⟩
    exact ⟨h, l, r, rfl, fun b hb => hl b hb⟩

theorem process_files {α : Type} (read : Attribute → Except FileErr α) (st : FileState α) (n : String) (attrs : List Attribute) (p : String) (f : α) :
    (st.process read n attrs).files.lookup p = some f ↔
      (n = p ∧ ∃ a, FirstFile attrs a ∧ read a = .ok f) ∨ ((n = p → ∀ a, FirstFile attrs a → ∀ g, read a ≠ .ok g) ∧ st.files.lookup p = some f) := by
  unfold FileState.process
  have huniq : ∀ {a b}, findAttr attrs "file" = some a → FirstFile attrs b → b = a := by
    intro a b h1 h2
    rw [← findFile_iff, h1] at h2
    exact (Option.some.inj h2).symm
  split
  · rename_i h
    have hno : ∀ a, ¬ FirstFile attrs a := by
      intro a ha
      rw [← findFile_iff, h] at ha
      cases ha
    simp [hno]
  · rename_i a h
    have ha := (findFile_iff attrs a).1 h
    split
    · rename_i g hg
      simp only [List.lookup_cons]
      by_cases hp : p = n
      · subst hp
        simp only [beq_self_eq_true, Option.some.injEq, true_and, forall_const]
        constructor
        · rintro rfl
          exact Or.inl ⟨a, ha, hg⟩
        · rintro (⟨b, hb, hr⟩ | ⟨h1, _⟩)
          · rw [huniq h hb, hg] at hr
            exact Except.ok.inj hr
          · exact absurd hg (h1 a ha g)
      · have hb : (p == n) = false := by simpa using hp
        simp only [hb]
        constructor
        · exact fun h => Or.inr ⟨fun h' => absurd h'.symm hp, h⟩
        · rintro (⟨h', _⟩ | ⟨_, h'⟩)
          · exact absurd h'.symm hp
          · exact h'
    · rename_i e he
      simp only
      constructor
      · refine fun h' => Or.inr ⟨fun _ b hb g hg => ?_, h'⟩
        rw [huniq h hb, he] at hg
        cases hg
      · rintro (⟨_, b, hb, hr⟩ | ⟨_, h'⟩)
        · rw [huniq h hb, he] at hr
          cases hr
        · exact h'

theorem process_errors {α : Type} (read : Attribute → Except FileErr α) (st : FileState α) (n : String) (attrs : List Attribute) :
    (st.process read n attrs).errors = [] ↔ st.errors = [] ∧ ∀ a, FirstFile attrs a → ∃ f, read a = .ok f := by
  unfold FileState.process
  split
  · rename_i h
    have hno : ∀ a, ¬ FirstFile attrs a := by
      intro a ha
      rw [← findFile_iff, h] at ha
      cases ha
    simp [hno]
  · rename_i a h
    have huniq : ∀ {b}, FirstFile attrs b → b = a := by
      intro b h2
      rw [← findFile_iff, h] at h2
      exact (Option.some.inj h2).symm
    split
    · rename_i g hg
      refine ⟨fun h' => ⟨h', fun b hb => ⟨g, by rw [huniq hb, hg]⟩⟩, fun h' => h'.1⟩
    · rename_i e he
      simp only [List.append_eq_nil_iff, List.cons_ne_self, and_false, false_iff, not_and]
      intro _ h'
      obtain ⟨f, hf⟩ := h' a ((findFile_iff attrs a).1 h)
      rw [he] at hf
      cases hf

theorem rels_files (attrs : List Attribute) : ∀ (rels : List RelType) (st : FileState InputFile) (p : String) (f : InputFile),
    (rels.foldl (fun st r => st.process readInput r.pred attrs) st).files.lookup p = some f ↔
      ((∃ r ∈ rels, r.pred = p) ∧ ∃ a, FirstFile attrs a ∧ readInput a = .ok f) ∨
        (((∃ r ∈ rels, r.pred = p) → ∀ a, FirstFile attrs a → ∀ g, readInput a ≠ .ok g) ∧ st.files.lookup p = some f)
  | [], st, p, f => by simp
  | r :: rels, st, p, f => by
    have huniq : ∀ {a b}, FirstFile attrs a → FirstFile attrs b → b = a := by
      intro a b h1 h2
      rw [← findFile_iff] at h1 h2
      rw [h1] at h2
      exact (Option.some.inj h2).symm
    rw [List.foldl_cons, rels_files attrs rels, process_files]
    by_cases hr : ∃ r ∈ rels, r.pred = p
    · have hr' : ∃ r' ∈ r :: rels, r'.pred = p := by obtain ⟨x, hx, h⟩ := hr; exact ⟨x, by simp [hx], h⟩
      simp only [hr, hr', true_and, forall_const]
      by_cases hx : ∃ a, FirstFile attrs a ∧ ∃ g, readInput a = .ok g
      · obtain ⟨a, ha, g, hg⟩ := hx
        have hn : ¬ ∀ a, FirstFile attrs a → ∀ g, readInput a ≠ .ok g := fun h => h a ha g hg
        simp [hn]
      · have hn : ∀ a, FirstFile attrs a → ∀ g, readInput a ≠ .ok g := fun a ha g hg => hx ⟨a, ha, g, hg⟩
        have hn' : ¬ ∃ a, FirstFile attrs a ∧ readInput a = .ok f := fun ⟨a, ha, h⟩ => hx ⟨a, ha, f, h⟩
        simp only [hn', and_false, false_or]
        exact ⟨fun h => ⟨h.1, h.2.2⟩, fun h => ⟨h.1, fun _ => h.1, h.2⟩⟩
    · have he : (∃ r' ∈ r :: rels, r'.pred = p) ↔ r.pred = p := by
        constructor
        · rintro ⟨x, hx, h⟩
          rcases List.mem_cons.1 hx with rfl | hx
          · exact h
          · exact absurd ⟨x, hx, h⟩ hr
        · exact fun h => ⟨r, by simp, h⟩
      simp only [hr, false_and, false_imp_iff, true_and, false_or, he]

theorem rels_errors (attrs : List Attribute) : ∀ (rels : List RelType) (st : FileState InputFile),
    (rels.foldl (fun st r => st.process readInput r.pred attrs) st).errors = [] ↔ st.errors = [] ∧ (rels ≠ [] → ∀ a, FirstFile attrs a → ∃ f, readInput a = .ok f)
  | [], st => by simp
  | r :: rels, st => by
    rw [List.foldl_cons, rels_errors attrs rels, process_errors]
    simp only [ne_eq, reduceCtorEq, not_false_eq_true, forall_const]
    exact ⟨fun h => h.1, fun h => ⟨h, fun _ => h.2⟩⟩

theorem visitInput_files (st : FileState InputFile) (d : Decl) (p : String) (f : InputFile) :
    (visitInput st d).files.lookup p = some f ↔ SaysInput d p f ∨ ((∀ g, ¬ SaysInput d p g) ∧ st.files.lookup p = some f) := by
  unfold visitInput
  split
  · rename_i attrs rels
    rw [rels_files]
    have h : ∀ g, SaysInput (.item (.types attrs rels)) p g ↔ (∃ r ∈ rels, r.pred = p) ∧ ∃ a, FirstFile attrs a ∧ readInput a = .ok g := by
      intro g
      unfold SaysInput
      constructor
      · rintro ⟨attrs', rels', a, h, h1, h2, h3⟩
        simp only [Decl.item.injEq, Item.types.injEq] at h
        obtain ⟨rfl, rfl⟩ := h
        exact ⟨h1, a, h2, (readInput_iff a g).2 h3⟩
      · rintro ⟨h1, a, h2, h3⟩
        exact ⟨attrs, rels, a, rfl, h1, h2, (readInput_iff a g).1 h3⟩
    simp only [h]
    refine or_congr_right (and_congr_left fun _ => ?_)
    constructor
    · rintro h g ⟨h1, a, h2, h3⟩
      exact h h1 a h2 g h3
    · intro h h1 a h2 g h3
      exact h g ⟨h1, a, h2, h3⟩
  · rename_i hd
    have h : ∀ g, ¬ SaysInput d p g := by
      rintro g ⟨attrs, rels, a, rfl, _⟩
      exact hd attrs rels rfl
    simp [h]

theorem visitOutput_files (st : FileState OutputFile) (d : Decl) (p : String) (f : OutputFile) :
    (visitOutput st d).files.lookup p = some f ↔ SaysOutput d p f ∨ ((∀ g, ¬ SaysOutput d p g) ∧ st.files.lookup p = some f) := by
  unfold visitOutput
  split
  · rename_i attrs n
    rw [process_files]
    have h : ∀ g, SaysOutput (.query attrs n) p g ↔ n = p ∧ ∃ a, FirstFile attrs a ∧ readOutput a = .ok g := by
      intro g
      unfold SaysOutput
      constructor
      · rintro ⟨attrs', a, h, h2, h3⟩
        simp only [Decl.query.injEq] at h
        obtain ⟨rfl, rfl⟩ := h
        exact ⟨rfl, a, h2, (readOutput_iff a g).2 h3⟩
      · rintro ⟨rfl, a, h2, h3⟩
        exact ⟨attrs, a, rfl, h2, (readOutput_iff a g).1 h3⟩
    simp only [h]
    refine or_congr_right (and_congr_left fun _ => ?_)
    constructor
    · rintro h g ⟨h1, a, h2, h3⟩
      exact h h1 a h2 g h3
    · intro h h1 a h2 g h3
      exact h g ⟨h1, a, h2, h3⟩
  · rename_i hd
    have h : ∀ g, ¬ SaysOutput d p g := by
      rintro g ⟨attrs, a, rfl, _⟩
      exact hd attrs p rfl
    simp [h]

theorem last_cons {α : Type} (d : Decl) (ds : List Decl) (P : Decl → α → Prop) (f : α) :
    Last (d :: ds) P f ↔ Last ds P f ∨ ((∀ d' ∈ ds, ∀ g, ¬ P d' g) ∧ P d f) := by
  constructor
  · rintro ⟨l, d', r, h, h1, h2⟩
    cases l with
    | nil =>
      simp only [List.nil_append, List.cons.injEq] at h
      obtain ⟨rfl, rfl⟩ := h
      exact Or.inr ⟨h2, h1⟩
    | cons x l =>
      simp only [List.cons_append, List.cons.injEq] at h
      exact Or.inl ⟨l, d', r, h.2, h1, h2⟩
  · rintro (⟨l, d', r, rfl, h1, h2⟩ | ⟨h2, h1⟩)
    · exact ⟨d :: l, d', r, rfl, h1, h2⟩
    · exact ⟨[], d, ds, rfl, h1, h2⟩

theorem fold_files {α : Type} (visit : FileState α → Decl → FileState α) (P : Decl → String → α → Prop)
    (hv : ∀ st d p f, (visit st d).files.lookup p = some f ↔ P d p f ∨ ((∀ g, ¬ P d p g) ∧ st.files.lookup p = some f)) :
    ∀ (ds : List Decl) (st : FileState α) (p : String) (f : α), (ds.foldl visit st).files.lookup p = some f ↔
      Last ds (fun d => P d p) f ∨ ((∀ d ∈ ds, ∀ g, ¬ P d p g) ∧ st.files.lookup p = some f)
  | [], st, p, f => by
    constructor
    · exact fun h => Or.inr ⟨by simp, h⟩
    · rintro (⟨l, d, r, h, _⟩ | ⟨_, h⟩)
      · simp at h
      · exact h
  | d :: ds, st, p, f => by
    rw [List.foldl_cons, fold_files visit P hv ds, hv, last_cons]
    constructor
    · rintro (h | ⟨h1, h2 | ⟨h2, h3⟩⟩)
      · exact Or.inl (Or.inl h)
      · exact Or.inl (Or.inr ⟨h1, h2⟩)
      · exact Or.inr ⟨by
          intro d' hd' g
          rcases List.mem_cons.1 hd' with rfl | hd'
          · exact h2 g
          · exact h1 d' hd' g, h3⟩
    · rintro ((h | ⟨h1, h2⟩) | ⟨h1, h2⟩)
      · exact Or.inl h
      · exact Or.inr ⟨h1, Or.inl h2⟩
      · exact Or.inr ⟨fun d' hd' => h1 d' (by simp [hd']), Or.inr ⟨h1 d (by simp), h2⟩⟩

theorem visitInput_errors : ∀ (ds : List Decl) (st : FileState InputFile), (ds.foldl visitInput st).errors = [] ↔
    st.errors = [] ∧ ∀ attrs rels, .item (.types attrs rels) ∈ ds → rels ≠ [] → ∀ a, FirstFile attrs a → ∃ f, ReadsInput a f
  | [], st => by simp
  | d :: ds, st => by
    rw [List.foldl_cons, visitInput_errors ds]
    have h0 : (visitInput st d).errors = [] ↔ st.errors = [] ∧ ∀ attrs rels, .item (.types attrs rels) = d → rels ≠ [] → ∀ a, FirstFile attrs a → ∃ f, ReadsInput a f := by
      unfold visitInput
      split
      · rename_i attrs rels
        rw [rels_errors]
        simp only [Decl.item.injEq, Item.types.injEq, and_imp, ← readInput_iff]
        refine and_congr_right fun _ => ⟨?_, fun h => h attrs rels rfl rfl⟩
        rintro h _ _ rfl rfl
        exact h
      · rename_i hd
        refine ⟨fun h => ⟨h, fun attrs rels h' => absurd h'.symm (hd attrs rels)⟩, fun h => h.1⟩
    rw [h0]
    constructor
    · rintro ⟨⟨h1, h2⟩, h3⟩
      refine ⟨h1, fun attrs rels hm => ?_⟩
      rcases List.mem_cons.1 hm with h | h
      · exact h2 attrs rels h
      · exact h3 attrs rels h
    · rintro ⟨h1, h2⟩
      exact ⟨⟨h1, fun attrs rels h => h2 attrs rels (by simp [h])⟩, fun attrs rels h => h2 attrs rels (by simp [h])⟩

end Scallop.Attr
