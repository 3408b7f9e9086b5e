import Verif.Spec.Csv
import Mathlib.Data.Nat.Digits.Lemmas

/-! # Facts in files: lemmas -/

namespace Scallop.Csv

open Scallop.Input (DynTag)

variable {K : Type*}

/-! ## Numbers -/

theorem digit_char (d : Fin 10) : digit (Char.ofNat (48 + d.val)) = some d.val := by
  revert d; decide

theorem digit_some {c : Char} {d : Nat} (h : digit c = some d) : ∃ x : Fin 10, c = Char.ofNat (48 + x.val) ∧ d = x.val := by
  unfold digit at h
  split at h
  · rename_i hc
    obtain rfl := Option.some.inj h
    have h1 : 48 ≤ c.toNat := hc.1
    have h2 : c.toNat ≤ 57 := hc.2
    have h0 : ('0' : Char).toNat = 48 := rfl
    refine ⟨⟨c.toNat - 48, by omega⟩, ?_, by rw [h0]⟩
    have : 48 + (c.toNat - 48) = c.toNat := by omega
    simp only [this]
    exact (Char.ofNat_toNat c).symm
  · simp at h

theorem parseDigits_map : ∀ (ds : List (Fin 10)) (n : Nat),
    parseDigits n (ds.map (fun d => Char.ofNat (48 + d.val))) = some (n * 10 ^ ds.length + Nat.ofDigits 10 (ds.reverse.map Fin.val))
  | [], n => by simp [parseDigits]
  | d :: ds, n => by
    simp only [List.map_cons, parseDigits, digit_char, Option.bind_some, parseDigits_map ds]
    simp only [List.reverse_cons, List.map_append, List.map_cons, List.map_nil, Nat.ofDigits_append, List.length_map, List.length_reverse, List.length_cons,
      Nat.ofDigits_singleton, Option.some.injEq]
    ring

theorem parseDigits_some : ∀ (t : Text) (n m : Nat), parseDigits n t = some m → ∃ ds : List (Fin 10), t = ds.map (fun d => Char.ofNat (48 + d.val))
  | [], _, _, _ => ⟨[], rfl⟩
  | c :: t, n, m, h => by
    unfold parseDigits at h
    cases hd : digit c with
    | none => rw [hd] at h; simp at h
    | some d =>
      rw [hd] at h
      obtain ⟨x, hx, _⟩ := digit_some hd
      obtain ⟨ds, hds⟩ := parseDigits_some t _ m h
      exact ⟨x :: ds, by rw [hx, hds]; rfl⟩

theorem numeral_iff (t : Text) (n : Nat) : (if t = [] then none else parseDigits 0 t) = some n ↔ IsNumeral t n := by
  constructor
  · intro h
    split at h
    · simp at h
    · rename_i ht
      obtain ⟨ds, hds⟩ := parseDigits_some t 0 n h
      refine ⟨ds, ?_, hds, ?_⟩
      · rintro rfl; exact ht hds
      · rw [hds, parseDigits_map] at h
        simpa using h.symm
  · rintro ⟨ds, hne, rfl, rfl⟩
    rw [if_neg (by simpa using hne), parseDigits_map]
    simp

theorem numeral_head {t : Text} {n : Nat} (h : IsNumeral t n) : ∃ (d : Fin 10) (t' : Text), t = Char.ofNat (48 + d.val) :: t' := by
  obtain ⟨ds, hne, rfl, _⟩ := h
  cases ds with
  | nil => exact absurd rfl hne
  | cons d ds => exact ⟨d, _, rfl⟩

theorem digit_ne (d : Fin 10) : Char.ofNat (48 + d.val) ≠ '+' ∧ Char.ofNat (48 + d.val) ≠ '-' := by
  revert d; decide

theorem numeral_not_plus {t : Text} {n : Nat} : ¬IsNumeral ('+' :: t) n := by
  intro h
  obtain ⟨d, t', h1⟩ := numeral_head h
  exact (digit_ne d).1 (List.cons.inj h1).1.symm

theorem numeral_not_minus {t : Text} {n : Nat} : ¬IsNumeral ('-' :: t) n := by
  intro h
  obtain ⟨d, t', h1⟩ := numeral_head h
  exact (digit_ne d).2 (List.cons.inj h1).1.symm

theorem numeral_unique {t : Text} {n m : Nat} (h : IsNumeral t n) (h' : IsNumeral t m) : n = m := by
  rw [← numeral_iff] at h h'
  rw [h] at h'
  exact Option.some.inj h'

theorem range_iff (signed : Bool) (bits : Nat) (i j : Int) :
    (if (if signed then -(2 ^ (bits - 1) : Int) ≤ i ∧ i < 2 ^ (bits - 1) else 0 ≤ i ∧ i < (2 : Int) ^ bits) then some i else none) = some j ↔ i = j ∧ InRange signed bits j := by
  unfold InRange
  by_cases h : (if signed = true then -(2 ^ (bits - 1) : Int) ≤ i ∧ i < 2 ^ (bits - 1) else 0 ≤ i ∧ i < (2 : Int) ^ bits)
  · rw [if_pos h]
    constructor
    · intro hij
      obtain rfl := Option.some.inj hij
      exact ⟨rfl, h⟩
    · rintro ⟨rfl, _⟩; rfl
  · rw [if_neg h]
    constructor
    · intro hij; simp at hij
    · rintro ⟨rfl, h'⟩; exact absurd h' h

theorem parseInt_iff (signed : Bool) (bits : Nat) (t : Text) (i : Int) : parseInt signed bits t = some i ↔ IntText signed bits t i := by
  unfold parseInt IntText
  rw [Option.bind_eq_some_iff]
  constructor
  · rintro ⟨j, hj, hr⟩
    obtain ⟨rfl, hr⟩ := (range_iff signed bits j i).mp hr
    refine ⟨hr, ?_⟩
    split at hj
    · rename_i cs
      obtain ⟨n, hn, rfl⟩ := Option.map_eq_some_iff.mp hj
      exact Or.inl ⟨n, rfl, Or.inr ⟨cs, rfl, (numeral_iff _ _).mp hn⟩⟩
    · rename_i cs
      split at hj
      · rename_i hs
        obtain ⟨n, hn, rfl⟩ := Option.map_eq_some_iff.mp hj
        exact Or.inr ⟨hs, n, cs, Int.negOfNat_eq, rfl, (numeral_iff _ _).mp hn⟩
      · simp at hj
    · obtain ⟨n, hn, rfl⟩ := Option.map_eq_some_iff.mp hj
      exact Or.inl ⟨n, rfl, Or.inl ((numeral_iff _ _).mp hn)⟩
  · rintro ⟨hr, h⟩
    refine ⟨i, ?_, (range_iff signed bits i i).mpr ⟨rfl, hr⟩⟩
    rcases h with ⟨n, rfl, h | ⟨t', rfl, h⟩⟩ | ⟨hs, n, t', rfl, rfl, h⟩
    · split
      · exact absurd h numeral_not_plus
      · exact absurd h numeral_not_minus
      · exact congrArg (Option.map Int.ofNat) ((numeral_iff _ _).mpr h)
    · exact congrArg (Option.map Int.ofNat) ((numeral_iff _ _).mpr h)
    · simp only [hs, if_true]
      exact (congrArg (Option.map Int.negOfNat) ((numeral_iff _ _).mpr h)).trans (by simp [Int.negOfNat_eq])

theorem showNatLoop_numeral : ∀ (fuel n : Nat), n < fuel → IsNumeral (showNatLoop fuel n) n
  | 0, n, h => by omega
  | fuel + 1, n, h => by
    unfold showNatLoop
    have hch : ∀ d : Fin 10, digitChar d.val = Char.ofNat (48 + d.val) := fun _ => rfl
    split
    · rename_i hn
      exact ⟨[⟨n, hn⟩], by simp, by rw [show digitChar n = Char.ofNat (48 + n) from rfl]; rfl, by simp⟩
    · rename_i hn
      have hlt : n / 10 < fuel := by omega
      obtain ⟨ds, hne, h1, h2⟩ := showNatLoop_numeral fuel (n / 10) hlt
      refine ⟨ds ++ [⟨n % 10, Nat.mod_lt _ (by omega)⟩], by simp, ?_, ?_⟩
      · rw [h1, List.map_append]; rfl
      · rw [List.reverse_append]
        simp only [List.reverse_cons, List.reverse_nil, List.nil_append, List.cons_append, List.map_cons, Nat.ofDigits_cons, ← h2]
        have := Nat.div_add_mod n 10
        omega

theorem showNat_numeral (n : Nat) : IsNumeral (showNat n) n := showNatLoop_numeral (n + 1) n (Nat.lt_succ_self n)

theorem showInt_text (signed : Bool) (bits : Nat) (i : Int) (h : InRange signed bits i) : IntText signed bits (showInt i) i := by
  refine ⟨h, ?_⟩
  unfold showInt
  split
  · rename_i hi
    refine Or.inr ⟨?_, i.natAbs, showNat i.natAbs, by omega, rfl, showNat_numeral _⟩
    cases signed with
    | true => rfl
    | false => exact absurd h.1 (by simpa using hi)
  · exact Or.inl ⟨i.natAbs, by omega, Or.inl (showNat_numeral _)⟩

/-! ## Values -/

theorem parse_iff (F : FloatText K) (ty : Ty) (t : Text) (v : Val K) : parse F ty t = .ok v ↔ Reads F ty t v := by
  have hne : ¬("false".toList = "true".toList) := by decide
  cases ty with
  | int s b =>
    unfold parse Reads
    constructor
    · intro h
      simp only at h
      split at h
      · rename_i i hi
        exact Or.inl ⟨s, b, i, rfl, (Except.ok.inj h).symm, (parseInt_iff s b t i).mp hi⟩
      · simp at h
    · rintro (⟨s', b', i, h1, rfl, h3⟩ | ⟨_, h, _⟩ | ⟨h, _⟩ | ⟨h, _⟩ | ⟨_, h, _⟩ | ⟨_, h, _⟩)
      · obtain ⟨rfl, rfl⟩ := Ty.int.inj h1
        simp only [(parseInt_iff s b t i).mpr h3]
      all_goals cases h
  | float =>
    unfold parse Reads
    constructor
    · intro h
      simp only at h
      split at h
      · rename_i f hf
        exact Or.inr (Or.inl ⟨f, rfl, (Except.ok.inj h).symm, hf⟩)
      · simp at h
    · rintro (⟨_, _, _, h, _⟩ | ⟨f, _, rfl, hf⟩ | ⟨h, _⟩ | ⟨h, _⟩ | ⟨_, h, _⟩ | ⟨_, h, _⟩)
      on_goal 2 => simp only [hf]
      all_goals cases h
  | bool =>
    unfold parse Reads
    constructor
    · intro h
      simp only at h
      split at h
      · rename_i ht
        exact Or.inr (Or.inr (Or.inl ⟨rfl, (Except.ok.inj h).symm, ht⟩))
      · split at h
        · rename_i ht
          exact Or.inr (Or.inr (Or.inr (Or.inl ⟨rfl, (Except.ok.inj h).symm, ht⟩)))
        · simp at h
    · rintro (⟨_, _, _, h, _⟩ | ⟨_, h, _⟩ | ⟨_, rfl, rfl⟩ | ⟨_, rfl, rfl⟩ | ⟨_, h, _⟩ | ⟨_, h, _⟩)
      on_goal 3 => exact if_pos rfl
      on_goal 3 => exact (if_neg hne).trans (if_pos rfl)
      all_goals cases h
  | char =>
    unfold parse Reads
    constructor
    · intro h
      simp only at h
      split at h
      · rename_i c
        exact Or.inr (Or.inr (Or.inr (Or.inr (Or.inl ⟨c, rfl, (Except.ok.inj h).symm, rfl⟩))))
      · simp at h
    · rintro (⟨_, _, _, h, _⟩ | ⟨_, h, _⟩ | ⟨h, _⟩ | ⟨h, _⟩ | ⟨_, _, rfl, rfl⟩ | ⟨_, h, _⟩)
      on_goal 5 => rfl
      all_goals cases h
  | string => simp [parse, Reads, eq_comm]
  | symbol => simp [parse, Reads]
  | «opaque» => simp [parse, Reads]

theorem parseTag_iff (F : FloatText K) (t : Text) (tag : DynTag K) : parseTag F t = some tag ↔ TagReads F t tag := by
  have hne : ¬("false".toList = "true".toList) := by decide
  unfold parseTag TagReads
  by_cases h1 : t = "true".toList
  · subst h1
    rw [if_pos rfl]
    constructor
    · intro h; exact Or.inl ⟨rfl, (Option.some.inj h).symm⟩
    · rintro (⟨_, rfl⟩ | ⟨h, _⟩ | ⟨h, _⟩)
      · rfl
      · exact absurd h.symm hne
      · exact absurd rfl h
  · rw [if_neg h1]
    by_cases h2 : t = "false".toList
    · subst h2
      rw [if_pos rfl]
      constructor
      · intro h; exact Or.inr (Or.inl ⟨rfl, (Option.some.inj h).symm⟩)
      · rintro (⟨h, _⟩ | ⟨_, rfl⟩ | ⟨_, h, _⟩)
        · exact absurd h hne
        · rfl
        · exact absurd rfl h
    · rw [if_neg h2]
      constructor
      · intro h
        obtain ⟨f, hf, rfl⟩ := Option.map_eq_some_iff.mp h
        exact Or.inr (Or.inr ⟨h1, h2, f, hf, rfl⟩)
      · rintro (⟨h, _⟩ | ⟨h, _⟩ | ⟨_, _, f, hf, rfl⟩)
        · exact absurd h h1
        · exact absurd h h2
        · rw [hf]; rfl

/-! ## Collecting -/

theorem collect_iff {α β ε : Type*} (f : α → Except ε β) : ∀ (l : List α) (r : List β), collect f l = .ok r ↔ List.Forall₂ (fun a b => f a = .ok b) l r
  | [], r => by cases r <;> simp [collect]
  | a :: as, r => by
    unfold collect
    cases h : f a with
    | error e =>
      simp only [reduceCtorEq, false_iff]
      intro hf
      cases hf with
      | cons h1 _ => rw [h] at h1; simp at h1
    | ok b =>
      cases h2 : collect f as with
      | error e =>
        simp only [reduceCtorEq, false_iff]
        intro hf
        cases hf with
        | cons _ h3 => rw [(collect_iff f as _).mpr h3] at h2; simp at h2
      | ok bs =>
        simp only [Except.ok.injEq]
        constructor
        · rintro rfl
          exact .cons h ((collect_iff f as bs).mp h2)
        · intro hf
          cases hf with
          | cons h1 h3 =>
            rw [h] at h1
            rw [(collect_iff f as _).mpr h3] at h2
            obtain rfl := Except.ok.inj h1
            obtain rfl := Except.ok.inj h2
            rfl

theorem forall₂_get {α β : Type*} {R : α → β → Prop} : ∀ {l : List α} {r : List β}, List.Forall₂ R l r ↔
    r.length = l.length ∧ ∀ (j : Nat) a b, l[j]? = some a → r[j]? = some b → R a b
  | [], [] => by simp
  | [], b :: r => by simp
  | a :: l, [] => by simp
  | a :: l, b :: r => by
    rw [List.forall₂_cons, forall₂_get]
    constructor
    · rintro ⟨h1, h2, h3⟩
      refine ⟨by simp [h2], fun j => ?_⟩
      cases j with
      | zero => rintro a' b' ha hb; simp at ha hb; subst ha; subst hb; exact h1
      | succ j => intro a' b' ha hb; exact h3 j a' b' (by simpa using ha) (by simpa using hb)
    · rintro ⟨h1, h2⟩
      exact ⟨h2 0 a b rfl rfl, by simpa using h1, fun j a' b' ha hb => h2 (j + 1) a' b' (by simpa using ha) (by simpa using hb)⟩

/-! ## Rows -/

theorem rowTag_iff (F : FloatText K) (p : Bool) (row : List Text) (tag : DynTag K) : rowTag F p row = .ok tag ↔ RowTag F p row tag := by
  unfold rowTag RowTag
  cases p with
  | false => simp [eq_comm]
  | true =>
    simp only [if_true]
    cases row with
    | nil => simp
    | cons t cells =>
      simp only [List.getElem?_cons_zero]
      cases h : parseTag F t with
      | none =>
        simp only [reduceCtorEq, false_iff]
        rintro ⟨t', cells', h1, h2⟩
        obtain ⟨rfl, rfl⟩ := List.cons.inj h1
        rw [(parseTag_iff F t tag).mpr h2] at h; simp at h
      | some tag' =>
        simp only [Except.ok.injEq]
        constructor
        · rintro rfl; exact ⟨t, cells, rfl, (parseTag_iff F t tag').mp h⟩
        · rintro ⟨t', cells', h1, h2⟩
          obtain ⟨rfl, rfl⟩ := List.cons.inj h1
          rw [(parseTag_iff F t tag).mpr h2] at h
          exact (Option.some.inj h).symm

theorem rawRow_iff (F : FloatText K) (p : Bool) (types : List Ty) (row : List Text) (f : DynTag K × List (Val K)) :
    rawRow F p types row = .ok f ↔ row.length = types.length + (if p then 1 else 0) ∧ RowTag F p row f.1 ∧ RowReads F types (row.drop (if p then 1 else 0)) f.2 := by
  unfold rawRow
  by_cases hl : row.length = types.length + (if p then 1 else 0)
  · simp only [ne_eq, hl, not_true_eq_false, if_false, true_and]
    have hdl : (row.drop (if p then 1 else 0)).length = types.length := by simp [hl]
    have hcol : ∀ vs, collect (fun q => parse F q.2 q.1) ((row.drop (if p then 1 else 0)).zip types) = .ok vs ↔ RowReads F types (row.drop (if p then 1 else 0)) vs := by
      intro vs
      rw [collect_iff, forall₂_get]
      unfold RowReads
      constructor
      · rintro ⟨h1, h2⟩
        refine ⟨hdl, by rw [h1]; simp [hdl], fun j ty t v ht hc hv => ?_⟩
        exact (parse_iff F ty t v).mp (h2 j (t, ty) v (by rw [List.getElem?_zip_eq_some]; exact ⟨hc, ht⟩) hv)
      · rintro ⟨_, h2, h3⟩
        refine ⟨by rw [h2]; simp [hdl], fun j q v hq hv => ?_⟩
        rw [List.getElem?_zip_eq_some] at hq
        exact (parse_iff F q.2 q.1 v).mpr (h3 j q.2 q.1 v hq.2 hq.1 hv)
    cases ht : rowTag F p row with
    | error e =>
      simp only [reduceCtorEq, false_iff]
      rintro ⟨h1, _⟩
      rw [(rowTag_iff F p row f.1).mpr h1] at ht; simp at ht
    | ok t =>
      cases hc : collect (fun q => parse F q.2 q.1) ((row.drop (if p then 1 else 0)).zip types) with
      | error e =>
        simp only [reduceCtorEq, false_iff]
        rintro ⟨_, h2⟩
        rw [(hcol f.2).mpr h2] at hc; simp at hc
      | ok vs =>
        simp only [Except.ok.injEq]
        constructor
        · rintro rfl
          exact ⟨(rowTag_iff F p row t).mp ht, (hcol vs).mp hc⟩
        · rintro ⟨h1, h2⟩
          rw [(rowTag_iff F p row f.1).mpr h1] at ht
          rw [(hcol f.2).mpr h2] at hc
          rw [← Except.ok.inj ht, ← Except.ok.inj hc]
  · simp only [ne_eq, hl, not_false_eq_true, if_true, reduceCtorEq, false_and]

theorem rawRow_fact (F : FloatText K) (p : Bool) (types : List Ty) (row : List Text) (f : DynTag K × List (Val K)) :
    rawRow F p types row = .ok f ↔ RawFact F p types row f := by
  rw [rawRow_iff]
  unfold RawFact
  refine ⟨And.right, fun h => ⟨?_, h⟩⟩
  obtain ⟨h1, h2, _⟩ := h
  cases p with
  | false => simpa [RowReads] using h2
  | true =>
    obtain ⟨t, cells, rfl, _⟩ := h1
    simp only [if_true, List.drop_succ_cons, List.drop_zero] at h2
    simp [h2]

/-! ## Headers -/

theorem headerId_some (c : Content) (h : Text) (i : Nat) (hi : c.headerId h = some i) : c.fields[i]? = some h := by
  unfold Content.headerId at hi
  obtain ⟨p, hp, rfl⟩ := Option.map_eq_some_iff.mp hi
  have hm := List.mem_of_getLast? hp
  obtain ⟨hm, hq⟩ := List.mem_filter.mp hm
  have := List.mem_zipIdx' hm
  rw [List.getElem?_eq_getElem this.1, ← this.2]
  simpa using hq

theorem headerId_none (c : Content) (h : Text) : c.headerId h = none ↔ h ∉ c.fields := by
  unfold Content.headerId
  rw [Option.map_eq_none_iff, List.getLast?_eq_none_iff, List.filter_eq_nil_iff]
  constructor
  · intro hn hm
    obtain ⟨i, hi, rfl⟩ := List.mem_iff_getElem.mp hm
    exact hn (c.fields[i], i) (List.mem_zipIdx_iff_getElem?.mpr (by simp [hi])) (by simp)
  · rintro hn ⟨x, i⟩ hm hx
    have := List.mem_zipIdx' hm
    simp only [decide_eq_true_eq] at hx
    subst hx
    exact hn (by rw [this.2]; exact List.getElem_mem _)

theorem headerId_iff (c : Content) (hd : c.fields.Nodup) (h : Text) (i : Nat) : c.headerId h = some i ↔ c.fields[i]? = some h := by
  refine ⟨headerId_some c h i, fun hi => ?_⟩
  cases hc : c.headerId h with
  | none => exact absurd (List.mem_of_getElem? hi) ((headerId_none c h).mp hc)
  | some j =>
    have hj := headerId_some c h j hc
    obtain ⟨hi1, hi2⟩ := List.getElem?_eq_some_iff.mp hi
    obtain ⟨hj1, hj2⟩ := List.getElem?_eq_some_iff.mp hj
    rw [(List.Nodup.getElem_inj_iff hd).mp (hi2.trans hj2.symm)]

theorem columns_iff (c : Content) (hs : List Text) (types : List Ty) (cols : List (Nat × Ty)) (hl : hs.length ≤ types.length) :
    columns c hs types = .ok cols ↔ cols.length = hs.length ∧
      ∀ (j : Nat) h ty q, hs[j]? = some h → types[j]? = some ty → cols[j]? = some q → c.headerId h = some q.1 ∧ q.2 = ty := by
  unfold columns
  rw [collect_iff, forall₂_get]
  have hz : (hs.zip types).length = hs.length := by simp [hl]
  rw [hz]
  refine and_congr_right (fun _ => ?_)
  constructor
  · intro h j hh ty q h1 h2 h3
    have := h j (hh, ty) q (by rw [List.getElem?_zip_eq_some]; exact ⟨h1, h2⟩) h3
    simp only at this
    split at this
    · simp at this
    · rename_i i hi
      obtain rfl := Except.ok.inj this
      exact ⟨hi, rfl⟩
  · intro h j p q hp hq
    rw [List.getElem?_zip_eq_some] at hp
    obtain ⟨h1, h2⟩ := h j p.1 p.2 q hp.1 hp.2 hq
    simp [h1, ← h2]

theorem cell_iff (F : FloatText K) (row : List Text) (q : Nat × Ty) (v : Val K) : cell F row q = .ok v ↔ ∃ t, row[q.1]? = some t ∧ Reads F q.2 t v := by
  unfold cell
  cases h : row[q.1]? with
  | none => simp
  | some t => simp [parse_iff]

/-- The cells of some columns are the values under their headers. -/
theorem cells_iff (F : FloatText K) (c : Content) (hd : c.fields.Nodup) (hs : List Text) (types : List Ty) (hl : hs.length ≤ types.length) (cols : List (Nat × Ty))
    (hc : columns c hs types = .ok cols) (row : List Text) (vs : List (Val K)) : collect (cell F row) cols = .ok vs ↔ FieldsRead F c.fields hs types row vs := by
  obtain ⟨hc1, hc2⟩ := (columns_iff c hs types cols hl).mp hc
  rw [collect_iff, forall₂_get]
  unfold FieldsRead
  rw [hc1]
  refine and_congr_right (fun hv => ?_)
  have hget : ∀ (j : Nat), j < hs.length → ∃ h ty q, hs[j]? = some h ∧ types[j]? = some ty ∧ cols[j]? = some q ∧ c.fields[q.1]? = some h ∧ q.2 = ty := by
    intro j hj
    have h1 : hs[j]? = some hs[j] := List.getElem?_eq_getElem hj
    have h2 : types[j]? = some types[j] := List.getElem?_eq_getElem (by omega)
    have h3 : cols[j]? = some cols[j] := List.getElem?_eq_getElem (by omega)
    obtain ⟨h4, h5⟩ := hc2 j _ _ _ h1 h2 h3
    exact ⟨_, _, _, h1, h2, h3, headerId_some c _ _ h4, h5⟩
  constructor
  · intro h j hh ty v h1 h2 h3
    obtain ⟨hh', ty', q, g1, g2, g3, g4, g5⟩ := hget j (List.getElem?_eq_some_iff.mp h1).1
    rw [h1] at g1; rw [h2] at g2
    obtain rfl := Option.some.inj g1
    obtain rfl := Option.some.inj g2
    obtain ⟨t, ht, hr⟩ := (cell_iff F row q v).mp (h j q v g3 h3)
    exact ⟨t, ⟨q.1, g4, ht⟩, g5 ▸ hr⟩
  · intro h j q v h1 h2
    have hj : j < hs.length := by rw [← hc1]; exact (List.getElem?_eq_some_iff.mp h1).1
    obtain ⟨hh', ty', q', g1, g2, g3, g4, g5⟩ := hget j hj
    rw [h1] at g3
    obtain rfl := Option.some.inj g3
    obtain ⟨t, ⟨i, hi, ht⟩, hr⟩ := h j hh' ty' v g1 g2 h2
    rw [cell_iff]
    have e1 := (headerId_iff c hd hh' i).mpr hi
    rw [(headerId_iff c hd hh' q.1).mpr g4] at e1
    obtain rfl := Option.some.inj e1
    exact ⟨t, ht, g5 ▸ hr⟩

theorem fieldsRow_iff (F : FloatText K) (p : Bool) (c : Content) (hd : c.fields.Nodup) (hs : List Text) (types : List Ty) (hl : hs.length ≤ types.length) (cols : List (Nat × Ty))
    (hc : columns c hs types = .ok cols) (row : List Text) (f : DynTag K × List (Val K)) : fieldsRow F p cols row = .ok f ↔ FieldsFact F p c.fields hs types row f := by
  unfold fieldsRow FieldsFact
  have hcol := cells_iff F c hd hs types hl cols hc row
  cases ht : rowTag F p row with
  | error e =>
    simp only [reduceCtorEq, false_iff]
    rintro ⟨h1, _⟩
    rw [(rowTag_iff F p row f.1).mpr h1] at ht; simp at ht
  | ok t =>
    cases hcc : collect (cell F row) cols with
    | error e =>
      simp only [reduceCtorEq, false_iff]
      rintro ⟨_, h2⟩
      rw [(hcol f.2).mpr h2] at hcc; simp at hcc
    | ok vs =>
      simp only [Except.ok.injEq]
      constructor
      · rintro rfl
        exact ⟨(rowTag_iff F p row t).mp ht, (hcol vs).mp hcc⟩
      · rintro ⟨h1, h2⟩
        rw [(rowTag_iff F p row f.1).mpr h1] at ht
        rw [(hcol f.2).mpr h2] at hcc
        rw [← Except.ok.inj ht, ← Except.ok.inj hcc]

theorem columns_ok (c : Content) (hs : List Text) (types : List Ty) (hl : hs.length ≤ types.length) :
    (∃ cols, columns c hs types = .ok cols) ↔ ∀ h ∈ hs, h ∈ c.fields := by
  constructor
  · rintro ⟨cols, hc⟩ h hh
    obtain ⟨h1, h2⟩ := (columns_iff c hs types cols hl).mp hc
    obtain ⟨j, hj, rfl⟩ := List.mem_iff_getElem.mp hh
    obtain ⟨h3, _⟩ := h2 j _ _ _ (List.getElem?_eq_getElem hj) (List.getElem?_eq_getElem (by omega)) (List.getElem?_eq_getElem (by omega : j < cols.length))
    exact List.mem_of_getElem? (headerId_some c _ _ h3)
  · intro h
    refine ⟨(hs.zip types).map (fun p => ((c.headerId p.1).getD 0, p.2)), ?_⟩
    rw [columns_iff c hs types _ hl]
    refine ⟨by simp [hl], fun j hh ty q h1 h2 h3 => ?_⟩
    have hz : (hs.zip types)[j]? = some (hh, ty) := by rw [List.getElem?_zip_eq_some]; exact ⟨h1, h2⟩
    rw [List.getElem?_map, hz] at h3
    obtain rfl := Option.some.inj h3
    cases hid : c.headerId hh with
    | none => exact absurd (h hh (List.mem_of_getElem? h1)) ((headerId_none c hh).mp hid)
    | some i => exact ⟨by simp [hid], rfl⟩

/-- Distinct cells have distinct columns. -/
theorem zipIdx_nodup (row : List Text) : (row.zipIdx.map Prod.snd).Nodup := by
  rw [List.zipIdx_map_snd]
  exact List.nodup_range'

/-- The cells of a row that keys leave. -/
def restOf (probability : Bool) (keys : List (Nat × Ty)) (only : Option (List Nat)) (row : List Text) : List (Text × Nat) :=
  (row.zipIdx.drop (if probability then 1 else 0)).filter
    (fun p => !(keys.any (fun k => k.1 == p.2)) && (match only with | none => true | some is => is.contains p.2))

theorem mem_restOf (probability : Bool) (keys : List (Nat × Ty)) (only : Option (List Nat)) (row : List Text) (t : Text) (i : Nat) :
    (t, i) ∈ restOf probability keys only row ↔ row[i]? = some t ∧ (probability = true → i ≠ 0) ∧ (∀ k ∈ keys, k.1 ≠ i) ∧ ∀ is, only = some is → i ∈ is := by
  unfold restOf
  rw [List.mem_filter]
  have hm : (t, i) ∈ row.zipIdx.drop (if probability then 1 else 0) ↔ row[i]? = some t ∧ (probability = true → i ≠ 0) := by
    cases probability with
    | false => simp [List.mem_zipIdx_iff_getElem?]
    | true =>
      simp only [if_true, forall_const]
      cases row with
      | nil => simp
      | cons r row =>
        simp only [List.zipIdx_cons, List.drop_succ_cons, List.drop_zero]
        rw [List.mem_zipIdx_iff_le_and_getElem?_sub]
        cases i with
        | zero => simp
        | succ i => simp
  rw [hm, and_assoc]
  refine and_congr_right (fun _ => and_congr_right (fun _ => ?_))
  rw [Bool.and_eq_true]
  refine and_congr ?_ ?_
  · simp [List.any_eq_false]
  · cases only with
    | none => simp
    | some is => simp

theorem restOf_nodup (probability : Bool) (keys : List (Nat × Ty)) (only : Option (List Nat)) (row : List Text) : ((restOf probability keys only row).map Prod.snd).Nodup := by
  refine List.Nodup.sublist ?_ (zipIdx_nodup row)
  unfold restOf
  exact ((List.filter_sublist).trans (List.drop_sublist _ _)).map Prod.snd

theorem keysRow_eq (F : FloatText K) (probability : Bool) (c : Content) (keys : List (Nat × Ty)) (only : Option (List Nat)) (row : List Text)
    (rs : List (DynTag K × List (Val K))) : keysRow F probability c keys only row = .ok rs ↔
      ∃ t ks fv, RowTag F probability row t ∧ collect (cell F row) keys = .ok ks ∧ collect (fieldValue c) (restOf probability keys only row) = .ok fv ∧
        rs = fv.map (fun v => (t, ks ++ v)) := by
  unfold keysRow
  cases ht : rowTag F probability row with
  | error e =>
    simp only [reduceCtorEq, false_iff]
    rintro ⟨t, ks, fv, h1, _⟩
    rw [(rowTag_iff F probability row t).mpr h1] at ht; simp at ht
  | ok t =>
    have ht' := (rowTag_iff F probability row t).mp ht
    cases hk : collect (cell F row) keys with
    | error e => simp
    | ok ks =>
      simp only
      change (match collect (fieldValue c) (restOf probability keys only row) with | .error e => Except.error e | .ok fv => .ok (fv.map (fun v => (t, ks ++ v)))) = .ok rs ↔ _
      cases hf : collect (fieldValue c) (restOf probability keys only row) with
      | error e => simp
      | ok fv =>
        simp only [Except.ok.injEq]
        constructor
        · rintro rfl; exact ⟨t, ks, fv, ht', rfl, rfl, rfl⟩
        · rintro ⟨t', ks', fv', h1, rfl, rfl, rfl⟩
          rw [(rowTag_iff F probability row t').mpr h1] at ht
          rw [Except.ok.inj ht]

theorem fieldValue_iff (c : Content) (p : Text × Nat) (v : List (Val K)) : fieldValue c p = .ok v ↔ ∃ h, c.fields[p.2]? = some h ∧ v = [.symbol h, .string p.1] := by
  unfold fieldValue
  cases c.fields[p.2]? with
  | none => simp
  | some h => simp [eq_comm]

theorem mem_fieldValues (c : Content) (l : List (Text × Nat)) (fv : List (List (Val K))) (h : collect (fieldValue c) l = .ok fv) (v : List (Val K)) :
    v ∈ fv ↔ ∃ t i x, (t, i) ∈ l ∧ c.fields[i]? = some x ∧ v = [.symbol x, .string t] := by
  obtain ⟨h1, h2⟩ := forall₂_get.mp ((collect_iff _ l fv).mp h)
  constructor
  · intro hv
    obtain ⟨j, hj, rfl⟩ := List.mem_iff_getElem.mp hv
    have hl : j < l.length := by omega
    obtain ⟨x, hx1, hx2⟩ := (fieldValue_iff c _ _).mp (h2 j _ _ (List.getElem?_eq_getElem hl) (List.getElem?_eq_getElem hj))
    exact ⟨l[j].1, l[j].2, x, List.getElem_mem _, hx1, hx2⟩
  · rintro ⟨t, i, x, hm, hx, rfl⟩
    obtain ⟨j, hj, hjj⟩ := List.mem_iff_getElem.mp hm
    have hl : j < fv.length := by omega
    obtain ⟨y, hy1, hy2⟩ := (fieldValue_iff c _ _).mp (h2 j _ _ (List.getElem?_eq_getElem hj) (List.getElem?_eq_getElem hl))
    rw [hjj] at hy1 hy2
    rw [hx] at hy1
    obtain rfl := Option.some.inj hy1
    exact hy2 ▸ List.getElem_mem _

theorem fieldValues_nodup (c : Content) (hd : c.fields.Nodup) (l : List (Text × Nat)) (hl : (l.map Prod.snd).Nodup) (fv : List (List (Val K)))
    (h : collect (fieldValue c) l = .ok fv) : fv.Nodup := by
  obtain ⟨h1, h2⟩ := forall₂_get.mp ((collect_iff _ l fv).mp h)
  rw [List.nodup_iff_injective_get]
  rintro ⟨a, ha⟩ ⟨b, hb⟩ hab
  simp only [List.get_eq_getElem] at hab
  obtain ⟨x, hx1, hx2⟩ := (fieldValue_iff c _ _).mp (h2 a _ _ (List.getElem?_eq_getElem (by omega)) (List.getElem?_eq_getElem ha))
  obtain ⟨y, hy1, hy2⟩ := (fieldValue_iff c _ _).mp (h2 b _ _ (List.getElem?_eq_getElem (by omega)) (List.getElem?_eq_getElem hb))
  rw [hx2, hy2] at hab
  simp only [List.cons.injEq, Val.symbol.injEq] at hab
  obtain ⟨rfl, _⟩ := hab
  obtain ⟨g1, g2⟩ := List.getElem?_eq_some_iff.mp hx1
  obtain ⟨g3, g4⟩ := List.getElem?_eq_some_iff.mp hy1
  have e := (List.Nodup.getElem_inj_iff hd).mp (g2.trans g4.symm)
  have := (List.Nodup.getElem_inj_iff (i := a) (j := b) hl (hi := by simp; omega) (hj := by simp; omega)).mp (by simpa using e)
  simp [this]

/-- The columns of the keys are the columns with their headers. -/
theorem columns_mem (c : Content) (hd : c.fields.Nodup) (hs : List Text) (types : List Ty) (hl : hs.length ≤ types.length) (cols : List (Nat × Ty))
    (hc : columns c hs types = .ok cols) (i : Nat) (h : Text) (hi : c.fields[i]? = some h) : (∀ k ∈ cols, k.1 ≠ i) ↔ h ∉ hs := by
  obtain ⟨h1, h2⟩ := (columns_iff c hs types cols hl).mp hc
  constructor
  · intro hk hm
    obtain ⟨j, hj, rfl⟩ := List.mem_iff_getElem.mp hm
    obtain ⟨h3, _⟩ := h2 j _ _ _ (List.getElem?_eq_getElem hj) (List.getElem?_eq_getElem (by omega)) (List.getElem?_eq_getElem (by omega : j < cols.length))
    rw [(headerId_iff c hd _ i).mpr hi] at h3
    exact hk _ (List.getElem_mem _) (Option.some.inj h3).symm
  · rintro hn k hk rfl
    obtain ⟨j, hj, rfl⟩ := List.mem_iff_getElem.mp hk
    obtain ⟨h3, _⟩ := h2 j _ _ _ (List.getElem?_eq_getElem (by omega : j < hs.length)) (List.getElem?_eq_getElem (by omega)) (List.getElem?_eq_getElem hj)
    have := headerId_some c _ _ h3
    rw [hi] at this
    exact hn (Option.some.inj this ▸ List.getElem_mem _)

/-- The columns of some fields. -/
def onlyOf (c : Content) (fs : List Text) : Except Err (List Nat) := collect (fun f => match c.headerId f with | none => Except.error Err.field | some i => .ok i) fs

theorem onlyOf_iff (c : Content) (fs : List Text) (is : List Nat) : onlyOf c fs = .ok is ↔ List.Forall₂ (fun f i => c.headerId f = some i) fs is := by
  unfold onlyOf
  rw [collect_iff]
  have : ∀ f i, ((match c.headerId f with | none => Except.error Err.field | some i => .ok i) = (Except.ok i : Except Err Nat)) ↔ c.headerId f = some i := by
    intro f i
    cases c.headerId f <;> simp
  simp only [this]

theorem onlyOf_ok (c : Content) (fs : List Text) : (∃ is, onlyOf c fs = .ok is) ↔ ∀ f ∈ fs, f ∈ c.fields := by
  simp only [onlyOf_iff]
  induction fs with
  | nil => simp
  | cons f fs ih =>
    constructor
    · rintro ⟨is, h⟩
      cases h with
      | cons h1 h2 =>
        intro g hg
        rcases List.mem_cons.mp hg with rfl | hg
        · exact List.mem_of_getElem? (headerId_some c _ _ h1)
        · exact ih.mp ⟨_, h2⟩ g hg
    · intro h
      obtain ⟨is, his⟩ := ih.mpr (fun g hg => h g (List.mem_cons_of_mem _ hg))
      cases hid : c.headerId f with
      | none => exact absurd (h f (by simp)) ((headerId_none c f).mp hid)
      | some i => exact ⟨i :: is, .cons hid his⟩

theorem onlyOf_mem (c : Content) (hd : c.fields.Nodup) (fs : List Text) (is : List Nat) (h : onlyOf c fs = .ok is) (i : Nat) (x : Text) (hi : c.fields[i]? = some x) :
    i ∈ is ↔ x ∈ fs := by
  rw [onlyOf_iff] at h
  induction h with
  | nil => simp
  | cons h1 _ ih =>
    rw [List.mem_cons, List.mem_cons, ih]
    refine or_congr ?_ Iff.rfl
    rw [headerId_iff c hd] at h1
    constructor
    · rintro rfl
      rw [hi] at h1; exact Option.some.inj h1
    · rintro rfl
      have := (headerId_iff c hd x i).mpr hi
      rw [(headerId_iff c hd x _).mpr h1] at this
      exact (Option.some.inj this).symm

/-- A set of columns that says which fields to take. -/
def OnlyFor (c : Content) (fields : Option (List Text)) (only : Option (List Nat)) : Prop :=
  (fields = none ∧ only = none) ∨ ∃ fs is, fields = some fs ∧ only = some is ∧ onlyOf c fs = .ok is

theorem onlyFor_mem (c : Content) (hd : c.fields.Nodup) (fields : Option (List Text)) (only : Option (List Nat)) (h : OnlyFor c fields only) (i : Nat) (x : Text)
    (hi : c.fields[i]? = some x) : (∀ is, only = some is → i ∈ is) ↔ ∀ fs, fields = some fs → x ∈ fs := by
  rcases h with ⟨rfl, rfl⟩ | ⟨fs, is, rfl, rfl, h⟩
  · simp
  · have := onlyOf_mem c hd fs is h i x hi
    simp [this]

theorem keysRow_mem (F : FloatText K) (p : Bool) (c : Content) (hd : c.fields.Nodup) (hs : List Text) (types : List Ty) (hl : hs.length ≤ types.length)
    (cols : List (Nat × Ty)) (hc : columns c hs types = .ok cols) (fields : Option (List Text)) (only : Option (List Nat)) (ho : OnlyFor c fields only) (row : List Text)
    (rs : List (DynTag K × List (Val K))) (h : keysRow F p c cols only row = .ok rs) :
    rs.Nodup ∧ ∀ f, f ∈ rs ↔ KeysFact F p c.fields hs fields types row f := by
  obtain ⟨t, ks, fv, h1, h2, h3, rfl⟩ := (keysRow_eq F p c cols only row rs).mp h
  refine ⟨?_, fun f => ?_⟩
  · refine (fieldValues_nodup c hd _ (restOf_nodup p cols only row) fv h3).map ?_
    intro a b hab
    simpa using hab
  · rw [List.mem_map]
    constructor
    · rintro ⟨v, hv, rfl⟩
      obtain ⟨s, i, x, hm, hx, rfl⟩ := (mem_fieldValues c _ fv h3 v).mp hv
      obtain ⟨g1, g2, g3, g4⟩ := (mem_restOf p cols only row s i).mp hm
      refine ⟨h1, ks, i, x, s, (cells_iff F c hd hs types hl cols hc row ks).mp h2, rfl, hx, g1, g2, ?_, ?_⟩
      · exact (columns_mem c hd hs types hl cols hc i x hx).mp g3
      · exact (onlyFor_mem c hd fields only ho i x hx).mp g4
    · rintro ⟨g1, ks', i, x, s, g2, g3, g4, g5, g6, g7, g8⟩
      have e1 := (rowTag_iff F p row f.1).mpr g1
      rw [(rowTag_iff F p row t).mpr h1] at e1
      have e2 := (cells_iff F c hd hs types hl cols hc row ks').mpr g2
      rw [h2] at e2
      obtain rfl := Except.ok.inj e2
      refine ⟨[.symbol x, .string s], (mem_fieldValues c _ fv h3 _).mpr ⟨s, i, x, ?_, g4, rfl⟩, ?_⟩
      · rw [mem_restOf]
        exact ⟨g5, g6, (columns_mem c hd hs types hl cols hc i x g4).mpr g7, (onlyFor_mem c hd fields only ho i x g4).mpr g8⟩
      · rw [Except.ok.inj e1, ← g3]

theorem keysRow_ok (F : FloatText K) (p : Bool) (c : Content) (hd : c.fields.Nodup) (hs : List Text) (types : List Ty) (hl : hs.length ≤ types.length)
    (cols : List (Nat × Ty)) (hc : columns c hs types = .ok cols) (only : Option (List Nat)) (row : List Text) (hr : row.length = c.fields.length) :
    (∃ rs, keysRow F p c cols only row = .ok rs) ↔ (∃ t, RowTag F p row t) ∧ ∃ ks, FieldsRead F c.fields hs types row ks := by
  constructor
  · rintro ⟨rs, h⟩
    obtain ⟨t, ks, fv, h1, h2, _⟩ := (keysRow_eq F p c cols only row rs).mp h
    exact ⟨⟨t, h1⟩, ks, (cells_iff F c hd hs types hl cols hc row ks).mp h2⟩
  · rintro ⟨⟨t, h1⟩, ks, h2⟩
    have hfv : ∀ l : List (Text × Nat), (∀ q ∈ l, q.2 < c.fields.length) → ∃ fv : List (List (Val K)), collect (fieldValue c) l = .ok fv := by
      intro l
      induction l with
      | nil => intro _; exact ⟨[], rfl⟩
      | cons q l ih =>
        intro hq
        obtain ⟨fv, h⟩ := ih (fun q' hq' => hq q' (List.mem_cons_of_mem _ hq'))
        have := hq q (by simp)
        refine ⟨[.symbol c.fields[q.2], .string q.1] :: fv, ?_⟩
        rw [collect_iff]
        exact .cons ((fieldValue_iff c q _).mpr ⟨_, List.getElem?_eq_getElem this, rfl⟩) ((collect_iff _ _ _).mp h)
    obtain ⟨fv, h3⟩ := hfv (restOf p cols only row) (by
      rintro ⟨s, i⟩ hq
      have := ((mem_restOf p cols only row s i).mp hq).1
      rw [← hr]
      exact (List.getElem?_eq_some_iff.mp this).1)
    exact ⟨_, (keysRow_eq F p c cols only row _).mpr ⟨t, ks, fv, h1, (cells_iff F c hd hs types hl cols hc row ks).mpr h2, h3, rfl⟩⟩

theorem forall₂_exists {α β : Type*} {R : α → β → Prop} (l : List α) : (∃ r, List.Forall₂ R l r) ↔ ∀ a ∈ l, ∃ b, R a b := by
  induction l with
  | nil => simp
  | cons a l ih =>
    constructor
    · rintro ⟨r, h⟩
      cases h with
      | cons h1 h2 =>
        intro x hx
        rcases List.mem_cons.mp hx with rfl | hx
        · exact ⟨_, h1⟩
        · exact ih.mp ⟨_, h2⟩ x hx
    · intro h
      obtain ⟨b, hb⟩ := h a (by simp)
      obtain ⟨r, hr⟩ := ih.mpr (fun x hx => h x (List.mem_cons_of_mem _ hx))
      exact ⟨b :: r, .cons hb hr⟩

/-- What loading with keys is. -/
theorem loadKeys_eq (F : FloatText K) (keys : List Text) (fields : Option (List Text)) (p : Bool) (c : Content) (types : List Ty) (facts : List (DynTag K × List (Val K))) :
    loadKeys F keys fields p c types = .ok facts ↔ types.length = keys.length + 2 ∧ types.drop keys.length = [.symbol, .string] ∧
      ∃ cols only rss, columns c keys types = .ok cols ∧ OnlyFor c fields only ∧ List.Forall₂ (fun row rs => keysRow F p c cols only row = .ok rs) c.rows rss ∧
        facts = rss.flatten := by
  unfold loadKeys
  by_cases h1 : types.length = keys.length + 2
  · by_cases h2 : types.drop keys.length = [.symbol, .string]
    · simp only [h1, h2, ne_eq, not_true_eq_false, if_false, true_and]
      cases hc : columns c keys types with
      | error e => simp
      | ok cols =>
        cases fields with
        | none =>
          simp only [Except.ok.injEq]
          cases hr : collect (keysRow F p c cols none) c.rows with
          | error e =>
            simp only [reduceCtorEq, false_iff]
            rintro ⟨cols', only, rss, rfl, ⟨_, rfl⟩ | ⟨fs, is, h, _⟩, h4, _⟩
            · rw [(collect_iff _ _ _).mpr h4] at hr; simp at hr
            · simp at h
          | ok rss =>
            simp only [Except.ok.injEq]
            constructor
            · rintro rfl
              exact ⟨cols, none, rss, rfl, Or.inl ⟨rfl, rfl⟩, (collect_iff _ _ _).mp hr, rfl⟩
            · rintro ⟨cols', only, rss', rfl, ⟨_, rfl⟩ | ⟨fs, is, h, _⟩, h4, rfl⟩
              · rw [(collect_iff _ _ _).mpr h4] at hr
                rw [Except.ok.inj hr]
              · simp at h
        | some fs =>
          simp only [Except.ok.injEq]
          change (match onlyOf c fs with | .error e => Except.error e | .ok is => match collect (keysRow F p c cols (some is)) c.rows with
            | .error e => .error e | .ok rs => .ok rs.flatten) = .ok facts ↔ _
          cases ho : onlyOf c fs with
          | error e =>
            simp only [reduceCtorEq, false_iff]
            rintro ⟨cols', only, rss, rfl, ⟨h, _⟩ | ⟨fs', is, h, _, h5⟩, _⟩
            · simp at h
            · obtain rfl := Option.some.inj h
              rw [ho] at h5; simp at h5
          | ok is =>
            simp only
            cases hr : collect (keysRow F p c cols (some is)) c.rows with
            | error e =>
              simp only [reduceCtorEq, false_iff]
              rintro ⟨cols', only, rss, rfl, ⟨h, _⟩ | ⟨fs', is', h, rfl, h5⟩, h4, _⟩
              · simp at h
              · obtain rfl := Option.some.inj h
                rw [ho] at h5
                obtain rfl := Except.ok.inj h5
                rw [(collect_iff _ _ _).mpr h4] at hr; simp at hr
            | ok rss =>
              simp only [Except.ok.injEq]
              constructor
              · rintro rfl
                exact ⟨cols, some is, rss, rfl, Or.inr ⟨fs, is, rfl, rfl, ho⟩, (collect_iff _ _ _).mp hr, rfl⟩
              · rintro ⟨cols', only, rss', rfl, ⟨h, _⟩ | ⟨fs', is', h, rfl, h5⟩, h4, rfl⟩
                · simp at h
                · obtain rfl := Option.some.inj h
                  rw [ho] at h5
                  obtain rfl := Except.ok.inj h5
                  rw [(collect_iff _ _ _).mpr h4] at hr
                  rw [Except.ok.inj hr]
    · simp [h1, h2]
  · simp [h1]

/-! ## Registry -/

/-- What the registry has after loading. -/
theorem registry_keep (disk : Nat → Option File) : ∀ (os : List Options) (reg reg' : Registry), Registry.load disk reg os = .ok reg' →
    ∀ p c, reg.lookup p = some c → reg'.lookup p = some c
  | [], reg, reg', h, p, c, hp => by
    unfold Registry.load at h
    obtain rfl := Except.ok.inj h
    exact hp
  | o :: os, reg, reg', h, p, c, hp => by
    unfold Registry.load at h
    split at h
    · exact registry_keep disk os _ reg' h p c hp
    · split at h
      · simp at h
      · split at h
        · simp at h
        · refine registry_keep disk os _ reg' h p c ?_
          rw [List.lookup_append, hp]; rfl

theorem registry_first (disk : Nat → Option File) : ∀ (os : List Options) (reg reg' : Registry), Registry.load disk reg os = .ok reg' →
    ∀ o ∈ os, reg.lookup o.path = none → ∃ o' ∈ os, o'.path = o.path ∧ ∃ f, disk o.path = some f ∧ ∃ c, fromFile f o'.delim o'.header = .ok c ∧ reg'.lookup o.path = some c
  | [], _, _, _, o, ho, _ => by simp at ho
  | o₁ :: os, reg, reg', h, o, ho, hn => by
    unfold Registry.load at h
    split at h
    · rename_i c hc
      rcases List.mem_cons.mp ho with rfl | ho
      · rw [hn] at hc; simp at hc
      · obtain ⟨o', ho', r⟩ := registry_first disk os reg reg' h o ho hn
        exact ⟨o', List.mem_cons_of_mem _ ho', r⟩
    · rename_i hreg₁
      split at h
      · simp at h
      · rename_i f hf
        split at h
        · simp at h
        · rename_i c hc
          have hlk : (reg ++ [(o₁.path, c)]).lookup o₁.path = some c := by
            rw [List.lookup_append, hreg₁]; simp
          by_cases hp : o₁.path = o.path
          · exact ⟨o₁, by simp, hp, f, hp ▸ hf, c, hc, hp ▸ registry_keep disk os _ reg' h _ c hlk⟩
          · have ho : o ∈ os := by
              rcases List.mem_cons.mp ho with rfl | ho
              · exact absurd rfl hp
              · exact ho
            obtain ⟨o', ho', r⟩ := registry_first disk os _ reg' h o ho (by
              rw [List.lookup_append, hn]
              have : (o.path == o₁.path) = false := by simpa using fun e => hp e.symm
              simp [List.lookup_cons, this])
            exact ⟨o', List.mem_cons_of_mem _ ho', r⟩

/-! ## Symbols -/

/-- A registry of symbols that makes sense. -/
structure SymOK (s : Symbols) : Prop where
  ids : ∀ n i, s.ids.lookup n = some i ↔ s.names[i]? = some n
  nodup : s.names.Nodup

theorem symOK_new : SymOK Symbols.new := ⟨by simp [Symbols.new], by simp [Symbols.new]⟩

theorem symOK_register {s : Symbols} (h : SymOK s) (n : Text) : SymOK (s.register n).1 ∧ (s.register n).1.names[(s.register n).2]? = some n ∧ s.names <+: (s.register n).1.names := by
  unfold Symbols.register
  cases hl : s.ids.lookup n with
  | some i => exact ⟨h, (h.ids n i).mp hl, List.prefix_rfl⟩
  | none =>
    have hnm : n ∉ s.names := by
      intro hm
      obtain ⟨i, hi, rfl⟩ := List.mem_iff_getElem.mp hm
      have := (h.ids s.names[i] i).mpr (List.getElem?_eq_getElem hi)
      rw [hl] at this; simp at this
    refine ⟨⟨fun m i => ?_, ?_⟩, by simp, List.prefix_append _ _⟩
    · simp only [List.lookup_cons]
      by_cases hm : m = n
      · subst hm
        simp only [beq_self_eq_true, Option.some.injEq]
        constructor
        · rintro rfl; simp
        · intro hi
          by_cases hlt : i < s.names.length
          · rw [List.getElem?_append_left hlt] at hi
            exact absurd (List.mem_of_getElem? hi) hnm
          · rw [List.getElem?_append_right (by omega)] at hi
            have := (List.getElem?_eq_some_iff.mp hi).1
            simp at this; omega
      · have hb : (m == n) = false := by simpa using hm
        simp only [hb]
        rw [h.ids]
        by_cases hlt : i < s.names.length
        · rw [List.getElem?_append_left hlt]
        · rw [List.getElem?_append_right (by omega), List.getElem?_eq_none (by omega)]
          constructor
          · intro h'; simp at h'
          · intro hi
            have := List.mem_of_getElem? hi
            simp at this
            exact absurd this hm
    · exact List.nodup_append.mpr ⟨h.nodup, by simp, fun a ha b hb e => by
      obtain rfl := List.mem_singleton.mp hb
      exact hnm (e ▸ ha)⟩

theorem registerAll_spec : ∀ (ns : List Text) (s : Symbols), SymOK s → SymOK (s.registerAll ns).1 ∧ s.names <+: (s.registerAll ns).1.names ∧ (s.registerAll ns).2.length = ns.length ∧
    ∀ (j : Nat) n i, ns[j]? = some n → (s.registerAll ns).2[j]? = some i → (s.registerAll ns).1.names[i]? = some n
  | [], s, h => ⟨h, List.prefix_rfl, rfl, by simp⟩
  | n :: ns, s, h => by
    obtain ⟨h1, h2, h3⟩ := symOK_register h n
    obtain ⟨g1, g2, g3, g4⟩ := registerAll_spec ns (s.register n).1 h1
    refine ⟨g1, h3.trans g2, by simp [Symbols.registerAll, g3], fun j m i hm hi => ?_⟩
    cases j with
    | zero =>
      simp only [List.getElem?_cons_zero, Option.some.injEq] at hm
      simp only [Symbols.registerAll, List.getElem?_cons_zero, Option.some.injEq] at hi
      subst hm; subst hi
      obtain ⟨q, hq⟩ := g2
      change (Symbols.registerAll (s.register n).1 ns).1.names[(s.register n).2]? = some n
      rw [← hq, List.getElem?_append_left (List.getElem?_eq_some_iff.mp h2).1]
      exact h2
    | succ j => exact g4 j m i (by simpa using hm) (by simpa [Symbols.registerAll] using hi)

end Scallop.Csv
