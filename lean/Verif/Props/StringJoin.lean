import Verif.Spec.StringJoin
import Verif.Proof.StringJoin
import Verif.Props.Aggregate
import Verif.Model.Ram
import Mathlib.Data.List.Sections

/-!
# Property theorems C101: joining strings
-/

namespace Scallop.StrJoin

open Scallop.Agg

variable {V T W Ω : Type} [DecidableEq (Tup V)] {c : Prov T W} {P : T → Prop} {holds : T → Ω → Prop} {str : V → Option String} {inj : String → V}

omit [DecidableEq (Tup V)] in
theorem performJoin_str (hstr : ∀ s, str (inj s) = some s) (n : Nat) (sep : String) (l : List (List (Tup V) × String)) (hl : ∀ p ∈ l, p.1.length = n) :
    performJoin str n sep (l.map (strTuple inj n)) = some (sep.intercalate (l.map Prod.snd)) := by
  unfold performJoin
  rw [mapM_some_map (joinValue str n) (l.map (strTuple inj n)) (l.map Prod.snd)]
  · rfl
  · rw [List.map_map, List.map_map]
    apply List.map_congr_left
    intro p hp
    have := hl p hp
    by_cases hn : n = 0
    · subst hn; simp [joinValue, strTuple, asString, hstr]
    · simp only [Function.comp_apply, joinValue, strTuple, if_neg hn, if_pos (Nat.pos_of_ne_zero hn), Tup.at?]
      simp [asString, hstr, ← this]

/-! ## All worlds -/

/-- **C101.** With exact tags `string_join` never panics on strings, and in every world exactly one result is true: the strings of the facts true in that
world, joined in order. -/
theorem c101_join (h : c.ExactIn P holds) (hstr : ∀ s, str (inj s) = some s) (n : Nat) (sep : String) (facts : List (Elem (List (Tup V) × String) T))
    (hb : ∀ e ∈ facts, P e.tag) (hargs : ∀ e ∈ facts, e.tuple.1.length = n) :
    ∃ res, stringJoin c str false false n sep (retuple (strTuple inj n) facts) = some res ∧
      ∀ w, trueIn holds w res = [sep.intercalate ((trueIn holds w facts).map Prod.snd)] := by
  simp only [stringJoin, Bool.false_eq_true, if_false]
  obtain ⟨res, hres⟩ := multiWorld_some (c := c) (f := performJoin str n sep) (batch := retuple (strTuple inj n) facts) (by
    intro ts hts
    have hts' : ts.Sublist ((facts.map Elem.tuple).map (strTuple inj n)) := by simpa [retuple, Function.comp_def] using hts
    obtain ⟨l, hl, rfl⟩ := List.sublist_map_iff.1 hts'
    exact ⟨_, performJoin_str hstr n sep l (by
      intro p hp; obtain ⟨e, he, rfl⟩ := List.mem_map.1 (hl.subset hp); exact hargs e he)⟩)
  refine ⟨res, hres, fun w => ?_⟩
  obtain ⟨v, hv, hw⟩ := multiWorld_exact h (retuple_mem hb) hres w
  rw [trueIn_retuple, performJoin_str hstr n sep _ (by
    intro p hp; obtain ⟨e, he, _, rfl⟩ := mem_trueIn.1 hp; exact hargs e he)] at hv
  rw [hw, Option.some.inj hv]

/-- C101: with sound tags (top-k proofs), a result true in a world is the right one. -/
theorem c101_join_sound (h : c.SoundIn P holds) (hstr : ∀ s, str (inj s) = some s) (n : Nat) (sep : String)
    (facts : List (Elem (List (Tup V) × String) T)) (hb : ∀ e ∈ facts, P e.tag) (hargs : ∀ e ∈ facts, e.tuple.1.length = n) (res : List (Elem String T))
    (hr : stringJoin c str false false n sep (retuple (strTuple inj n) facts) = some res) (w : Ω) (s : String) (hs : s ∈ trueIn holds w res) :
    s = sep.intercalate ((trueIn holds w facts).map Prod.snd) := by
  simp only [stringJoin, Bool.false_eq_true, if_false] at hr
  obtain ⟨e, he, hw, rfl⟩ := mem_trueIn.1 hs
  have hf := multiWorld_sound h (retuple_mem hb) hr w e he hw
  rw [trueIn_retuple, performJoin_str hstr n sep _ (by
    intro p hp; obtain ⟨e, he, _, rfl⟩ := mem_trueIn.1 hp; exact hargs e he)] at hf
  exact (Option.some.inj hf).symm

/-! ## All facts -/

/-- C101: `string_join!` joins all strings, whatever their tags. -/
theorem c101_discrete (hstr : ∀ s, str (inj s) = some s) (all : Bool) (n : Nat) (sep : String) (facts : List (Elem (List (Tup V) × String) T))
    (hargs : ∀ e ∈ facts, e.tuple.1.length = n) :
    stringJoin c str true all n sep (retuple (strTuple inj n) facts) = some [⟨sep.intercalate (facts.map (fun e => e.tuple.2)), c.one⟩] := by
  have hm : (retuple (strTuple inj n) facts).map Elem.tuple = (facts.map Elem.tuple).map (strTuple inj n) := by simp [retuple, Function.comp_def]
  simp only [stringJoin, if_true, joinDiscrete, hm]
  rw [performJoin_str hstr n sep _ (by intro p hp; obtain ⟨e, he, rfl⟩ := List.mem_map.1 hp; exact hargs e he)]
  simp [Function.comp_def]

theorem foldl_holds (h : c.ExactIn P holds) {α : Type*} (es : List (Elem α T)) (hb : ∀ e ∈ es, P e.tag) (a : T) (ha : P a) (w : Ω) :
    holds (es.foldl (fun acc e => c.mult acc e.tag) a) w ↔ holds a w ∧ ∀ e ∈ es, holds e.tag w := by
  induction es generalizing a with
  | nil => simp
  | cons e es ih =>
    have he := hb e (by simp)
    rw [List.foldl_cons, ih (fun x hx => hb x (by simp [hx])) _ (h.mult_mem ha he)]
    constructor
    · rintro ⟨h1, h2⟩
      obtain ⟨h3, h4⟩ := h.mult ha he h1
      exact ⟨h3, by simpa using ⟨h4, h2⟩⟩
    · rintro ⟨h1, h2⟩
      exact ⟨h.mult' ha he h1 (h2 e (by simp)), fun x hx => h2 x (by simp [hx])⟩

theorem foldl_holds_sound (h : c.SoundIn P holds) {α : Type*} (es : List (Elem α T)) (hb : ∀ e ∈ es, P e.tag) (a : T) (ha : P a) (w : Ω)
    (hw : holds (es.foldl (fun acc e => c.mult acc e.tag) a) w) : ∀ e ∈ es, holds e.tag w := by
  suffices holds a w ∧ ∀ e ∈ es, holds e.tag w from this.2
  induction es generalizing a with
  | nil => simpa using hw
  | cons e es ih =>
    have he := hb e (by simp)
    rw [List.foldl_cons] at hw
    obtain ⟨h1, h2⟩ := ih (fun x hx => hb x (by simp [hx])) _ (h.mult_mem ha he) hw
    obtain ⟨h3, h4⟩ := h.mult ha he h1
    exact ⟨h3, by simpa using ⟨h4, h2⟩⟩

/-- C101: with `all` and no arguments, there is one result, all strings joined; it is true in the worlds in which all facts are. -/
theorem c101_all (h : c.ExactIn P holds) (hstr : ∀ s, str (inj s) = some s) (sep : String) (facts : List (Elem (List (Tup V) × String) T))
    (hb : ∀ e ∈ facts, P e.tag) (hargs : ∀ e ∈ facts, e.tuple.1 = []) :
    ∃ tag, stringJoin c str false true 0 sep (retuple (strTuple inj 0) facts) = some [⟨sep.intercalate (facts.map (fun e => e.tuple.2)), tag⟩] ∧
      ∀ w, holds tag w ↔ ∀ e ∈ facts, holds e.tag w := by
  have hm : (retuple (strTuple inj 0) facts).map Elem.tuple = (facts.map Elem.tuple).map (strTuple inj 0) := by simp [retuple, Function.comp_def]
  refine ⟨facts.foldl (fun acc e => c.mult acc e.tag) c.one, ?_, fun w => ?_⟩
  · simp only [stringJoin, Bool.false_eq_true, if_false, if_true, joinAll, hm]
    rw [performJoin_str hstr 0 sep _ (by intro p hp; obtain ⟨e, he, rfl⟩ := List.mem_map.1 hp; simp [hargs e he])]
    simp [Function.comp_def, retuple, List.foldl_map]
  · rw [foldl_holds h facts hb _ h.one_mem]
    exact ⟨fun h => h.2, fun h' => ⟨h.one w, h'⟩⟩

/-! ## One string for every argument -/

omit [DecidableEq (Tup V)] in
theorem ungroup_layout {n : Nat} (hn : 0 < n) (groups : List (List (Tup V) × List (Elem String T))) :
    retuple (strTuple inj n) (ungroup groups) = groups.flatMap (fun g => g.2.map (factTuple inj g.1)) := by
  have hn' : n ≠ 0 := by omega
  simp [retuple, ungroup, List.map_flatMap, Function.comp_def, strTuple, hn']
  rfl

/-- **C101.** With `all` and arguments, `string_join` joins one string of every argument, in the order of the arguments: it never panics, and the
results true in a world are exactly the ways to choose a true string for every argument. -/
theorem c101_choices (h : c.ExactIn P holds) (hstr : ∀ s, str (inj s) = some s) (n : Nat) (hn : 0 < n) (sep : String)
    (groups : List (List (Tup V) × List (Elem String T))) (hargs : ∀ g ∈ groups, g.1.length = n) (hne : ∀ g ∈ groups, g.2 ≠ [])
    (hdiff : (groups.map Prod.fst).IsChain (· ≠ ·)) (hb : ∀ g ∈ groups, ∀ e ∈ g.2, P e.tag) :
    ∃ res, stringJoin c str false true n sep (retuple (strTuple inj n) (ungroup groups)) = some res ∧
      ∀ w, trueIn holds w res = ((groups.map (fun g => trueIn holds w g.2)).sections).map (fun ss => sep.intercalate ss) := by
  classical
  have hn' : n ≠ 0 := by omega
  refine ⟨(groups.map Prod.snd).sections.map (joined c sep), ?_, fun w => ?_⟩
  · simp only [stringJoin, Bool.false_eq_true, if_false, if_true, if_neg hn']
    rw [ungroup_layout hn]
    exact joinAllArgs_eq c hstr sep groups hargs hne hdiff
  · have hmem : ∀ s ∈ (groups.map Prod.snd).sections, ∀ e ∈ s, P e.tag := by
      intro s hs
      have := List.mem_sections.1 hs
      intro e he
      have key : ∀ (s : List (Elem String T)) (L : List (List (Elem String T))), List.Forall₂ (· ∈ ·) s L → e ∈ s → ∃ l ∈ L, e ∈ l := by
        intro s L hf
        induction hf with
        | nil => simp
        | cons hx _ ih =>
          intro he
          rcases List.mem_cons.1 he with rfl | he
          · exact ⟨_, by simp, hx⟩
          · obtain ⟨l, hl, hel⟩ := ih he; exact ⟨l, by simp [hl], hel⟩
      obtain ⟨l, hl, hel⟩ := key s _ this he
      obtain ⟨g, hg, rfl⟩ := List.mem_map.1 hl
      exact hb g hg e hel
    have h1 : trueIn holds w ((groups.map Prod.snd).sections.map (joined c sep)) =
        ((groups.map Prod.snd).sections.filter (fun s => s.all (fun e => decide (holds e.tag w)))).map (fun s => sep.intercalate (s.map Elem.tuple)) := by
      rw [trueIn, List.filter_map, List.map_map]
      have : (groups.map Prod.snd).sections.filter ((fun e => decide (holds e.tag w)) ∘ joined c sep) =
          (groups.map Prod.snd).sections.filter (fun s => s.all (fun e => decide (holds e.tag w))) := by
        apply List.filter_congr
        intro s hs
        have := foldl_holds h s (hmem s hs) c.one h.one_mem w
        simp only [Function.comp_apply, joined]
        rw [Bool.eq_iff_iff]
        simp only [decide_eq_true_eq, List.all_eq_true, this]
        exact ⟨fun h => h.2, fun h' => ⟨h.one w, h'⟩⟩
      rw [this]
      rfl
    rw [h1, sections_filter]
    have h2 : groups.map (fun g => trueIn holds w g.2) = (((groups.map Prod.snd).map (List.filter (fun e => decide (holds e.tag w)))).map (List.map Elem.tuple)) := by
      simp [Function.comp_def, trueIn]
    rw [h2, sections_map, List.map_map (f := List.map Elem.tuple)]
    rfl

/-- C101: if in a world every argument has exactly one true string, exactly one result is true there: these strings joined. -/
theorem c101_one (h : c.ExactIn P holds) (hstr : ∀ s, str (inj s) = some s) (n : Nat) (hn : 0 < n) (sep : String)
    (groups : List (List (Tup V) × List (Elem String T))) (hargs : ∀ g ∈ groups, g.1.length = n) (hne : ∀ g ∈ groups, g.2 ≠ [])
    (hdiff : (groups.map Prod.fst).IsChain (· ≠ ·)) (hb : ∀ g ∈ groups, ∀ e ∈ g.2, P e.tag) (res : List (Elem String T))
    (hr : stringJoin c str false true n sep (retuple (strTuple inj n) (ungroup groups)) = some res)
    (w : Ω) (ss : List String) (hw : groups.map (fun g => trueIn holds w g.2) = ss.map (fun s => [s])) : trueIn holds w res = [sep.intercalate ss] := by
  obtain ⟨res', hr', hall⟩ := c101_choices h hstr n hn sep groups hargs hne hdiff hb
  rw [hr] at hr'
  obtain rfl := Option.some.inj hr'
  rw [hall w, hw]
  have : (ss.map (fun s => [s])).sections = [ss] := by
    clear hw
    induction ss with
    | nil => rfl
    | cons s ss ih => simp [List.sections, ih]
  rw [this]
  rfl

/-- C101: with sound tags, a result true in a world joins true strings, one for every argument. -/
theorem c101_choices_sound (h : c.SoundIn P holds) (hstr : ∀ s, str (inj s) = some s) (n : Nat) (hn : 0 < n) (sep : String)
    (groups : List (List (Tup V) × List (Elem String T))) (hargs : ∀ g ∈ groups, g.1.length = n) (hne : ∀ g ∈ groups, g.2 ≠ [])
    (hdiff : (groups.map Prod.fst).IsChain (· ≠ ·)) (hb : ∀ g ∈ groups, ∀ e ∈ g.2, P e.tag) (res : List (Elem String T))
    (hr : stringJoin c str false true n sep (retuple (strTuple inj n) (ungroup groups)) = some res) (w : Ω) (s : String) (hs : s ∈ trueIn holds w res) :
    ∃ ss, List.Forall₂ (fun s g => s ∈ trueIn holds w g.2) ss groups ∧ s = sep.intercalate ss := by
  have hn' : n ≠ 0 := by omega
  simp only [stringJoin, Bool.false_eq_true, if_false, if_true, if_neg hn'] at hr
  rw [ungroup_layout hn, joinAllArgs_eq c hstr sep groups hargs hne hdiff] at hr
  obtain rfl := Option.some.inj hr
  obtain ⟨e, he, hw, rfl⟩ := mem_trueIn.1 hs
  obtain ⟨es, hes, rfl⟩ := List.mem_map.1 he
  refine ⟨es.map Elem.tuple, ?_, rfl⟩
  have hf := List.mem_sections.1 hes
  have hfg : List.Forall₂ (fun e (g : List (Tup V) × List (Elem String T)) => e ∈ g.2) es groups := by
    rw [List.forall₂_map_right_iff] at hf; exact hf
  have hP : ∀ e ∈ es, P e.tag := by
    clear hw hs he hf hes hargs hne hdiff hr
    induction hfg with
    | nil => simp
    | cons hx _ ih =>
      intro e he
      rcases List.mem_cons.1 he with rfl | he
      · exact hb _ (by simp) _ hx
      · exact ih (fun g hg => hb g (by simp [hg])) e he
  have hall := foldl_holds_sound h es hP c.one h.one_mem w hw
  rw [List.forall₂_map_left_iff]
  clear hw hs he hf hes hargs hne hdiff hP hb hr
  induction hfg with
  | nil => exact .nil
  | cons hx _ ih => exact .cons (mem_trueIn.2 ⟨_, hx, hall _ (by simp), rfl⟩) (ih (fun e he => hall e (by simp [he])))

/-! ## Provenances without negation -/

/-- C101: with a provenance without negation (unit, Boolean, counting, tropical), there is one result: all strings, whatever the tags say, with the product
of all tags. For unit tags this is right. -/
theorem c101_no_negation_partial (hneg : ∀ t, c.negate t = none) (hstr : ∀ s, str (inj s) = some s) (n : Nat) (sep : String)
    (facts : List (Elem (List (Tup V) × String) T)) (hargs : ∀ e ∈ facts, e.tuple.1.length = n) :
    stringJoin c str false false n sep (retuple (strTuple inj n) facts) =
      some [⟨sep.intercalate (facts.map (fun e => e.tuple.2)), facts.foldl (fun acc e => c.mult acc e.tag) c.one⟩] := by
  have hm : (retuple (strTuple inj n) facts).map Elem.tuple = (facts.map Elem.tuple).map (strTuple inj n) := by simp [retuple, Function.comp_def]
  simp only [stringJoin, Bool.false_eq_true, if_false, joinWorlds]
  rw [multiWorld_no_negation hneg (performJoin str n sep) _ (by
    intro ts hts
    rw [hm] at hts
    obtain ⟨l, hl, rfl⟩ := List.sublist_map_iff.1 hts
    exact ⟨_, performJoin_str hstr n sep l (by
      intro p hp; obtain ⟨e, he, rfl⟩ := List.mem_map.1 (hl.subset hp); exact hargs e he)⟩), hm,
    performJoin_str hstr n sep _ (by intro p hp; obtain ⟨e, he, rfl⟩ := List.mem_map.1 hp; exact hargs e he)]
  simp [Function.comp_def, retuple, List.foldl_map]

/-! ## Cases -/

/-- Strings as values. -/
def exStr : String → Option String := some

/-- Two letters at position 0, one at position 1. -/
def exGroups : List (List (Tup String) × List (Elem String ℚ)) :=
  [([.val "0"], [⟨"a", 9 / 10⟩, ⟨"b", 1 / 10⟩]), ([.val "1"], [⟨"c", 8 / 10⟩])]

example : (∀ s, exStr (id s) = some s) ∧ (∀ g ∈ exGroups, g.1.length = 1) ∧ (∀ g ∈ exGroups, g.2 ≠ []) ∧
    (∀ g ∈ exGroups, ∀ e ∈ g.2, e.tag ≠ 1 / 2) := by
  refine ⟨fun _ => rfl, ?_, ?_, ?_⟩
  · simp [exGroups]
  · simp [exGroups]
  · simp [exGroups]; norm_num
example : (exGroups.map Prod.fst).IsChain (· ≠ ·) := by
  simp [exGroups]
example : stringJoin (minMaxProv ℚ) exStr false true 1 "-" (retuple (strTuple id 1) (ungroup exGroups)) = some [⟨"a-c", 8 / 10⟩, ⟨"b-c", 1 / 10⟩] := by
  decide +kernel
example : stringJoin (addMultProv ℚ) exStr false false 1 "-" (retuple (strTuple id 1) (ungroup exGroups)) =
    some [⟨"", 9 / 500⟩, ⟨"a", 81 / 500⟩, ⟨"b", 1 / 500⟩, ⟨"c", 9 / 125⟩, ⟨"a-b", 9 / 500⟩, ⟨"a-c", 81 / 125⟩, ⟨"b-c", 1 / 125⟩, ⟨"a-b-c", 9 / 125⟩] := by
  decide +kernel
example : (∀ t, boolProv.negate t = none) ∧ (∀ t, unitProv.negate t = none) ∧ (∀ t, naturalProv.negate t = none) := ⟨fun _ => rfl, fun _ => rfl, fun _ => rfl⟩
example : stringJoin unitProv exStr false false 0 ", " [⟨.val "a", ()⟩, ⟨.val "b", ()⟩] = some [⟨"a, b", ()⟩] := by decide +kernel

/-- C101 refuted with Boolean tags: of a true string `a` and a false one `b`, the only result is `ab`, and it is false (`count` and `sum` have their own
version for Boolean tags, `string_join` does not). -/
theorem c101_boolean_false : stringJoin boolProv exStr false false 0 "" [⟨.val "a", true⟩, ⟨.val "b", false⟩] = some [⟨"ab", false⟩] := by decide +kernel

-- Different choices may give the same string.
example : stringJoin (addMultProv ℚ) exStr false true 1 "" (retuple (strTuple id 1) (ungroup
      [([.val "0"], [⟨"a", 1 / 2⟩, ⟨"ab", 1 / 2⟩]), ([.val "1"], [⟨"bc", 1 / 2⟩, ⟨"c", 1 / 2⟩])])) =
    some [⟨"abc", 1 / 4⟩, ⟨"abbc", 1 / 4⟩, ⟨"ac", 1 / 4⟩, ⟨"abc", 1 / 4⟩] := by decide +kernel

end Scallop.StrJoin
