import Verif.Proof.Aggregate
import Mathlib.Algebra.Order.Field.Basic
import Mathlib.Tactic.Linarith

/-!
# Lemmas about aggregates: exists, minimum and maximum, top-k, range
-/

namespace Scallop.Agg

variable {V T W Ω α β : Type*} {c : Prov T W} {P : T → Prop} {holds : T → Ω → Prop}

theorem mem_trueIn {w : Ω} {l : List (Elem α T)} {a : α} : a ∈ trueIn holds w l ↔ ∃ e ∈ l, holds e.tag w ∧ e.tuple = a := by
  simp [trueIn, and_assoc]

theorem trueIn_append (w : Ω) (l m : List (Elem α T)) : trueIn holds w (l ++ m) = trueIn holds w l ++ trueIn holds w m := by
  simp [trueIn]

theorem trueIn_cons_pos {w : Ω} {e : Elem α T} {l : List (Elem α T)} (h : holds e.tag w) : trueIn holds w (e :: l) = e.tuple :: trueIn holds w l := by
  simp [trueIn, h]

theorem trueIn_cons_neg {w : Ω} {e : Elem α T} {l : List (Elem α T)} (h : ¬ holds e.tag w) : trueIn holds w (e :: l) = trueIn holds w l := by
  simp [trueIn, h]

theorem trueIn_perm {w : Ω} {l m : List (Elem α T)} (h : l.Perm m) : (trueIn holds w l).Perm (trueIn holds w m) :=
  (h.filter _).map _

/-! ### exists -/

theorem existsFold_sound (h : c.SoundIn P holds) (l : List (Elem α T)) (hl : ∀ e ∈ l, P e.tag) :
    (∀ t, (l.foldl (existsStep c) (none, some c.one)).1 = some t → P t ∧ ∀ w, holds t w → ∃ e ∈ l, holds e.tag w) ∧
    (∀ t, (l.foldl (existsStep c) (none, some c.one)).2 = some t → P t ∧ ∀ w, holds t w → ∀ e ∈ l, ¬ holds e.tag w) := by
  induction l using List.reverseRecOn with
  | nil =>
    refine ⟨by simp, fun t ht => ?_⟩
    obtain rfl := Option.some.inj ht
    exact ⟨h.one_mem, by simp⟩
  | append_singleton l e ih =>
    have he := hl e (by simp)
    obtain ⟨ih1, ih2⟩ := ih (fun x hx => hl x (by simp [hx]))
    rw [List.foldl_append, List.foldl_cons, List.foldl_nil]
    generalize l.foldl (existsStep c) (none, some c.one) = s at ih1 ih2
    obtain ⟨s1, s2⟩ := s
    constructor
    · intro t ht
      cases s1 with
      | none =>
        obtain rfl := Option.some.inj ht
        exact ⟨he, fun w hw => ⟨e, by simp, hw⟩⟩
      | some a =>
        obtain rfl := Option.some.inj ht
        obtain ⟨ha, ha'⟩ := ih1 a rfl
        refine ⟨h.add_mem ha he, fun w hw => ?_⟩
        rcases h.add ha he hw with hw | hw
        · obtain ⟨x, hx, hx'⟩ := ha' w hw; exact ⟨x, by simp [hx], hx'⟩
        · exact ⟨e, by simp, hw⟩
    · intro t ht
      cases s2 with
      | none => cases ht
      | some a =>
        obtain ⟨n, hn, rfl⟩ := Option.map_eq_some_iff.1 ht
        obtain ⟨ha, ha'⟩ := ih2 a rfl
        have hnm := h.negate_mem he hn
        refine ⟨h.mult_mem ha hnm, fun w hw x hx => ?_⟩
        obtain ⟨h1, h2⟩ := h.mult ha hnm hw
        rcases List.mem_append.1 hx with hx | hx
        · exact ha' w h1 x hx
        · simp only [List.mem_singleton] at hx; subst hx; exact h.negate he hn h2

theorem existsFold_exact (h : c.ExactIn P holds) (l : List (Elem α T)) (hl : ∀ e ∈ l, P e.tag) :
    (l ≠ [] → ∃ t, (l.foldl (existsStep c) (none, some c.one)).1 = some t ∧ ∀ w, (∃ e ∈ l, holds e.tag w) → holds t w) ∧
    (∃ t, (l.foldl (existsStep c) (none, some c.one)).2 = some t ∧ ∀ w, (∀ e ∈ l, ¬ holds e.tag w) → holds t w) := by
  induction l using List.reverseRecOn with
  | nil => exact ⟨by simp, c.one, rfl, fun w _ => h.one w⟩
  | append_singleton l e ih =>
    have he := hl e (by simp)
    have hl' : ∀ x ∈ l, P x.tag := fun x hx => hl x (by simp [hx])
    obtain ⟨ih1, ih2⟩ := ih hl'
    obtain ⟨so1, so2⟩ := existsFold_sound h.toSoundIn l hl'
    rw [List.foldl_append, List.foldl_cons, List.foldl_nil]
    have hnil : l = [] → (l.foldl (existsStep c) (none, some c.one)).1 = none := by rintro rfl; rfl
    generalize l.foldl (existsStep c) (none, some c.one) = s at ih1 ih2 so1 so2 hnil
    obtain ⟨s1, s2⟩ := s
    constructor
    · intro _
      by_cases hle : l = []
      · subst hle
        obtain rfl : s1 = none := hnil rfl
        refine ⟨e.tag, rfl, ?_⟩
        rintro w ⟨x, hx, hw⟩
        simp at hx; subst hx; exact hw
      · obtain ⟨a, ha, ha'⟩ := ih1 hle
        simp only at ha
        subst ha
        refine ⟨_, rfl, ?_⟩
        rintro w ⟨x, hx, hw⟩
        refine h.add' (so1 a rfl).1 he ?_
        rcases List.mem_append.1 hx with hx | hx
        · exact .inl (ha' w ⟨x, hx, hw⟩)
        · simp only [List.mem_singleton] at hx; subst hx; exact .inr hw
    · obtain ⟨a, ha, ha'⟩ := ih2
      simp only at ha
      subst ha
      obtain ⟨n, hn⟩ := h.negate_total he
      refine ⟨c.mult a n, by simp [existsStep, hn], fun w hw => ?_⟩
      exact h.mult' (so2 a rfl).1 (h.negate_mem he hn) (ha' w (fun x hx => hw x (by simp [hx]))) (h.negate' he hn (hw e (by simp)))

theorem exists_sound (h : c.SoundIn P holds) {batch : List (Elem α T)} (hb : ∀ e ∈ batch, P e.tag) (w : Ω) (e : Elem Bool T)
    (he : e ∈ «exists» c false batch) (hw : holds e.tag w) : e.tuple = true ↔ trueIn holds w batch ≠ [] := by
  obtain ⟨h1, h2⟩ := existsFold_sound h batch hb
  simp only [«exists», Bool.false_eq_true, if_false] at he
  rw [ne_eq, List.eq_nil_iff_forall_not_mem, not_forall]
  simp only [not_not, mem_trueIn]
  rcases List.mem_append.1 he with he | he
  · simp only [List.mem_map, Option.mem_toList] at he
    obtain ⟨t, ht, rfl⟩ := he
    obtain ⟨x, hx, hxw⟩ := (h1 t ht).2 w hw
    simp only [true_iff]
    exact ⟨x.tuple, x, hx, hxw, rfl⟩
  · simp only [List.mem_map, Option.mem_toList] at he
    obtain ⟨t, ht, rfl⟩ := he
    have := (h2 t ht).2 w hw
    simp only [Bool.false_eq_true, false_iff]
    rintro ⟨_, x, hx, hxw, -⟩
    exact this x hx hxw

theorem exists_exact (h : c.ExactIn P holds) {batch : List (Elem α T)} (hb : ∀ e ∈ batch, P e.tag) (w : Ω) :
    trueIn holds w («exists» c false batch) = [!(trueIn holds w batch).isEmpty] := by
  obtain ⟨s1, s2⟩ := existsFold_sound h.toSoundIn batch hb
  obtain ⟨e1, t2, e2, e3⟩ := existsFold_exact h batch hb
  simp only [«exists», Bool.false_eq_true, if_false, trueIn_append, e2, Option.toList_some, List.map_cons, List.map_nil]
  by_cases hex : ∃ e ∈ batch, holds e.tag w
  · obtain ⟨t1, e4, e5⟩ := e1 (by rintro rfl; simp at hex)
    rw [e4, Option.toList_some, List.map_cons, List.map_nil, trueIn_cons_pos (e5 w hex), trueIn_cons_neg]
    · obtain ⟨e, he, hw⟩ := hex
      have : trueIn holds w batch ≠ [] := List.ne_nil_of_mem (mem_trueIn.2 ⟨e, he, hw, rfl⟩)
      simp [trueIn] at this ⊢
      exact this
    · intro hh
      obtain ⟨e, he, hw⟩ := hex
      exact (s2 t2 e2).2 w hh e he hw
  · have hnil : trueIn holds w batch = [] := by
      rw [List.eq_nil_iff_forall_not_mem]
      intro a ha
      obtain ⟨e, he, hw, -⟩ := mem_trueIn.1 ha
      exact hex ⟨e, he, hw⟩
    rw [hnil, trueIn_cons_pos (e3 w (fun e he hw => hex ⟨e, he, hw⟩))]
    have : trueIn holds w ((batch.foldl (existsStep c) (none, some c.one)).1.toList.map (fun t => (⟨true, t⟩ : Elem Bool T))) = [] := by
      cases ho : (batch.foldl (existsStep c) (none, some c.one)).1 with
      | none => simp [trueIn]
      | some t =>
        rw [Option.toList_some, List.map_cons, List.map_nil, trueIn_cons_neg (fun hh => hex ((s1 t ho).2 w hh))]
        simp [trueIn]
    rw [this]
    simp [trueIn]

/-! ### Discrete minimum and maximum -/

theorem extremum_fold {κ : Type*} [LinearOrder κ] (isMin : Bool) (l : List (κ × α)) :
    (l.foldl (extremumStep (better isMin)) none = none ↔ l = []) ∧
    ∀ m res, l.foldl (extremumStep (better isMin)) none = some (m, res) →
      (∃ p ∈ l, p.1 = m) ∧ (∀ p ∈ l, better isMin p.1 m = false) ∧ res = (l.filter (fun p => decide (p.1 = m))).map Prod.snd := by
  have hirr : ∀ a : κ, better isMin a a = false := by intro a; cases isMin <;> simp [better]
  induction l using List.reverseRecOn with
  | nil => simp
  | append_singleton l p ih =>
    obtain ⟨ih1, ih2⟩ := ih
    rw [List.foldl_append, List.foldl_cons, List.foldl_nil]
    cases hs : l.foldl (extremumStep (better isMin)) none with
    | none =>
      have hl := ih1.1 hs
      subst hl
      refine ⟨by simp [extremumStep], ?_⟩
      intro m res h
      simp only [extremumStep, Option.some.injEq, Prod.mk.injEq] at h
      obtain ⟨rfl, rfl⟩ := h
      simp [hirr]
    | some s =>
      obtain ⟨m0, r0⟩ := s
      obtain ⟨⟨p0, hp0, hpm⟩, h2, h3⟩ := ih2 m0 r0 hs
      have h3' : r0 = (l.filter (fun p => decide (p.1 = m0))).map Prod.snd := h3
      refine ⟨?_, ?_⟩
      · simp only [extremumStep, List.append_eq_nil_iff, List.cons_ne_self, and_false, iff_false]
        split
        · simp
        · split <;> simp
      · intro m res h
        simp only [extremumStep] at h
        by_cases he : p.1 = m0
        · rw [if_pos he] at h
          simp only [Option.some.injEq, Prod.mk.injEq] at h
          obtain ⟨rfl, rfl⟩ := h
          refine ⟨⟨p0, by simp [hp0], hpm⟩, ?_, ?_⟩
          · intro q hq
            rcases List.mem_append.1 hq with hq | hq
            · exact h2 q hq
            · simp only [List.mem_singleton] at hq; subst hq; rw [he]; exact hirr _
          · rw [h3', List.filter_append, List.map_append]; simp [he]
        · rw [if_neg he] at h
          by_cases hb : better isMin p.1 m0 = true
          · rw [if_pos hb] at h
            simp only [Option.some.injEq, Prod.mk.injEq] at h
            obtain ⟨rfl, rfl⟩ := h
            have hall : ∀ q ∈ l, better isMin q.1 p.1 = false ∧ q.1 ≠ p.1 := by
              intro q hq
              have := h2 q hq
              cases isMin <;> simp [better] at this hb ⊢
              · exact ⟨le_of_lt (lt_of_le_of_lt this hb), ne_of_lt (lt_of_le_of_lt this hb)⟩
              · exact ⟨le_of_lt (lt_of_lt_of_le hb this), ne_of_gt (lt_of_lt_of_le hb this)⟩
            refine ⟨⟨p, by simp, rfl⟩, ?_, ?_⟩
            · intro q hq
              rcases List.mem_append.1 hq with hq | hq
              · exact (hall q hq).1
              · simp only [List.mem_singleton] at hq; subst hq; exact hirr _
            · rw [List.filter_append, List.map_append, List.filter_eq_nil_iff.2 (fun q hq => by simpa using (hall q hq).2)]
              simp
          · rw [if_neg hb] at h
            simp only [Option.some.injEq, Prod.mk.injEq] at h
            obtain ⟨rfl, rfl⟩ := h
            refine ⟨⟨p0, by simp [hp0], hpm⟩, ?_, ?_⟩
            · intro q hq
              rcases List.mem_append.1 hq with hq | hq
              · exact h2 q hq
              · simp only [List.mem_singleton] at hq; subst hq; simpa using hb
            · rw [h3', List.filter_append, List.map_append]; simp [he]

/-- The result consists of the elements whose key is not beaten by another one, in the order of the list. -/
theorem extremum_eq {κ : Type*} [LinearOrder κ] (isMin : Bool) (l : List (κ × α)) :
    extremum (better isMin) l = (l.filter (fun p => l.all (fun q => !better isMin q.1 p.1))).map Prod.snd := by
  obtain ⟨h1, h2⟩ := extremum_fold isMin l
  unfold extremum
  cases hs : l.foldl (extremumStep (better isMin)) none with
  | none => rw [h1.1 hs]; rfl
  | some s =>
    obtain ⟨m, res⟩ := s
    obtain ⟨⟨p0, hp0, rfl⟩, h3, h4⟩ := h2 m res hs
    simp only
    rw [h4]
    congr 1
    refine List.filter_congr (fun p hp => ?_)
    have : p.1 = p0.1 ↔ ∀ q ∈ l, better isMin q.1 p.1 = false := by
      constructor
      · intro he q hq; rw [he]; exact h3 q hq
      · intro hall
        have a := hall p0 hp0
        have b := h3 p hp
        cases isMin <;> simp [better] at a b
        · exact le_antisymm b a
        · exact le_antisymm a b
    rw [Bool.eq_iff_iff]
    simp [this]

/-! ### Minimum and maximum without arguments -/

theorem plainFold (h : c.SoundIn P holds) (htot : ∀ a, P a → ∃ n, c.negate a = some n) (l : List (Elem (Tup V) T)) (hl : ∀ e ∈ l, P e.tag) :
    P (l.foldl (plainStep c) (c.one, [])).1 ∧
    (∀ w, holds (l.foldl (plainStep c) (c.one, [])).1 w → ∀ e ∈ l, ¬ holds e.tag w) ∧
    (∀ w e, e ∈ (l.foldl (plainStep c) (c.one, [])).2 → holds e.tag w → ∃ l1 l2, ∃ x : Elem (Tup V) T, l = l1 ++ x :: l2 ∧ holds x.tag w ∧
      x.tuple = e.tuple ∧ ∀ y ∈ l1, ¬ holds y.tag w) := by
  induction l using List.reverseRecOn with
  | nil => exact ⟨h.one_mem, by simp, by simp⟩
  | append_singleton l e ih =>
    have he := hl e (by simp)
    obtain ⟨i1, i2, i3⟩ := ih (fun x hx => hl x (by simp [hx]))
    rw [List.foldl_append, List.foldl_cons, List.foldl_nil]
    generalize l.foldl (plainStep c) (c.one, []) = s at i1 i2 i3
    obtain ⟨a, res⟩ := s
    obtain ⟨n, hn⟩ := htot e.tag he
    have hnm := h.negate_mem he hn
    simp only [plainStep, hn, Option.map_some]
    refine ⟨h.mult_mem i1 hnm, ?_, ?_⟩
    · intro w hw x hx
      obtain ⟨h1, h2⟩ := h.mult i1 hnm hw
      rcases List.mem_append.1 hx with hx | hx
      · exact i2 w h1 x hx
      · simp only [List.mem_singleton] at hx; subst hx; exact h.negate he hn h2
    · intro w x hx hw
      rcases List.mem_append.1 hx with hx | hx
      · obtain ⟨l1, l2, y, rfl, h1, h2, h3⟩ := i3 w x hx hw
        exact ⟨l1, l2 ++ [e], y, by simp, h1, h2, h3⟩
      · simp only [List.mem_singleton] at hx
        subst hx
        obtain ⟨h1, h2⟩ := h.mult i1 he hw
        exact ⟨l, [], e, rfl, h2, rfl, i2 w h1⟩

theorem plainFold_exact (h : c.ExactIn P holds) (l : List (Elem (Tup V) T)) (hl : ∀ e ∈ l, P e.tag) (w : Ω) :
    ((∀ e ∈ l, ¬ holds e.tag w) → holds (l.foldl (plainStep c) (c.one, [])).1 w) ∧
    trueIn holds w (l.foldl (plainStep c) (c.one, [])).2 = (trueIn holds w l).head?.toList := by
  induction l using List.reverseRecOn with
  | nil => exact ⟨fun _ => h.one w, by simp [trueIn]⟩
  | append_singleton l e ih =>
    have he := hl e (by simp)
    have hl' : ∀ x ∈ l, P x.tag := fun x hx => hl x (by simp [hx])
    obtain ⟨i1, i2⟩ := ih hl'
    obtain ⟨p1, p2, -⟩ := plainFold h.toSoundIn (fun a ha => h.negate_total ha) l hl'
    rw [List.foldl_append, List.foldl_cons, List.foldl_nil]
    generalize l.foldl (plainStep c) (c.one, []) = s at i1 i2 p1 p2
    obtain ⟨a, res⟩ := s
    obtain ⟨n, hn⟩ := h.negate_total he
    have hnm := h.negate_mem he hn
    simp only [plainStep, hn, Option.map_some]
    refine ⟨fun hall => h.mult' p1 hnm (i1 (fun x hx => hall x (by simp [hx]))) (h.negate' he hn (hall e (by simp))), ?_⟩
    rw [trueIn_append, trueIn_append, i2]
    by_cases hex : ∃ x ∈ l, holds x.tag w
    · have hne : trueIn holds w l ≠ [] := by
        obtain ⟨x, hx, hxw⟩ := hex
        exact List.ne_nil_of_mem (mem_trueIn.2 ⟨x, hx, hxw, rfl⟩)
      have hna : ¬ holds a w := fun ha => by
        obtain ⟨x, hx, hxw⟩ := hex
        exact p2 w ha x hx hxw
      rw [trueIn_cons_neg (fun hm => hna (h.mult p1 he hm).1)]
      obtain ⟨y, ys, hy⟩ := List.exists_cons_of_ne_nil hne
      rw [hy]; simp [trueIn]
    · have hnil : trueIn holds w l = [] := by
        rw [List.eq_nil_iff_forall_not_mem]
        intro x hx
        obtain ⟨y, hy, hyw, -⟩ := mem_trueIn.1 hx
        exact hex ⟨y, hy, hyw⟩
      have haw : holds a w := i1 (fun x hx hw => hex ⟨x, hx, hw⟩)
      rw [hnil]
      by_cases hew : holds e.tag w
      · rw [trueIn_cons_pos (h.mult' p1 he haw hew), trueIn_cons_pos hew]; simp [trueIn]
      · rw [trueIn_cons_neg (fun hm => hew (h.mult p1 he hm).2), trueIn_cons_neg hew]; simp [trueIn]

/-! ### Minimum and maximum with arguments -/

theorem falseStep_none (ts : List T) : ts.foldl (falseStep c) none = none := by
  induction ts with
  | nil => rfl
  | cons t ts ih => simpa [falseStep] using ih

theorem falseFold_sound (h : c.SoundIn P holds) (ts : List T) (hts : ∀ t ∈ ts, P t) {a f : T} (ha : P a)
    (hf : ts.foldl (falseStep c) (some a) = some f) : P f ∧ ∀ w, holds f w → holds a w ∧ ∀ t ∈ ts, ¬ holds t w := by
  induction ts generalizing a with
  | nil => obtain rfl := Option.some.inj hf; exact ⟨ha, fun w hw => ⟨hw, by simp⟩⟩
  | cons t ts ih =>
    have ht := hts t (by simp)
    rw [List.foldl_cons, falseStep, Option.bind_some] at hf
    cases hn : c.negate t with
    | none => rw [hn, Option.map_none, falseStep_none] at hf; cases hf
    | some n =>
      rw [hn, Option.map_some] at hf
      have hnm := h.negate_mem ht hn
      obtain ⟨h1, h2⟩ := ih (fun x hx => hts x (by simp [hx])) (h.mult_mem ha hnm) hf
      refine ⟨h1, fun w hw => ?_⟩
      obtain ⟨h3, h4⟩ := h2 w hw
      obtain ⟨h5, h6⟩ := h.mult ha hnm h3
      refine ⟨h5, fun x hx => ?_⟩
      rcases List.mem_cons.1 hx with rfl | hx
      · exact h.negate ht hn h6
      · exact h4 x hx

theorem falseFold_exact (h : c.ExactIn P holds) (ts : List T) (hts : ∀ t ∈ ts, P t) {a : T} (ha : P a) :
    ∃ f, ts.foldl (falseStep c) (some a) = some f ∧ ∀ w, holds a w → (∀ t ∈ ts, ¬ holds t w) → holds f w := by
  induction ts generalizing a with
  | nil => exact ⟨a, rfl, fun w hw _ => hw⟩
  | cons t ts ih =>
    have ht := hts t (by simp)
    obtain ⟨n, hn⟩ := h.negate_total ht
    have hnm := h.negate_mem ht hn
    rw [List.foldl_cons, falseStep, Option.bind_some, hn, Option.map_some]
    obtain ⟨f, h1, h2⟩ := ih (fun x hx => hts x (by simp [hx])) (h.mult_mem ha hnm)
    exact ⟨f, h1, fun w hw hall => h2 w (h.mult' ha hnm hw (h.negate' ht hn (hall t (by simp)))) (fun x hx => hall x (by simp [hx]))⟩

/-- The elements that have to be false for those of a stratum. -/
def falseRange (isMin : Bool) (sorted : List (Elem (Tup V) T)) (start stop : Nat) : List (Elem (Tup V) T) :=
  if isMin then sorted.take start else sorted.drop stop

theorem stratumResult_sound (h : c.SoundIn P holds) {isMin : Bool} {sorted : List (Elem (Tup V) T)} (hs : ∀ e ∈ sorted, P e.tag) {start stop : Nat}
    {e : Elem (Tup V) T} (he : e ∈ stratumResult c isMin sorted start stop) {w : Ω} (hw : holds e.tag w) :
    ∃ i x, start ≤ i ∧ i < stop ∧ sorted[i]? = some x ∧ x.tuple = e.tuple ∧ holds x.tag w ∧
      ∀ y ∈ falseRange isMin sorted start stop, ¬ holds y.tag w := by
  have hP : ∀ t ∈ (falseRange isMin sorted start stop).map Elem.tag, P t := by
    intro t ht
    obtain ⟨y, hy, rfl⟩ := List.mem_map.1 ht
    refine hs y ?_
    unfold falseRange at hy
    split at hy
    · exact List.mem_of_mem_take hy
    · exact List.mem_of_mem_drop hy
  unfold stratumResult at he
  change e ∈ (match ((falseRange isMin sorted start stop).map Elem.tag).foldl (falseStep c) (some c.one) with | some ft => _ | none => _) at he
  cases hf : ((falseRange isMin sorted start stop).map Elem.tag).foldl (falseStep c) (some c.one) with
  | none => rw [hf] at he; cases he
  | some f =>
    rw [hf] at he
    obtain ⟨h1, h2⟩ := falseFold_sound h _ hP h.one_mem hf
    obtain ⟨x, hx, rfl⟩ := List.mem_map.1 he
    obtain ⟨i, hi, hix⟩ := List.mem_iff_getElem?.1 hx |>.imp (fun i hi => (⟨trivial, hi⟩ : True ∧ _))
    rw [List.getElem?_take] at hix
    split at hix
    · rename_i hlt
      rw [List.getElem?_drop] at hix
      obtain ⟨h3, h4⟩ := h.mult h1 (hs x (List.mem_of_getElem? hix)) hw
      exact ⟨start + i, x, by omega, by omega, hix, rfl, h4, fun y hy => (h2 w h3).2 y.tag (List.mem_map_of_mem hy)⟩
    · cases hix

theorem stratumResult_exact (h : c.ExactIn P holds) {isMin : Bool} {sorted : List (Elem (Tup V) T)} (hs : ∀ e ∈ sorted, P e.tag) {start stop : Nat}
    {i : Nat} {x : Elem (Tup V) T} (h1 : start ≤ i) (h2 : i < stop) (hx : sorted[i]? = some x) :
    ∃ e ∈ stratumResult c isMin sorted start stop, e.tuple = x.tuple ∧
      ∀ w, holds x.tag w → (∀ y ∈ falseRange isMin sorted start stop, ¬ holds y.tag w) → holds e.tag w := by
  have hP : ∀ t ∈ (falseRange isMin sorted start stop).map Elem.tag, P t := by
    intro t ht
    obtain ⟨y, hy, rfl⟩ := List.mem_map.1 ht
    refine hs y ?_
    unfold falseRange at hy
    split at hy
    · exact List.mem_of_mem_take hy
    · exact List.mem_of_mem_drop hy
  obtain ⟨f, hf, hfw⟩ := falseFold_exact h _ hP h.one_mem
  obtain ⟨hfP, -⟩ := falseFold_sound h.toSoundIn _ hP h.one_mem hf
  refine ⟨⟨x.tuple, c.mult f x.tag⟩, ?_, rfl, fun w hw hall => h.mult' hfP (hs x (List.mem_of_getElem? hx)) (hfw w (h.one w) ?_) hw⟩
  · unfold stratumResult
    change _ ∈ (match ((falseRange isMin sorted start stop).map Elem.tag).foldl (falseStep c) (some c.one) with | some ft => _ | none => _)
    rw [hf]
    refine List.mem_map.2 ⟨x, ?_, rfl⟩
    refine List.mem_iff_getElem?.2 ⟨i - start, ?_⟩
    rw [List.getElem?_take, if_pos (by omega), List.getElem?_drop]
    rw [show start + (i - start) = i by omega]; exact hx
  · intro t ht
    obtain ⟨y, hy, rfl⟩ := List.mem_map.1 ht
    exact hall y hy

theorem strata_fold {κ : Type*} [LinearOrder κ] (k0 : κ) (l : List κ) (i : Nat) (acc : List Nat) :
    (l.zipIdx i).foldl strataStep (some k0, acc) = (some k0, acc ++ ((l.zipIdx i).filter (fun p => decide (k0 < p.1))).map Prod.snd) := by
  induction l generalizing i acc with
  | nil => simp
  | cons a l ih =>
    rw [List.zipIdx_cons, List.foldl_cons, List.filter_cons]
    by_cases h : k0 < a
    · simp [strataStep, h, ih]
    · simp [strataStep, h, ih]

/-- For sorted keys: the first stratum has all keys equal to the smallest; each other stratum has one element. -/
theorem strata_sorted {κ : Type*} [LinearOrder κ] (k0 : κ) (A B : List κ) (hA : ∀ a ∈ A, ¬ k0 < a) (hB : ∀ b ∈ B, k0 < b) :
    strata (k0 :: (A ++ B)) = 0 :: List.range' (1 + A.length) B.length := by
  unfold strata
  rw [List.zipIdx_cons, List.foldl_cons]
  simp only [strataStep]
  rw [strata_fold]
  simp only [List.singleton_append, Nat.zero_add, List.cons.injEq, true_and]
  rw [List.zipIdx_append, List.filter_append, List.filter_eq_nil_iff.2, List.nil_append, List.filter_eq_self.2]
  · rw [List.zipIdx_map_snd]
  · intro p hp
    have := List.mem_map_of_mem (f := Prod.fst) hp
    rw [List.zipIdx_map_fst] at this
    simpa using hB _ this
  · intro p hp
    have := List.mem_map_of_mem (f := Prod.fst) hp
    rw [List.zipIdx_map_fst] at this
    simpa using hA _ this

theorem strataResults_range (isMin : Bool) (sorted : List (Elem (Tup V) T)) (s d : Nat) (hd : s + d = sorted.length) :
    strataResults c isMin sorted (List.range' s d) = (List.range' s d).flatMap (fun i => stratumResult c isMin sorted i (i + 1)) := by
  induction d generalizing s with
  | zero => rfl
  | succ d ih =>
    cases d with
    | zero =>
      simp [strataResults, ← hd]
    | succ d =>
      have := ih (s + 1) (by omega)
      rw [List.range'_succ, List.range'_succ, strataResults, List.flatMap_cons]
      rw [List.range'_succ] at this
      rw [this]

theorem strataResults_eq (isMin : Bool) (sorted : List (Elem (Tup V) T)) (m d : Nat) (hd : m + d = sorted.length) :
    strataResults c isMin sorted (0 :: List.range' m d) =
      stratumResult c isMin sorted 0 m ++ (List.range' m d).flatMap (fun i => stratumResult c isMin sorted i (i + 1)) := by
  cases d with
  | zero => simp [strataResults, ← hd]
  | succ d =>
    have := strataResults_range (c := c) isMin sorted m (d + 1) hd
    rw [List.range'_succ] at this ⊢
    rw [strataResults, this]

end Scallop.Agg
