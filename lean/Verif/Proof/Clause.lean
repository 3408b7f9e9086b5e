import Verif.Spec.World
import Mathlib.Tactic.Linarith

/-!
# Lemmas about conjunctions and exclusions
-/

namespace Scallop

section BSet
variable {α : Type*} [LinearOrder α]

theorem mem_bsetInsert (x y : α) (l : List α) : y ∈ bsetInsert x l ↔ y = x ∨ y ∈ l := by
  induction l with
  | nil => simp [bsetInsert]
  | cons z l ih =>
    unfold bsetInsert
    split
    · simp
    · split
      · rename_i h; subst h; simp
      · simp only [List.mem_cons, ih]; tauto

theorem bsetInsert_asc (x : α) (l : List α) (h : Asc l) : Asc (bsetInsert x l) := by
  induction l with
  | nil => simp [bsetInsert, Asc]
  | cons z l ih =>
    have hz := List.pairwise_cons.mp h
    unfold bsetInsert
    split
    · rename_i hx
      exact List.pairwise_cons.mpr ⟨fun y hy => by
        rcases List.mem_cons.mp hy with rfl | hy
        · exact hx
        · exact hx.trans (hz.1 y hy), h⟩
    · split
      · exact h
      · rename_i h1 h2
        refine List.pairwise_cons.mpr ⟨fun y hy => ?_, ih hz.2⟩
        rcases (mem_bsetInsert x y l).mp hy with rfl | hy
        · exact lt_of_le_of_ne (not_lt.mp h1) (Ne.symm h2)
        · exact hz.1 y hy

theorem foldl_bsetInsert (l : List α) : ∀ s : List α, Asc s →
    Asc (l.foldl (fun s x => bsetInsert x s) s) ∧ ∀ y, y ∈ l.foldl (fun s x => bsetInsert x s) s ↔ y ∈ s ∨ y ∈ l := by
  induction l with
  | nil => intro s hs; exact ⟨hs, by simp⟩
  | cons x l ih =>
    intro s hs
    obtain ⟨h1, h2⟩ := ih (bsetInsert x s) (bsetInsert_asc x s hs)
    refine ⟨h1, fun y => ?_⟩
    simp only [List.foldl_cons]
    rw [h2 y, mem_bsetInsert]
    simp only [List.mem_cons]; tauto

theorem bsetCollect_asc (l : List α) : Asc (bsetCollect l) := (foldl_bsetInsert l [] List.Pairwise.nil).1

theorem mem_bsetCollect (l : List α) (y : α) : y ∈ bsetCollect l ↔ y ∈ l := by
  unfold bsetCollect; rw [(foldl_bsetInsert l [] List.Pairwise.nil).2 y]; simp

/-- An ascending list is determined by its elements. -/
theorem Asc.ext {l1 l2 : List α} (h1 : Asc l1) (h2 : Asc l2) (h : ∀ x, x ∈ l1 ↔ x ∈ l2) : l1 = l2 := by
  have hn1 : l1.Nodup := h1.imp (fun h => ne_of_lt h)
  have hn2 : l2.Nodup := h2.imp (fun h => ne_of_lt h)
  have hp : l1.Perm l2 := (List.perm_ext_iff_of_nodup hn1 hn2).mpr h
  exact hp.eq_of_pairwise (fun a b _ _ ha hb => (lt_asymm ha hb).elim) h1 h2

end BSet

theorem mem_posFactIds (c : Clause) (f : Nat) : f ∈ c.posFactIds ↔ Literal.pos f ∈ c := by
  unfold Clause.posFactIds
  rw [mem_bsetCollect, List.mem_filterMap]
  constructor
  · rintro ⟨l, hl, h⟩
    cases l with
    | pos v => simp only [Option.some.injEq] at h; subst h; exact hl
    | neg v => cases h
  · intro h; exact ⟨_, h, rfl⟩

theorem posFactIds_asc (c : Clause) : Asc c.posFactIds := bsetCollect_asc _

/-! ### merge -/

theorem Literal.eq_of {a b : Literal} (h1 : a.factId = b.factId) (h2 : a.sign = b.sign) : a = b := by
  cases a <;> cases b <;> simp_all [Literal.factId, Literal.sign]

/-- The two clauses have an opposite pair. -/
def Clause.Clash (c1 c2 : Clause) : Prop := ∃ a ∈ c1, a.negate ∈ c2

theorem mergeFrom_spec (x : Literal) (xs : Clause) (rec : Clause → Option Clause) (hx : Clause.Sorted (x :: xs))
    (hrec : ∀ ys, Clause.Sorted ys → (∀ c, rec ys = some c → Clause.Sorted c ∧ ∀ l, l ∈ c ↔ l ∈ xs ∨ l ∈ ys) ∧
      (rec ys = none ↔ Clause.Clash xs ys)) : ∀ ys, Clause.Sorted ys →
    (∀ c, Clause.mergeFrom x rec ys = some c → Clause.Sorted c ∧ ∀ l, l ∈ c ↔ l ∈ x :: xs ∨ l ∈ ys) ∧
      (Clause.mergeFrom x rec ys = none ↔ Clause.Clash (x :: xs) ys) := by
  have hx1 := (List.pairwise_cons.mp hx).1
  intro ys
  induction ys with
  | nil =>
    intro _
    obtain ⟨h1, h2⟩ := hrec [] List.Pairwise.nil
    have hno : ¬ Clause.Clash xs [] := by rintro ⟨a, _, h⟩; simp at h
    refine ⟨?_, ?_⟩
    · intro c hc
      obtain ⟨c', hc', rfl⟩ := Option.map_eq_some_iff.mp hc
      obtain ⟨h3, h4⟩ := h1 c' hc'
      refine ⟨List.pairwise_cons.mpr ⟨fun l hl => ?_, h3⟩, fun l => by simp [h4 l]⟩
      rcases (h4 l).mp hl with h | h
      · exact hx1 l h
      · simp at h
    · simp only [Clause.mergeFrom, Option.map_eq_none_iff, h2]
      constructor
      · intro h; exact absurd h hno
      · rintro ⟨a, _, h⟩; simp at h
  | cons y ys ih =>
    intro hys
    have hy1 := (List.pairwise_cons.mp hys).1
    have hys' := (List.pairwise_cons.mp hys).2
    unfold Clause.mergeFrom
    split
    · -- same fact
      rename_i hid
      obtain ⟨h1, h2⟩ := hrec ys hys'
      have hkeep : x.sign = y.sign →
          (∀ c, (rec ys).map (x :: ·) = some c → Clause.Sorted c ∧ ∀ l, l ∈ c ↔ l ∈ x :: xs ∨ l ∈ y :: ys) ∧
          ((rec ys).map (x :: ·) = none ↔ Clause.Clash (x :: xs) (y :: ys)) := by
        intro hs
        obtain rfl := Literal.eq_of hid hs
        refine ⟨?_, ?_⟩
        · intro c hc
          obtain ⟨c', hc', rfl⟩ := Option.map_eq_some_iff.mp hc
          obtain ⟨h3, h4⟩ := h1 c' hc'
          refine ⟨List.pairwise_cons.mpr ⟨fun l hl => ?_, h3⟩, fun l => by simp only [List.mem_cons, h4 l]; tauto⟩
          rcases (h4 l).mp hl with h | h
          · exact hx1 l h
          · exact hy1 l h
        · rw [Option.map_eq_none_iff, h2]
          constructor
          · rintro ⟨a, ha, hb⟩; exact ⟨a, by simp [ha], by simp [hb]⟩
          · rintro ⟨a, ha, hb⟩
            rcases List.mem_cons.mp ha with rfl | ha
            · rcases List.mem_cons.mp hb with hb | hb
              · cases a <;> simp [Literal.negate] at hb
              · have := hy1 _ hb; cases a <;> simp [Literal.negate, Literal.factId] at this
            · rcases List.mem_cons.mp hb with hb | hb
              · have := hx1 a ha; rw [← hb] at this; cases a <;> simp [Literal.negate, Literal.factId] at this
              · exact ⟨a, ha, hb⟩
      have hdrop : x.sign ≠ y.sign → Clause.Clash (x :: xs) (y :: ys) := by
        intro hs
        refine ⟨x, by simp, ?_⟩
        have : x.negate = y := by
          cases x <;> cases y <;> simp_all [Literal.factId, Literal.sign, Literal.negate]
        simp [this]
      cases hsx : x.sign <;> cases hsy : y.sign
      · have : (.neg x.factId : Literal) = x := Literal.eq_of rfl (by rw [hsx]; rfl)
        simp only [this]; exact hkeep (by rw [hsx, hsy])
      · exact ⟨fun c hc => by simp at hc, by simp only [true_iff]; exact hdrop (by rw [hsx, hsy]; simp)⟩
      · exact ⟨fun c hc => by simp at hc, by simp only [true_iff]; exact hdrop (by rw [hsx, hsy]; simp)⟩
      · have : (.pos x.factId : Literal) = x := Literal.eq_of rfl (by rw [hsx]; rfl)
        simp only [this]; exact hkeep (by rw [hsx, hsy])
    · rename_i hid
      split
      · rename_i hlt
        obtain ⟨h1, h2⟩ := hrec (y :: ys) hys
        refine ⟨?_, ?_⟩
        · intro c hc
          obtain ⟨c', hc', rfl⟩ := Option.map_eq_some_iff.mp hc
          obtain ⟨h3, h4⟩ := h1 c' hc'
          refine ⟨List.pairwise_cons.mpr ⟨fun l hl => ?_, h3⟩, fun l => by simp only [List.mem_cons, h4 l]; tauto⟩
          rcases (h4 l).mp hl with h | h
          · exact hx1 l h
          · rcases List.mem_cons.mp h with rfl | h
            · exact hlt
            · exact hlt.trans (hy1 l h)
        · rw [Option.map_eq_none_iff, h2]
          constructor
          · rintro ⟨a, ha, hb⟩; exact ⟨a, by simp [ha], hb⟩
          · rintro ⟨a, ha, hb⟩
            rcases List.mem_cons.mp ha with rfl | ha
            · have hida : a.negate.factId = a.factId := by cases a <;> rfl
              rcases List.mem_cons.mp hb with hb | hb
              · rw [← hb, hida] at hid; exact absurd rfl hid
              · have := hy1 _ hb; omega
            · exact ⟨a, ha, hb⟩
      · rename_i hnlt
        have hgt : y.factId < x.factId := by omega
        obtain ⟨h1, h2⟩ := ih hys'
        refine ⟨?_, ?_⟩
        · intro c hc
          obtain ⟨c', hc', rfl⟩ := Option.map_eq_some_iff.mp hc
          obtain ⟨h3, h4⟩ := h1 c' hc'
          refine ⟨List.pairwise_cons.mpr ⟨fun l hl => ?_, h3⟩, fun l => by simp only [List.mem_cons, h4 l]; tauto⟩
          rcases (h4 l).mp hl with h | h
          · rcases List.mem_cons.mp h with rfl | h
            · exact hgt
            · exact hgt.trans (hx1 l h)
          · exact hy1 l h
        · rw [Option.map_eq_none_iff, h2]
          constructor
          · rintro ⟨a, ha, hb⟩; exact ⟨a, ha, by simp [hb]⟩
          · rintro ⟨a, ha, hb⟩
            have hida : a.negate.factId = a.factId := by cases a <;> rfl
            rcases List.mem_cons.mp hb with hb | hb
            · rw [hb] at hida
              rcases List.mem_cons.mp ha with rfl | ha
              · omega
              · have := hx1 a ha; omega
            · exact ⟨a, ha, hb⟩

theorem Clause.merge_spec : ∀ (c1 c2 : Clause), c1.Sorted → c2.Sorted →
    (∀ c, c1.merge c2 = some c → Clause.Sorted c ∧ ∀ l, l ∈ c ↔ l ∈ c1 ∨ l ∈ c2) ∧ (c1.merge c2 = none ↔ Clause.Clash c1 c2) := by
  intro c1
  induction c1 with
  | nil =>
    intro c2 _ h2
    refine ⟨?_, ?_⟩
    · intro c hc; obtain rfl := Option.some.inj hc; exact ⟨h2, by simp⟩
    · simp only [Clause.merge, false_iff, reduceCtorEq]; rintro ⟨a, ha, _⟩; simp at ha
  | cons x xs ih =>
    intro c2 h1 h2
    exact mergeFrom_spec x xs (Clause.merge xs) h1 (fun ys hys => ih ys (List.pairwise_cons.mp h1).2 hys) c2 h2

theorem mergeUncheckedFrom_mem (x : Literal) (xs : Clause) (rec : Clause → Clause)
    (hrec : ∀ ys l, l ∈ rec ys ↔ l ∈ xs ∨ l ∈ ys) : ∀ ys l, l ∈ Clause.mergeUncheckedFrom x rec ys ↔ l ∈ x :: xs ∨ l ∈ ys := by
  intro ys
  induction ys with
  | nil => intro l; simp [Clause.mergeUncheckedFrom, hrec]
  | cons y ys ih =>
    intro l
    unfold Clause.mergeUncheckedFrom
    split
    · rename_i hid
      cases x <;> cases y <;>
        (simp only [Literal.factId] at hid; subst hid; simp only [Literal.sign, Literal.factId, List.mem_cons, hrec]; tauto)
    · split
      · simp only [List.mem_cons, hrec]; tauto
      · simp only [List.mem_cons, ih]; tauto

theorem Clause.mergeUnchecked_mem : ∀ (c1 c2 : Clause) (l : Literal), l ∈ c1.mergeUnchecked c2 ↔ l ∈ c1 ∨ l ∈ c2 := by
  intro c1
  induction c1 with
  | nil => intro c2 l; simp [Clause.mergeUnchecked]
  | cons x xs ih => intro c2 l; exact mergeUncheckedFrom_mem x xs _ ih c2 l

theorem mergeUncheckedFrom_sorted (x : Literal) (xs : Clause) (rec : Clause → Clause) (hx : (x :: xs).Pairwise (fun a b => a.factId ≤ b.factId))
    (hmem : ∀ ys l, l ∈ rec ys ↔ l ∈ xs ∨ l ∈ ys)
    (hrec : ∀ ys, ys.Pairwise (fun a b => a.factId ≤ b.factId) → (rec ys).Pairwise (fun a b => a.factId ≤ b.factId)) :
    ∀ ys, ys.Pairwise (fun a b => a.factId ≤ b.factId) → (Clause.mergeUncheckedFrom x rec ys).Pairwise (fun a b => a.factId ≤ b.factId) := by
  have hx1 := (List.pairwise_cons.mp hx).1
  intro ys
  induction ys with
  | nil =>
    intro _
    exact List.pairwise_cons.mpr ⟨fun l hl => hx1 l (by simpa using (hmem [] l).mp hl), hrec [] List.Pairwise.nil⟩
  | cons y ys ih =>
    intro hys
    obtain ⟨hy1, hys'⟩ := List.pairwise_cons.mp hys
    unfold Clause.mergeUncheckedFrom
    split
    · rename_i hid
      have hall : ∀ l ∈ rec ys, x.factId ≤ l.factId := by
        intro l hl
        rcases (hmem ys l).mp hl with h | h
        · exact hx1 l h
        · have := hy1 l h; omega
      have hr := hrec ys hys'
      split
      · exact List.pairwise_cons.mpr ⟨hall, hr⟩
      · exact List.pairwise_cons.mpr ⟨hall, hr⟩
      · refine List.pairwise_cons.mpr ⟨?_, List.pairwise_cons.mpr ⟨hall, hr⟩⟩
        intro l hl
        rcases List.mem_cons.mp hl with rfl | hl
        · exact le_refl _
        · exact hall l hl
    · split
      · refine List.pairwise_cons.mpr ⟨fun l hl => ?_, hrec _ hys⟩
        rcases (hmem _ l).mp hl with h | h
        · exact hx1 l h
        · rcases List.mem_cons.mp h with rfl | h
          · omega
          · have := hy1 l h; omega
      · refine List.pairwise_cons.mpr ⟨fun l hl => ?_, ih hys'⟩
        rcases (mergeUncheckedFrom_mem x xs rec hmem ys l).mp hl with h | h
        · rcases List.mem_cons.mp h with rfl | h
          · omega
          · have := hx1 l h; omega
        · exact hy1 l h

theorem Clause.mergeUnchecked_sorted : ∀ (c1 c2 : Clause), c1.Pairwise (fun a b => a.factId ≤ b.factId) →
    c2.Pairwise (fun a b => a.factId ≤ b.factId) → (c1.mergeUnchecked c2).Pairwise (fun a b => a.factId ≤ b.factId) := by
  intro c1
  induction c1 with
  | nil => intro c2 _ h; exact h
  | cons x xs ih =>
    intro c2 h1 h2
    exact mergeUncheckedFrom_sorted x xs _ h1 (Clause.mergeUnchecked_mem xs) (fun ys hys => ih ys (List.pairwise_cons.mp h1).2 hys) c2 h2

/-! ### isValid -/

theorem isValid_spec : ∀ c : Clause, c.Pairwise (fun a b => a.factId ≤ b.factId) →
    (c.isValid = true ↔ ∀ f, ¬ (Literal.pos f ∈ c ∧ Literal.neg f ∈ c)) := by
  intro c
  induction c with
  | nil => simp [Clause.isValid]
  | cons a c ih =>
    intro h
    cases c with
    | nil =>
      simp only [Clause.isValid, true_iff, List.mem_singleton]
      rintro f ⟨rfl, h⟩; cases h
    | cons b c =>
      obtain ⟨h1, h2⟩ := List.pairwise_cons.mp h
      have ih' := ih h2
      -- same literal, or a later fact, or an opposite literal
      have hstep : (∀ f, ¬ ((a = .pos f ∧ b = .neg f) ∨ (a = .neg f ∧ b = .pos f))) →
          ((∀ f, ¬ (Literal.pos f ∈ b :: c ∧ Literal.neg f ∈ b :: c)) ↔ ∀ f, ¬ (Literal.pos f ∈ a :: b :: c ∧ Literal.neg f ∈ a :: b :: c)) := by
        intro hab
        constructor
        · intro hv f ⟨hp, hn⟩
          have hb1 := (List.pairwise_cons.mp h2).1
          rcases List.mem_cons.mp hp with hp1 | hp1 <;> rcases List.mem_cons.mp hn with hn1 | hn1
          · rw [← hp1] at hn1; cases hn1
          · -- a = pos f, neg f later: b has fact f
            have hbf : b.factId = f := by
              have e1 := h1 b (by simp)
              rw [← hp1] at e1
              simp only [Literal.factId] at e1
              rcases List.mem_cons.mp hn1 with rfl | hn2
              · rfl
              · have e2 := hb1 _ hn2; simp only [Literal.factId] at e2; exact Nat.le_antisymm e2 e1
            cases b with
            | pos g => simp only [Literal.factId] at hbf; subst hbf; exact hv g ⟨by simp, hn1⟩
            | neg g => simp only [Literal.factId] at hbf; subst hbf; exact hab g (Or.inl ⟨hp1.symm, rfl⟩)
          · have hbf : b.factId = f := by
              have e1 := h1 b (by simp)
              rw [← hn1] at e1
              simp only [Literal.factId] at e1
              rcases List.mem_cons.mp hp1 with rfl | hp2
              · rfl
              · have e2 := hb1 _ hp2; simp only [Literal.factId] at e2; exact Nat.le_antisymm e2 e1
            cases b with
            | pos g => simp only [Literal.factId] at hbf; subst hbf; exact hab g (Or.inr ⟨hn1.symm, rfl⟩)
            | neg g => simp only [Literal.factId] at hbf; subst hbf; exact hv g ⟨hp1, by simp⟩
          · exact hv f ⟨hp1, hn1⟩
        · intro hv f ⟨hp, hn⟩; exact hv f ⟨List.mem_cons_of_mem _ hp, List.mem_cons_of_mem _ hn⟩
      cases a with
      | pos x =>
        cases b with
        | pos y => simp only [Clause.isValid]; rw [ih']; exact hstep (by simp)
        | neg y =>
          simp only [Clause.isValid]
          split
          · rename_i e; subst e
            simp only [Bool.false_eq_true, false_iff]
            intro hv; exact hv x ⟨by simp, by simp⟩
          · rename_i e; rw [ih']; exact hstep (by rintro f (⟨h1, h2⟩ | ⟨h1, h2⟩) <;> simp_all)
      | neg x =>
        cases b with
        | neg y => simp only [Clause.isValid]; rw [ih']; exact hstep (by simp)
        | pos y =>
          simp only [Clause.isValid]
          split
          · rename_i e; subst e
            simp only [Bool.false_eq_true, false_iff]
            intro hv; exact hv x ⟨by simp, by simp⟩
          · rename_i e; rw [ih']; exact hstep (by rintro f (⟨h1, h2⟩ | ⟨h1, h2⟩) <;> simp_all)

/-! ### conflicts -/

/-- Two different common members, or one if `same`. -/
def TwoCommon (same : Bool) (js fs : List Nat) : Prop :=
  (same = true ∧ ∃ a ∈ js, a ∈ fs) ∨ ∃ a ∈ js, a ∈ fs ∧ ∃ b ∈ js, b ∈ fs ∧ a ≠ b

theorem conflictFrom_spec (j : Nat) (js : List Nat) (rec : Bool → List Nat → Bool) (hj : Asc (j :: js))
    (hrec : ∀ same fs, Asc fs → (rec same fs = true ↔ TwoCommon same js fs)) : ∀ same fs, Asc fs →
    (conflictFrom j rec same fs = true ↔ TwoCommon same (j :: js) fs) := by
  have hj1 := (List.pairwise_cons.mp hj).1
  intro same fs
  induction fs with
  | nil => intro _; simp [conflictFrom, TwoCommon]
  | cons f fs ih =>
    intro hfs
    obtain ⟨hf1, hf2⟩ := List.pairwise_cons.mp hfs
    unfold conflictFrom
    split
    · rename_i e; subst e
      have hnj : j ∉ fs := fun h => absurd (hf1 j h) (lt_irrefl _)
      have hnj' : j ∉ js := fun h => absurd (hj1 j h) (lt_irrefl _)
      split
      · rename_i hs; simp only [true_iff]; exact Or.inl ⟨hs, j, by simp, by simp⟩
      · rename_i hs
        rw [hrec true fs hf2]
        constructor
        · rintro (⟨_, a, ha, hb⟩ | ⟨a, ha, hb, b, hc, hd, hne⟩)
          · refine Or.inr ⟨j, by simp, by simp, a, by simp [ha], by simp [hb], fun e => hnj (e ▸ hb)⟩
          · exact Or.inr ⟨a, by simp [ha], by simp [hb], b, by simp [hc], by simp [hd], hne⟩
        · rintro (⟨h, _⟩ | ⟨a, ha, hb, b, hc, hd, hne⟩)
          · exact absurd h hs
          · left
            refine ⟨rfl, ?_⟩
            have hmem : ∀ x, x ∈ j :: js → x ∈ j :: fs → x ≠ j → x ∈ js ∧ x ∈ fs := by
              intro x h1 h2 h3
              exact ⟨(List.mem_cons.mp h1).resolve_left h3, (List.mem_cons.mp h2).resolve_left h3⟩
            by_cases haj : a = j
            · exact ⟨b, hmem b hc hd (fun e => hne (haj.trans e.symm))⟩
            · exact ⟨a, hmem a ha hb haj⟩
    · rename_i hne
      split
      · rename_i hlt
        rw [hrec same (f :: fs) hfs]
        have hnj : j ∉ f :: fs := by
          intro h
          rcases List.mem_cons.mp h with h | h
          · exact hne h
          · have := hf1 j h; omega
        unfold TwoCommon
        constructor
        · rintro (⟨h, a, ha, hb⟩ | ⟨a, ha, hb, b, hc, hd, hne⟩)
          · exact Or.inl ⟨h, a, by simp [ha], hb⟩
          · exact Or.inr ⟨a, by simp [ha], hb, b, by simp [hc], hd, hne⟩
        · have hdrop : ∀ x, x ∈ j :: js → x ∈ f :: fs → x ∈ js := fun x h1 h2 =>
            (List.mem_cons.mp h1).resolve_left (fun e => hnj (e ▸ h2))
          rintro (⟨h, a, ha, hb⟩ | ⟨a, ha, hb, b, hc, hd, hne⟩)
          · exact Or.inl ⟨h, a, hdrop a ha hb, hb⟩
          · exact Or.inr ⟨a, hdrop a ha hb, hb, b, hdrop b hc hd, hd, hne⟩
      · rename_i hnlt
        rw [ih hf2]
        have hnf : f ∉ j :: js := by
          intro h
          rcases List.mem_cons.mp h with h | h
          · exact hne h.symm
          · have := hj1 f h; omega
        unfold TwoCommon
        constructor
        · rintro (⟨h, a, ha, hb⟩ | ⟨a, ha, hb, b, hc, hd, hne⟩)
          · exact Or.inl ⟨h, a, ha, by simp [hb]⟩
          · exact Or.inr ⟨a, ha, by simp [hb], b, hc, by simp [hd], hne⟩
        · have hdrop : ∀ x, x ∈ j :: js → x ∈ f :: fs → x ∈ fs := fun x h1 h2 =>
            (List.mem_cons.mp h2).resolve_left (fun e => hnf (e ▸ h1))
          rintro (⟨h, a, ha, hb⟩ | ⟨a, ha, hb, b, hc, hd, hne⟩)
          · exact Or.inl ⟨h, a, ha, hdrop a ha hb⟩
          · exact Or.inr ⟨a, ha, hdrop a ha hb, b, hc, hdrop b hc hd, hne⟩

theorem conflictLoop_spec : ∀ js, Asc js → ∀ same fs, Asc fs → (conflictLoop js same fs = true ↔ TwoCommon same js fs) := by
  intro js
  induction js with
  | nil => intro _ same fs _; simp [conflictLoop, TwoCommon]
  | cons j js ih =>
    intro hj same fs hfs
    exact conflictFrom_spec j js (conflictLoop js) hj (fun same fs h => ih (List.pairwise_cons.mp hj).2 same fs h) same fs hfs

theorem asc_le_last {l : List Nat} (h : Asc l) {m : Nat} (hm : l.getLast? = some m) {x : Nat} (hx : x ∈ l) : x ≤ m := by
  have hne : l ≠ [] := by rintro rfl; simp at hm
  rw [List.getLast?_eq_getLast_of_ne_nil hne] at hm
  obtain rfl := Option.some.inj hm
  rw [← List.dropLast_append_getLast hne] at hx h
  rcases List.mem_append.mp hx with hx | hx
  · exact le_of_lt ((List.pairwise_append.mp h).2.2 x hx _ (by simp))
  · simp at hx; omega

theorem asc_head_le {l : List Nat} (h : Asc l) {m : Nat} (hm : l.head? = some m) {x : Nat} (hx : x ∈ l) : m ≤ x := by
  cases l with
  | nil => simp at hm
  | cons a l =>
    simp only [List.head?_cons, Option.some.injEq] at hm
    subst hm
    rcases List.mem_cons.mp hx with rfl | hx
    · exact le_refl _
    · exact le_of_lt ((List.pairwise_cons.mp h).1 x hx)

theorem disjunctionConflict_spec (js fs : List Nat) (hj : Asc js) (hf : Asc fs) (hne : fs ≠ []) :
    ∃ b, disjunctionConflict js fs = some b ∧ (b = true ↔ ∃ a ∈ js, a ∈ fs ∧ ∃ b ∈ js, b ∈ fs ∧ a ≠ b) := by
  unfold disjunctionConflict
  split
  · rename_i h2
    refine ⟨false, rfl, ?_⟩
    simp only [Bool.false_eq_true, false_iff]
    rintro ⟨a, ha, _, b, hb, _, hab⟩
    match js, h2 with
    | [], _ => simp at ha
    | [x], _ => simp at ha hb; exact hab (ha.trans hb.symm)
  · rename_i h2
    have hjne : js ≠ [] := by rintro rfl; simp at h2
    rw [List.getLast?_eq_getLast_of_ne_nil hjne, List.head?_eq_some_head hjne, List.getLast?_eq_getLast_of_ne_nil hne,
      List.head?_eq_some_head hne]
    simp only
    split
    · rename_i hout
      refine ⟨false, rfl, ?_⟩
      simp only [Bool.false_eq_true, false_iff]
      rintro ⟨a, ha, ha', _⟩
      have e1 := asc_le_last hj (List.getLast?_eq_getLast_of_ne_nil hjne) ha
      have e2 := asc_head_le hj (List.head?_eq_some_head hjne) ha
      have e3 := asc_le_last hf (List.getLast?_eq_getLast_of_ne_nil hne) ha'
      have e4 := asc_head_le hf (List.head?_eq_some_head hne) ha'
      omega
    · refine ⟨_, rfl, ?_⟩
      rw [conflictLoop_spec js hj false fs hf]
      simp [TwoCommon]

theorem anyConflict_spec (fs : List Nat) (hf : Asc fs) (hne : fs ≠ []) : ∀ ds : List (List Nat), (∀ d ∈ ds, Asc d) →
    ∃ b, Disjunctions.anyConflict ds fs = some b ∧ (b = true ↔ ∃ d ∈ ds, ∃ a ∈ d, a ∈ fs ∧ ∃ b ∈ d, b ∈ fs ∧ a ≠ b) := by
  intro ds
  induction ds with
  | nil => intro _; exact ⟨false, rfl, by simp⟩
  | cons d ds ih =>
    intro hd
    obtain ⟨b, hb, hb'⟩ := disjunctionConflict_spec d fs (hd d (by simp)) hf hne
    obtain ⟨b2, hb2, hb2'⟩ := ih (fun x hx => hd x (by simp [hx]))
    unfold Disjunctions.anyConflict
    rw [hb]
    cases b with
    | true => exact ⟨true, rfl, by simp only [true_iff]; exact ⟨d, by simp, hb'.mp rfl⟩⟩
    | false =>
      refine ⟨b2, hb2, ?_⟩
      rw [hb2']
      constructor
      · rintro ⟨x, hx, h⟩; exact ⟨x, by simp [hx], h⟩
      · rintro ⟨x, hx, h⟩
        rcases List.mem_cons.mp hx with rfl | hx
        · exact absurd (hb'.mpr h) (by simp)
        · exact ⟨x, hx, h⟩

theorem hasConflict_spec (ds : Disjunctions) (hds : ∀ d ∈ ds.disjunctions, Asc d) (fs : List Nat) (hf : Asc fs) :
    (ds.hasConflict? fs).isSome ∧
    (ds.hasConflict fs = true ↔ ∃ d ∈ ds.disjunctions, ∃ a ∈ d, a ∈ fs ∧ ∃ b ∈ d, b ∈ fs ∧ a ≠ b) := by
  unfold Disjunctions.hasConflict Disjunctions.hasConflict?
  split
  · rename_i h2
    refine ⟨rfl, ?_⟩
    simp only [Option.some.injEq, Bool.false_eq_true, decide_false, false_iff]
    rintro ⟨d, _, a, _, ha, b, _, hb, hab⟩
    match fs, h2 with
    | [], _ => simp at ha
    | [x], _ => simp at ha hb; exact hab (ha.trans hb.symm)
  · rename_i h2
    have hne : fs ≠ [] := by rintro rfl; simp at h2
    obtain ⟨b, hb, hb'⟩ := anyConflict_spec fs hf hne ds.disjunctions hds
    rw [hb]
    exact ⟨rfl, by simp only [Option.some.injEq, decide_eq_true_eq]; exact hb'⟩

end Scallop
