import Verif.Model.Statics
import Verif.Proof.Iteration

namespace Scallop.Statics

open Scallop

section collection
variable {α T W : Type*} [LinearOrder α]

/-! ### Merging -/

theorem mergeOrdered_spec (c : Prov T W) (a b : Elem α T) (l1 l2 : List (Elem α T)) (h1 : Sorted (a :: l1)) (h2 : Sorted (b :: l2)) (hab : a.tuple ≤ b.tuple) :
    Sorted (mergeOrdered c a l1 b l2) ∧
      (a.tuple = b.tuple → tagsOf (mergeOrdered c a l1 b l2) a.tuple = [a.tag]) ∧
      ∀ x, (a.tuple = b.tuple → x ≠ a.tuple) → tagsOf (mergeOrdered c a l1 b l2) x = tagsOf (Scallop.mergeOrdered c a l1 b l2) x := by
  have hsp := Scallop.mergeOrdered_spec c a.tuple a b l1 l2 h1 h2 hab
  have s1 := sorted_cons.mp h1
  have s2 := sorted_cons.mp h2
  by_cases hlast : ((a :: l1).getLast (by simp)).tuple < b.tuple
  · have e1 : mergeOrdered c a l1 b l2 = (a :: l1) ++ (b :: l2) := by unfold mergeOrdered; rw [if_pos hlast]
    have e2 : Scallop.mergeOrdered c a l1 b l2 = (a :: l1) ++ (b :: l2) := by unfold Scallop.mergeOrdered; rw [if_pos hlast]
    rw [e2] at hsp
    refine ⟨by rw [e1]; exact hsp.1, ?_, fun x _ => by rw [e1, e2]⟩
    intro he
    rw [e1]
    exact absurd he (ne_of_lt ((sorted_append.mp hsp.1).2.2 a (by simp) b (by simp)))
  · by_cases heq : a.tuple = b.tuple
    · have e1 : mergeOrdered c a l1 b l2 = a :: mergeLoop c l1 l2 := by unfold mergeOrdered; rw [if_neg hlast, if_pos heq]
      have e2 : Scallop.mergeOrdered c a l1 b l2 = { a with tag := c.add a.tag b.tag } :: mergeLoop c l1 l2 := by
        unfold Scallop.mergeOrdered; rw [if_neg hlast, if_pos heq]
      rw [e2] at hsp
      have hs : Sorted (a :: mergeLoop c l1 l2) :=
        sorted_cons.mpr ⟨(sorted_cons.mp hsp.1).1, (sorted_cons.mp hsp.1).2⟩
      refine ⟨by rw [e1]; exact hs, ?_, ?_⟩
      · intro _; rw [e1, tagsOf_cons, if_pos rfl, tagsOf_sorted_cons hs]
      · intro x hx
        have hx := hx heq
        rw [e1, e2, tagsOf_cons, tagsOf_cons, if_neg (Ne.symm hx), if_neg (Ne.symm hx)]
    · have e1 : mergeOrdered c a l1 b l2 = a :: mergeLoop c l1 (b :: l2) := by unfold mergeOrdered; rw [if_neg hlast, if_neg heq]
      have e2 : Scallop.mergeOrdered c a l1 b l2 = a :: mergeLoop c l1 (b :: l2) := by unfold Scallop.mergeOrdered; rw [if_neg hlast, if_neg heq]
      rw [e2] at hsp
      exact ⟨by rw [e1]; exact hsp.1, fun h => absurd h heq, fun x _ => by rw [e1, e2]⟩

/-- The first tuple of a list. -/
def firstTuple (l : List (Elem α T)) : Option α := l.head?.map Elem.tuple

/-- Merging differs from the interpreter's in one tag: that of a tuple that comes first in both lists, which keeps the tag of the first list. -/
theorem merge_spec (c : Prov T W) (l1 l2 : List (Elem α T)) (h1 : Sorted l1) (h2 : Sorted l2) :
    Sorted (merge c l1 l2) ∧ ∀ x, tagsOf (merge c l1 l2) x =
      if firstTuple l1 = some x ∧ firstTuple l2 = some x then tagsOf l1 x else tagsOf (Scallop.merge c l1 l2) x := by
  cases l1 with
  | nil => exact ⟨by simpa [merge] using h2, fun x => by simp [merge, Scallop.merge, firstTuple]⟩
  | cons a l1 =>
  cases l2 with
  | nil => exact ⟨by simpa [merge] using h1, fun x => by simp [merge, Scallop.merge, firstTuple]⟩
  | cons b l2 =>
    simp only [merge, Scallop.merge]
    split
    · rename_i hlt
      obtain ⟨g1, _, g3⟩ := mergeOrdered_spec c b a l2 l1 h2 h1 (le_of_lt hlt)
      refine ⟨g1, fun x => ?_⟩
      rw [if_neg]
      · exact g3 x (fun h => absurd h (ne_of_lt hlt))
      · rintro ⟨e1, e2⟩
        simp only [firstTuple, List.head?_cons, Option.map_some, Option.some.injEq] at e1 e2
        rw [e1, e2] at hlt
        exact lt_irrefl _ hlt
    · rename_i hle
      obtain ⟨g1, g2, g3⟩ := mergeOrdered_spec c a b l1 l2 h1 h2 (not_lt.mp hle)
      refine ⟨g1, fun x => ?_⟩
      split
      · rename_i he
        simp only [firstTuple, List.head?_cons, Option.map_some, Option.some.injEq] at he
        obtain ⟨rfl, e2⟩ := he
        rw [g2 e2.symm, tagsOf_cons, if_pos rfl, tagsOf_sorted_cons h1]
      · rename_i he
        refine g3 x (fun h hx => he ?_)
        simp only [firstTuple, List.head?_cons, Option.map_some]
        rw [hx, ← h]; exact ⟨rfl, rfl⟩

theorem merge_sorted (c : Prov T W) {l1 l2 : List (Elem α T)} (h1 : Sorted l1) (h2 : Sorted l2) : Sorted (merge c l1 l2) := (merge_spec c l1 l2 h1 h2).1

theorem tuples_merge (c : Prov T W) {l1 l2 : List (Elem α T)} (h1 : Sorted l1) (h2 : Sorted l2) : tuples (merge c l1 l2) = tuples l1 ∪ tuples l2 := by
  rw [← Scallop.tuples_merge c h1 h2]
  ext x
  rw [mem_tuples_iff, mem_tuples_iff, (merge_spec c l1 l2 h1 h2).2 x]
  split
  · rename_i he
    obtain ⟨e1, e2⟩ := he
    cases l1 with
    | nil => simp [firstTuple] at e1
    | cons a l1 =>
      simp only [firstTuple, List.head?_cons, Option.map_some, Option.some.injEq] at e1
      have hx : x ∈ tuples (a :: l1) := ⟨a, by simp, e1⟩
      have hx' : x ∈ tuples (Scallop.merge c (a :: l1) l2) := by rw [Scallop.tuples_merge c h1 h2]; exact Or.inl hx
      exact ⟨fun _ => mem_tuples_iff.mp hx', fun _ => mem_tuples_iff.mp hx⟩
  · rfl

theorem mergeIntoStable_spec (c : Prov T W) : ∀ (bs : List (List (Elem α T))) (rec : List (Elem α T)), Sorted rec → (∀ b ∈ bs, Sorted b) →
    (∀ b ∈ mergeIntoStable c rec bs, Sorted b) ∧ tuplesB (mergeIntoStable c rec bs) = tuples rec ∪ tuplesB bs := by
  intro bs
  induction bs with
  | nil => intro rec h _; simp [mergeIntoStable, tuplesB_cons, h]
  | cons b bs ih =>
    intro rec h hb
    unfold mergeIntoStable
    split
    · have := ih (merge c rec b) (merge_sorted c h (hb b (by simp))) (fun d hd => hb d (List.mem_cons_of_mem _ hd))
      refine ⟨this.1, ?_⟩
      rw [this.2, tuples_merge c h (hb b (by simp)), tuplesB_cons, Set.union_assoc]
    · refine ⟨?_, by rw [tuplesB_cons]⟩
      intro d hd
      rcases List.mem_cons.mp hd with rfl | hd
      · exact h
      · exact hb d hd

theorem foldl_merge_spec (c : Prov T W) : ∀ (bs : List (List (Elem α T))) (b : List (Elem α T)), Sorted b → (∀ b ∈ bs, Sorted b) →
    Sorted (bs.foldl (merge c) b) ∧ tuples (bs.foldl (merge c) b) = tuples b ∪ tuplesB bs := by
  intro bs
  induction bs with
  | nil => intro b h _; simp [h]
  | cons d bs ih =>
    intro b h hb
    have hd := hb d (by simp)
    have := ih (merge c b d) (merge_sorted c h hd) (fun d hd => hb d (List.mem_cons_of_mem _ hd))
    refine ⟨this.1, ?_⟩
    rw [List.foldl_cons, this.2, tuples_merge c h hd, tuplesB_cons, Set.union_assoc]

/-- The stable batches after the first step of `changed`. -/
def stableAfter (c : Prov T W) (r : Relation α T) : List (List (Elem α T)) :=
  if r.recent.isEmpty then r.stable else (mergeIntoStable c r.recent r.stable.reverse).reverse

theorem stableAfter_spec (c : Prov T W) (r : Relation α T) (h : r.Wf) : (∀ b ∈ stableAfter c r, Sorted b) ∧ tuplesB (stableAfter c r) = r.visible := by
  unfold stableAfter Relation.visible
  split
  · rename_i he
    have : r.recent = [] := List.isEmpty_iff.mp he
    exact ⟨h.stable, by rw [this]; simp⟩
  · have := mergeIntoStable_spec c r.stable.reverse r.recent h.recent (fun b hb => h.stable b (List.mem_reverse.mp hb))
    refine ⟨fun b hb => this.1 b (List.mem_reverse.mp hb), ?_⟩
    rw [tuplesB_reverse, this.2, tuplesB_reverse, Set.union_comm]

/-- One step of a relation. -/
theorem changed_spec [LinearOrder W] (c : Prov T W) (r : Relation α T) (h : r.Wf) :
    (changed c r).2 = !(changed c r).1.recent.isEmpty ∧ (changed c r).1.Wf ∧ (changed c r).1.toAdd = [] ∧ (changed c r).1.waitlist = r.waitlist ∧
      (changed c r).1.visible = r.visible ∪ r.pending ∧ tuplesB (changed c r).1.stable ⊆ r.visible ∧ (r.stable = [] → r.recent = [] → (changed c r).1.stable = []) := by
  have hst := stableAfter_spec c r h
  have he : ∀ bs, r.toAdd.reverse = bs → changed c r = match bs with
      | [] => (⟨stableAfter c r, [], [], r.waitlist⟩, false)
      | b :: bs => (⟨(scheduleLfp c (bs.foldl (merge c) b) (stableAfter c r)).2, (scheduleLfp c (bs.foldl (merge c) b) (stableAfter c r)).1, [], r.waitlist⟩,
          !(scheduleLfp c (bs.foldl (merge c) b) (stableAfter c r)).1.isEmpty) := by
    rintro bs rfl
    unfold changed stableAfter
    rfl
  have hp : tuplesB r.toAdd.reverse = r.pending := tuplesB_reverse _
  have hnil : r.stable = [] → r.recent = [] → stableAfter c r = [] := by intro h1 h2; unfold stableAfter; simp [h1, h2]
  cases hb : r.toAdd.reverse with
  | nil =>
    rw [he _ hb]
    rw [hb] at hp
    refine ⟨rfl, ⟨hst.1, List.Pairwise.nil, by simp⟩, rfl, rfl, ?_, hst.2.subset, hnil⟩
    rw [← hp]
    unfold Relation.visible
    simp only [hst.2]
    ext x; simp [Relation.visible, tuples, tuplesB]
  | cons b bs =>
    rw [he _ hb]
    rw [hb] at hp
    have hta : ∀ d ∈ b :: bs, Sorted d := by intro d hd; rw [← hb] at hd; exact h.toAdd d (List.mem_reverse.mp hd)
    obtain ⟨f1, f2⟩ := foldl_merge_spec c bs b (hta b (by simp)) (fun d hd => hta d (by simp [hd]))
    obtain ⟨g1, g2⟩ := scheduleLfp_sorted c f1 hst.1
    have g3 := scheduleLfp_tuples c (bs.foldl (merge c) b) (stableAfter c r)
    rw [tuplesB_cons] at hp
    rw [f2, hst.2, hp] at g3
    refine ⟨rfl, ⟨g2, g1, by simp⟩, rfl, rfl, ?_, ?_, ?_⟩
    · have : (r.visible ∪ r.pending) = r.pending ∪ r.visible := Set.union_comm _ _
      rw [this, ← g3]
      exact Set.union_comm _ _
    · rw [← hst.2]; exact scheduleLfp_stable_sub c _ _
    · intro h1 h2
      simp only [hnil h1 h2]
      exact scheduleLfp_nil c _

end collection

variable {V T W ι κ : Type*} [LinearOrder V]

/-! ### Operators -/

theorem paired_pairs {l : List (Elem (Tup V) T)} (h : paired l = true) : Pairs l := by
  intro e he
  have := List.all_eq_true.mp h e he
  rw [Bool.and_eq_true, Option.isSome_iff_exists, Option.isSome_iff_exists] at this
  obtain ⟨⟨k, hk⟩, ⟨a, ha⟩⟩ := this
  exact ⟨k, a, hk, ha⟩

theorem search_split (g : Bool) (e : Elem (Tup V) T) (r : List (Elem (Tup V) T)) (p : Elem (Tup V) T → Bool) (hd : DownClosed (e :: r) p) (h : p e = true) :
    ∃ pre suf, e :: r = pre ++ suf ∧ search g (e :: r) p = suf ∧ pre ≠ [] ∧ ∀ x ∈ pre, p x = true := by
  unfold search
  cases g with
  | false => exact ⟨[e], r, rfl, rfl, by simp, by simpa using h⟩
  | true =>
    have h0 : cmpAt (e :: r) p 0 = true := by simp [cmpAt, h]
    have hb := gallopIndex_boundary (e :: r) p 0 hd (Or.inl rfl)
    have hg : searchAhead (e :: r) p = (e :: r).drop (gallopIndex (e :: r) 0 p) := by simp only [searchAhead, gallopIndex, h0, if_true]
    obtain ⟨h1, h2, h3⟩ := hb
    have hpos : gallopIndex (e :: r) 0 p ≠ 0 := by
      intro h'; rw [h'] at h3
      have := h3 e rfl
      rw [h] at this; cases this
    refine ⟨(e :: r).take (gallopIndex (e :: r) 0 p), _, (List.take_append_drop _ _).symm, by simpa using hg, ?_, ?_⟩
    · intro h'; simp at h'; exact hpos h'
    · intro x hx
      obtain ⟨i, hi, hxi⟩ := List.getElem_of_mem hx
      have hlt : i < gallopIndex (e :: r) 0 p := by rw [List.length_take] at hi; omega
      obtain ⟨y, hy, hpy⟩ := h2 i (Nat.zero_le _) hlt
      have : x = y := by
        rw [List.getElem_take] at hxi
        obtain ⟨hi', hy'⟩ := List.getElem?_eq_some_iff.mp hy
        rw [← hxi, ← hy']
      rw [this]; exact hpy

theorem keyBelow_downClosed {l : List (Elem (Tup V) T)} (hs : SortedLe l) (hk : Keyed l) (k : Tup V) : DownClosed l (keyBelow k) := by
  intro i j x y hij hx hy hpy
  rcases Nat.lt_or_eq_of_le hij with hlt | rfl
  · obtain ⟨hi, rfl⟩ := List.getElem?_eq_some_iff.mp hx
    obtain ⟨hj, rfl⟩ := List.getElem?_eq_some_iff.mp hy
    obtain ⟨kx, hkx⟩ := hk _ (List.getElem_mem hi)
    obtain ⟨ky, hky⟩ := hk _ (List.getElem_mem hj)
    have hle := Tup.at0_mono hkx hky (List.pairwise_iff_getElem.mp hs i j hi hj hlt)
    simp only [keyBelow, hkx, hky, decide_eq_true_eq] at hpy ⊢
    exact lt_of_le_of_lt hle hpy
  · rw [hx] at hy; cases hy; exact hpy

theorem keyRun_eq (k : Tup V) : ∀ (l : List (Elem (Tup V) T)), Keyed l → Scallop.keyRun k l = some (keyRun k l) := by
  intro l
  induction l with
  | nil => intro _; rfl
  | cons e l ih =>
    intro h
    obtain ⟨k', hk'⟩ := h e (by simp)
    have hi := ih (fun x hx => h x (List.mem_cons_of_mem _ hx))
    simp only [Scallop.keyRun, hk', hi, keyRun, List.takeWhile_cons, Option.some.injEq]
    by_cases he : k' = k
    · simp [he, keyRun]
    · simp [he]

theorem keyBelow_lt {k k' : Tup V} {e : Elem (Tup V) T} (h : keyBelow k e = true) (hk : e.tuple.at? 0 = some k') : k' < k := by
  simpa [keyBelow, hk] using h

theorem drop_append_eq {β : Type*} {l g s : List β} (h : l = g ++ s) : l.drop g.length = s := by subst h; simp

theorem joinLoop_spec (c : Prov T W) (g1 g2 : Bool) : ∀ (fuel : Nat) (A B : List (Elem (Tup V) T)),
    A.length + B.length ≤ fuel → SortedLe A → SortedLe B → Keyed A → Keyed B → joinLoop c g1 g2 fuel A B = joinSpec c A B := by
  intro fuel
  induction fuel with
  | zero =>
    intro A B h _ _ _ _
    have : A = [] := List.length_eq_zero_iff.mp (by omega)
    subst this; simp [joinLoop, joinSpec]
  | succ n ih =>
    intro A B h hA hB kA kB
    cases A with
    | nil => simp [joinLoop, joinSpec]
    | cons e1 r1 =>
    cases B with
    | nil => simp [joinLoop, joinSpec]
    | cons e2 r2 =>
      obtain ⟨k1, hk1⟩ := kA e1 (by simp)
      obtain ⟨k2, hk2⟩ := kB e2 (by simp)
      have kA1 : Keyed r1 := fun x hx => kA x (List.mem_cons_of_mem _ hx)
      have kB1 : Keyed r2 := fun x hx => kB x (List.mem_cons_of_mem _ hx)
      have hA' : ∀ x ∈ e1 :: r1, ∀ k, x.tuple.at? 0 = some k → k1 ≤ k := by
        intro x hx k hk
        rcases List.mem_cons.mp hx with rfl | hx
        · rw [hk1] at hk; cases hk; exact le_refl _
        · exact Tup.at0_mono hk1 hk ((List.pairwise_cons.mp hA).1 x hx)
      have hB' : ∀ x ∈ e2 :: r2, ∀ k, x.tuple.at? 0 = some k → k2 ≤ k := by
        intro x hx k hk
        rcases List.mem_cons.mp hx with rfl | hx
        · rw [hk2] at hk; cases hk; exact le_refl _
        · exact Tup.at0_mono hk2 hk ((List.pairwise_cons.mp hB).1 x hx)
      simp only [joinLoop, hk1, hk2]
      split
      · rename_i hlt
        obtain ⟨pre, suf, e, e', hne, hpre⟩ := search_split g1 e1 r1 (keyBelow k2) (keyBelow_downClosed hA kA k2) (by simp [keyBelow, hk1, hlt])
        rw [e', ih]
        · rw [e, joinSpec_drop_left]
          intro x hx y hy
          apply joinPair_none
          intro k k' hk hk' he
          have h1 := keyBelow_lt (hpre x hx) hk
          have h2 := hB' y hy k' hk'
          rw [he] at h1
          exact absurd h1 (not_lt.mpr h2)
        · have := congrArg List.length e
          have hl := List.length_pos_iff.mpr hne
          simp at this h; simp; omega
        · rw [e] at hA; exact hA.append_right
        · exact hB
        · intro x hx; exact kA x (by rw [e]; exact List.mem_append_right _ hx)
        · exact kB
      · rename_i hnlt
        split
        · rename_i heq
          subst heq
          obtain ⟨s1, e1s, hg1k, hs1⟩ := keyRun_spec k1 r1 _ (keyRun_eq k1 r1 kA1)
          obtain ⟨s2, e2s, hg2k, hs2⟩ := keyRun_spec k1 r2 _ (keyRun_eq k1 r2 kB1)
          have d1 : r1.drop (keyRun k1 r1).length = s1 := drop_append_eq e1s
          have d2 : r2.drop (keyRun k1 r2).length = s2 := drop_append_eq e2s
          rw [d1, d2]
          generalize keyRun k1 r1 = v1 at *
          generalize keyRun k1 r2 = v2 at *
          subst e1s e2s
          have hr1 := keyRun_rest hA hk1 hs1
          have hr2 := keyRun_rest hB hk2 hs2
          have hgk1 : ∀ x ∈ e1 :: v1, x.tuple.at? 0 = some k1 := by
            intro x hx
            rcases List.mem_cons.mp hx with rfl | hx
            · exact hk1
            · exact hg1k x hx
          have hgk2 : ∀ x ∈ e2 :: v2, x.tuple.at? 0 = some k1 := by
            intro x hx
            rcases List.mem_cons.mp hx with rfl | hx
            · exact hk2
            · exact hg2k x hx
          rw [ih s1 s2 (by simp at h ⊢; omega) hA.tail'.append_right hB.tail'.append_right (fun x hx => kA1 x (List.mem_append_right _ hx))
            (fun x hx => kB1 x (List.mem_append_right _ hx))]
          rw [← List.cons_append, ← List.cons_append, joinSpec_append_left, joinSpec_drop_right', joinSpec_drop_right (A := s1)]
          · congr 1
            unfold joinSpec
            apply List.flatMap_congr
            intro x hx
            apply List.filterMap_congr
            intro y hy
            exact (joinPair_eq_of_key (hgk1 x hx) (hgk2 y hy)).symm
          · intro x hx y hy
            apply joinPair_none
            intro k k' hk hk' he
            rw [hgk2 y hy] at hk'; cases hk'
            have := hr1 x hx k hk
            rw [he] at this; exact lt_irrefl _ this
          · intro x hx y hy
            apply joinPair_none
            intro k k' hk hk' he
            rw [hgk1 x hx] at hk; cases hk
            have := hr2 y hy k' hk'
            rw [he] at this; exact lt_irrefl _ this
        · rename_i hneq
          have hlt : k2 < k1 := lt_of_le_of_ne (not_lt.mp hnlt) (fun h => hneq h.symm)
          obtain ⟨pre, suf, e, e', hne, hpre⟩ := search_split g2 e2 r2 (keyBelow k1) (keyBelow_downClosed hB kB k1) (by simp [keyBelow, hk2, hlt])
          rw [e', ih]
          · rw [e, joinSpec_drop_right]
            intro x hx y hy
            apply joinPair_none
            intro k k' hk hk' he
            have h1 := keyBelow_lt (hpre y hy) hk'
            have h2 := hA' x hx k hk
            rw [← he] at h1
            exact absurd h1 (not_lt.mpr h2)
          · have := congrArg List.length e
            have hl := List.length_pos_iff.mpr hne
            simp at this h; simp; omega
          · exact hA
          · rw [e] at hB; exact hB.append_right
          · exact kA
          · intro x hx; exact kB x (by rw [e]; exact List.mem_append_right _ hx)

theorem joinBatch_elems {c : Prov T W} {b1 b2 b : Batch V T} (h1 : SortedLe b1.elems) (h2 : SortedLe b2.elems) (h : joinBatch c b1 b2 = some b) :
    b.elems = joinSpec c b1.elems b2.elems ∧ Pairs b1.elems ∧ Pairs b2.elems := by
  unfold joinBatch at h
  split at h
  · rename_i hp
    rw [Bool.and_eq_true] at hp
    have p1 := paired_pairs hp.1
    have p2 := paired_pairs hp.2
    cases h
    exact ⟨joinLoop_spec c _ _ _ _ _ (le_refl _) h1 h2 p1.keyed p2.keyed, p1, p2⟩
  · cases h

theorem antijoinLoop_eq (c : Prov T W) (g2 : Bool) : ∀ (fuel : Nat) (A B : List (Elem (Tup V) T)), Keyed A →
    Scallop.antijoinLoop c g2 fuel A B = some (antijoinLoop c g2 fuel A B) := by
  intro fuel
  induction fuel with
  | zero => intro A B _; rfl
  | succ n ih =>
    intro A B hA
    cases A with
    | nil => rfl
    | cons e1 r1 =>
    have hA1 : Keyed r1 := fun x hx => hA x (List.mem_cons_of_mem _ hx)
    cases B with
    | nil => simp only [Scallop.antijoinLoop, antijoinLoop, ih r1 [] hA1]; rfl
    | cons e2 r2 =>
      obtain ⟨k, hk⟩ := hA e1 (by simp)
      simp only [Scallop.antijoinLoop, antijoinLoop, hk, keyRun_eq k r1 hA1]
      split
      · rw [ih r1 _ hA1]; rfl
      · split
        · rw [ih _ _ (fun x hx => hA1 x (List.mem_of_mem_drop hx))]; rfl
        · exact ih _ _ hA

theorem antijoinBatch_elems {c : Prov T W} {b1 b2 b : Batch V T} (h1 : SortedLe b1.elems) (h2 : SortedLe b2.elems) (h : antijoinBatch c b1 b2 = some b) :
    b.elems = antijoinSpec c b1.elems b2.elems ∧ Pairs b1.elems := by
  unfold antijoinBatch at h
  split at h
  · rename_i hp
    have p1 := paired_pairs hp
    cases h
    exact ⟨antijoinLoop_spec c _ _ _ _ _ (le_refl _) h1 h2 (antijoinLoop_eq c _ _ _ _ p1.keyed), p1⟩
  · cases h

theorem findLoop_spec (g : Bool) (k : Tup V) : ∀ (fuel : Nat) (A : List (Elem (Tup V) T)), A.length ≤ fuel → SortedLe A → Keyed A →
    findLoop g k fuel A = findSpec k A := by
  intro fuel
  induction fuel with
  | zero =>
    intro A h _ _
    have : A = [] := List.length_eq_zero_iff.mp (by omega)
    subst this; rfl
  | succ n ih =>
    intro A h hA kA
    cases A with
    | nil => rfl
    | cons e r =>
      obtain ⟨k', hk'⟩ := kA e (by simp)
      have hr : ∀ x ∈ r, ∀ k1, x.tuple.at? 0 = some k1 → k' ≤ k1 := fun x hx k1 h1 => Tup.at0_mono hk' h1 ((List.pairwise_cons.mp hA).1 x hx)
      simp only [findLoop, hk']
      split
      · rename_i hlt
        obtain ⟨pre, suf, e1, e', hne, hpre⟩ := search_split g e r (keyBelow k) (keyBelow_downClosed hA kA k) (by simp [keyBelow, hk', hlt])
        rw [e', ih]
        · rw [e1]
          unfold findSpec
          rw [List.filter_append]
          have : pre.filter (fun e => decide (e.tuple.at? 0 = some k)) = [] := by
            rw [List.filter_eq_nil_iff]
            intro x hx
            simp only [decide_eq_true_eq]
            intro he
            exact lt_irrefl _ (keyBelow_lt (hpre x hx) he)
          rw [this, List.nil_append]
        · have := congrArg List.length e1
          have hl := List.length_pos_iff.mpr hne
          simp at this h; omega
        · rw [e1] at hA; exact hA.append_right
        · intro x hx; exact kA x (by rw [e1]; exact List.mem_append_right _ hx)
      · split
        · rename_i heq
          rw [ih r (by simpa using h) hA.tail' (fun x hx => kA x (List.mem_cons_of_mem _ hx))]
          simp [findSpec, hk', heq]
        · rename_i h1 h2
          symm
          unfold findSpec
          rw [List.filter_eq_nil_iff]
          intro x hx
          simp only [decide_eq_true_eq]
          have hlt : k < k' := lt_of_le_of_ne (not_lt.mp h1) (fun h => h2 h.symm)
          rcases List.mem_cons.mp hx with rfl | hx
          · rw [hk']; simpa using h2
          · intro he; exact absurd hlt (not_lt.mpr (hr x hx k he))

theorem findBatch_elems {k : Tup V} {b r : Batch V T} (h1 : SortedLe b.elems) (h : findBatch k b = some r) : r.elems = findSpec k b.elems ∧ Pairs b.elems := by
  unfold findBatch at h
  split at h
  · rename_i hp
    have p1 := paired_pairs hp
    cases h
    exact ⟨findLoop_spec _ k _ _ (le_refl _) h1 p1.keyed, p1⟩
  · cases h

theorem projectBatch_elems {f : Tup V → Option (Tup V)} {b r : Batch V T} (h : projectBatch f b = some r) : r.elems = (Scallop.projectBatch f b).elems := by
  unfold projectBatch at h
  rw [Option.map_eq_some_iff] at h
  obtain ⟨l, hl, rfl⟩ := h
  exact mapM_eq_filterMap hl

end Scallop.Statics
