import Verif.Spec.InputTags
import Verif.Proof.Proofs
import Verif.Proof.SddTop

/-! # Tags of facts: lemmas -/

namespace Scallop.Input

open Finset

variable {K V : Type*}

section
variable [CommRing K]

/-- Independent variables are true together with the product of their probabilities. -/
theorem eventProb_all (p : Nat → K) {V A : Finset Nat} (h : A ⊆ V) :
    eventProb p V (fun w => ∀ x ∈ A, w x = true) = ∏ x ∈ A, p x := by
  classical
  have h1 := Finset.prod_add p (fun x => if x ∈ A then 0 else 1 - p x) V
  have h2 : ∏ x ∈ V, (p x + if x ∈ A then 0 else 1 - p x) = ∏ x ∈ A, p x := by
    rw [← Finset.prod_subset h (f := fun x => (p x + if x ∈ A then 0 else 1 - p x))]
    · exact Finset.prod_congr rfl (fun x hx => by simp [hx])
    · intro x _ hx
      simp [hx]
  rw [← h2, h1]
  unfold eventProb
  refine Finset.sum_congr rfl (fun S hS => ?_)
  by_cases hA : A ⊆ S
  · rw [if_pos (fun x hx => by simpa using hA hx)]
    congr 1
    refine Finset.prod_congr rfl (fun x hx => ?_)
    rw [if_neg]
    intro hxA
    exact (Finset.mem_sdiff.mp hx).2 (hA hxA)
  · rw [if_neg]
    · obtain ⟨x, hx, hxS⟩ := Finset.not_subset.mp hA
      rw [Finset.prod_eq_zero (i := x) (Finset.mem_sdiff.mpr ⟨h hx, hxS⟩) (by simp [hx])]
      simp
    · intro hw
      exact hA (fun x hx => by simpa using hw x hx)

end

section
variable [Zero K] [One K] [LT K] [DecidableLT K]

/-- The entry of a tag. -/
def entryOf (k : Kind) (t : DynTag K) : Option (K × Option Nat) := (ofDyn k t).bind InTag.entry

/-- The number of the fact of each position. -/
def ids (k : Kind) : Nat → List (DynTag K × Tup V) → List (Option Nat)
  | _, [] => []
  | n, f :: fs =>
    match entryOf k f.1 with
    | none => none :: ids k n fs
    | some _ => some n :: ids k (n + 1) fs

/-- The tag of a number. -/
def tagOf : Option Nat → Dnf
  | none => [[]]
  | some i => [[.pos i]]

theorem internalize_spec (k : Kind) : ∀ (fs : List (DynTag K × Tup V)) (s : Reg K) (log : List (Option Nat)), DisjInv log s.disj → s.probs.length = log.length →
    ∃ s' es, internalize k s fs = some (s', es) ∧
      s'.probs = s.probs ++ (fs.filterMap (fun f => entryOf k f.1)).map Prod.fst ∧
      DisjInv (log ++ (fs.filterMap (fun f => entryOf k f.1)).map Prod.snd) s'.disj ∧
      es.map Elem.tuple = fs.map Prod.snd ∧ es.map Elem.tag = (ids k s.probs.length fs).map tagOf
  | [], s, log, h, _ => ⟨s, [], rfl, by simp, by simpa using h, rfl, rfl⟩
  | (t, u) :: fs, s, log, h, hl => by
    cases he : entryOf k t with
    | none =>
      obtain ⟨s', es, h1, h2, h3, h4, h5⟩ := internalize_spec k fs s log h hl
      refine ⟨s', ⟨u, [[]]⟩ :: es, ?_, ?_, ?_, ?_, ?_⟩
      · unfold entryOf at he
        simp [internalize, he, h1]
      · rw [h2]; simp [he]
      · simpa [List.filterMap_cons, he] using h3
      · simp [h4]
      · simp [ids, he, h5, tagOf]
    | some pe =>
      obtain ⟨p, e⟩ := pe
      have hreg : ∃ d', s.register p e = some (⟨s.probs ++ [p], d'⟩, [[.pos s.probs.length]]) ∧ DisjInv (log ++ [e]) d' := by
        cases e with
        | none => exact ⟨s.disj, rfl, h.tag_none⟩
        | some e =>
          obtain ⟨ds', h1, h2⟩ := h.tag_some e
          exact ⟨ds', by simp [Reg.register, hl, h1], h2⟩
      obtain ⟨d', hr, hd⟩ := hreg
      obtain ⟨s', es, h1, h2, h3, h4, h5⟩ := internalize_spec k fs ⟨s.probs ++ [p], d'⟩ (log ++ [e]) hd (by simp [hl])
      refine ⟨s', ⟨u, [[.pos s.probs.length]]⟩ :: es, ?_, ?_, ?_, ?_, ?_⟩
      · unfold entryOf at he
        simp [internalize, he, hr, h1]
      · rw [h2]; simp [he]
      · simpa [List.filterMap_cons, he] using h3
      · simp [h4]
      · simp [ids, he, h5, tagOf]

theorem ids_length (k : Kind) : ∀ (fs : List (DynTag K × Tup V)) (n : Nat), (ids k n fs).length = fs.length
  | [], _ => rfl
  | f :: fs, n => by
    unfold ids
    split <;> simp [ids_length k fs]

/-- Position and number. -/
theorem ids_get (k : Kind) : ∀ (fs : List (DynTag K × Tup V)) (n j : Nat) (f : DynTag K × Tup V), fs[j]? = some f →
    (entryOf k f.1 = none ∧ (ids k n fs)[j]? = some none) ∨
    ∃ i pe, entryOf k f.1 = some pe ∧ (ids k n fs)[j]? = some (some (n + i)) ∧ (fs.filterMap (fun f => entryOf k f.1))[i]? = some pe
  | [], _, _, _, h => by simp at h
  | g :: fs, n, j, f, h => by
    unfold ids
    cases he : entryOf k g.1 with
    | none =>
      cases j with
      | zero =>
        simp only [List.getElem?_cons_zero, Option.some.injEq] at h
        subst h
        exact Or.inl ⟨he, by simp⟩
      | succ j =>
        simp only [List.getElem?_cons_succ] at h ⊢
        rcases ids_get k fs n j f h with h1 | ⟨i, pe, h1, h2, h3⟩
        · exact Or.inl h1
        · exact Or.inr ⟨i, pe, h1, h2, by simpa [List.filterMap_cons, he] using h3⟩
    | some qe =>
      cases j with
      | zero =>
        simp only [List.getElem?_cons_zero, Option.some.injEq] at h
        subst h
        exact Or.inr ⟨0, qe, he, by simp, by simp [he]⟩
      | succ j =>
        simp only [List.getElem?_cons_succ] at h ⊢
        rcases ids_get k fs (n + 1) j f h with h1 | ⟨i, pe, h1, h2, h3⟩
        · exact Or.inl h1
        · exact Or.inr ⟨i + 1, pe, h1, by rw [h2]; congr 2; omega, by simpa [List.filterMap_cons, he] using h3⟩

theorem ids_ge (k : Kind) : ∀ (fs : List (DynTag K × Tup V)) (n j i : Nat), (ids k n fs)[j]? = some (some i) → n ≤ i
  | [], _, _, _, h => by simp [ids] at h
  | g :: fs, n, j, i, h => by
    unfold ids at h
    split at h
    · cases j with
      | zero => simp at h
      | succ j => exact ids_ge k fs n j i (by simpa using h)
    · cases j with
      | zero => simp at h; omega
      | succ j => have := ids_ge k fs (n + 1) j i (by simpa using h); omega

theorem ids_inj (k : Kind) : ∀ (fs : List (DynTag K × Tup V)) (n j j' i : Nat), (ids k n fs)[j]? = some (some i) → (ids k n fs)[j']? = some (some i) → j = j'
  | [], _, _, _, _, h, _ => by simp [ids] at h
  | g :: fs, n, j, j', i, h, h' => by
    unfold ids at h h'
    cases he : entryOf k g.1 with
    | none =>
      rw [he] at h h'
      cases j with
      | zero => simp at h
      | succ j =>
        cases j' with
        | zero => simp at h'
        | succ j' => rw [ids_inj k fs n j j' i (by simpa using h) (by simpa using h')]
    | some pe =>
      rw [he] at h h'
      cases j with
      | zero =>
        cases j' with
        | zero => rfl
        | succ j' =>
          have := ids_ge k fs (n + 1) j' i (by simpa using h')
          simp at h; omega
      | succ j =>
        cases j' with
        | zero =>
          have := ids_ge k fs (n + 1) j i (by simpa using h)
          simp at h'; omega
        | succ j' => rw [ids_inj k fs (n + 1) j j' i (by simpa using h) (by simpa using h')]

end

section
variable [Zero K] [One K] [LT K] [DecidableLT K]

/-- The provenances that number their facts take what is registered. -/
theorem taken_entry {k : Kind} (hk : k = .exclusiveProb ∨ k = .exclusiveDiffProb) (t : DynTag K) :
    taken (ofDyn k t) = (entryOf k t).getD (1, none) := by
  rcases hk with rfl | rfl <;> cases t <;> rfl

end

/-! ## Internalized facts -/

section
variable [Field K] [LinearOrder K]

/-- Everything about an internalized list. -/
theorem internalize_get {k : Kind} (hk : k = .exclusiveProb ∨ k = .exclusiveDiffProb) (fs : List (DynTag K × Tup V)) :
    ∃ s es, internalize k Reg.new fs = some (s, es) ∧ es.map Elem.tuple = fs.map Prod.snd ∧
      ∃ (log : List (Option Nat)) (num : List (Option Nat)), DisjInv log s.disj ∧ num.length = fs.length ∧ es.map Elem.tag = num.map tagOf ∧
        (∀ j j' i : Nat, num[j]? = some (some i) → num[j']? = some (some i) → j = j') ∧
        ∀ (j : Nat) f, fs[j]? = some f → (num[j]? = some none ∧ taken (ofDyn k f.1) = (1, none)) ∨
          ∃ i : Nat, num[j]? = some (some i) ∧ s.probs[i]? = some (taken (ofDyn k f.1)).1 ∧ log[i]? = some (taken (ofDyn k f.1)).2 := by
  obtain ⟨s, es, h1, h2, h3, h4, h5⟩ := internalize_spec (K := K) k fs Reg.new [] DisjInv.empty rfl
  refine ⟨s, es, h1, h4, _, ids k 0 fs, h3, ids_length k fs 0, h5, ids_inj k fs 0, fun j f hf => ?_⟩
  rcases ids_get k fs 0 j f hf with ⟨h6, h7⟩ | ⟨i, pe, h6, h7, h8⟩
  · exact Or.inl ⟨h7, by rw [taken_entry hk, h6]; rfl⟩
  · refine Or.inr ⟨i, by rw [h7, Nat.zero_add], ?_, ?_⟩
    · rw [h2, taken_entry hk, h6]
      simp [Reg.new, h8]
    · rw [taken_entry hk, h6]
      simp [h8]

theorem tagOf_holds (w : Nat → Bool) (o : Option Nat) : dnfHolds w (tagOf o) ↔ ∀ i, o = some i → w i = true := by
  cases o <;> simp [tagOf, dnfHolds, Clause.holds, Literal.holds]

/-- The events of internalized facts. -/
theorem internalize_prob {k : Kind} (hk : k = .exclusiveProb ∨ k = .exclusiveDiffProb) (fs : List (DynTag K × Tup V))
    (hs : ∀ f ∈ fs, taken (ofDyn k f.1) = f.1.says) {s : Reg K} {es : List (Elem (Tup V) Dnf)} (h : internalize k Reg.new fs = some (s, es))
    (J : Finset Nat) :
    eventProb s.prob (range s.probs.length) (fun w => ∀ j ∈ J, ∀ e, es[j]? = some e → dnfHolds w e.tag) = ∏ j ∈ J, saidProb fs j := by
  classical
  obtain ⟨s1, es1, h1, h4, log, num, hd, hnl, h5, hinj, hget⟩ := internalize_get hk fs
  rw [h] at h1
  obtain ⟨rfl, rfl⟩ := Prod.mk.inj (Option.some.inj h1)
  have htag : ∀ (j : Nat) e, es[j]? = some e → ∃ o, num[j]? = some o ∧ e.tag = tagOf o := by
    intro j e he
    have := congrArg (fun l => l[j]?) h5
    simp only [List.getElem?_map, he, Option.map_some] at this
    cases ho : num[j]? with
    | none => rw [ho] at this; simp at this
    | some o => rw [ho] at this; exact ⟨o, rfl, by simpa using this⟩
  have hes : ∀ j : Nat, es[j]? = none ↔ num[j]? = none := by
    intro j
    have := congrArg List.length h5
    simp only [List.length_map] at this
    simp [this]
  -- The numbers of the facts of the positions.
  set J1 := J.filter (fun j => ∃ i, num[j]? = some (some i)) with hJ1
  set g : Nat → Nat := fun j => ((num[j]?).join).getD 0 with hg
  have hgi : ∀ j i : Nat, num[j]? = some (some i) → g j = i := by intro j i hj; simp [hg, hj]
  have hginj : Set.InjOn g J1 := by
    intro a ha b hb hab
    obtain ⟨_, i, hi⟩ := Finset.mem_filter.mp (Finset.mem_coe.mp ha)
    obtain ⟨_, i', hi'⟩ := Finset.mem_filter.mp (Finset.mem_coe.mp hb)
    rw [hgi a i hi, hgi b i' hi'] at hab
    subst hab
    exact hinj a b i hi hi'
  have hev : (fun w : Nat → Bool => ∀ j ∈ J, ∀ e, es[j]? = some e → dnfHolds w e.tag) = (fun w => ∀ x ∈ J1.image g, w x = true) := by
    funext w
    apply propext
    constructor
    · intro hw x hx
      obtain ⟨j, hj, rfl⟩ := Finset.mem_image.mp hx
      obtain ⟨hjJ, i, hi⟩ := Finset.mem_filter.mp hj
      cases he : es[j]? with
      | none => rw [(hes j).mp he] at hi; simp at hi
      | some e =>
        obtain ⟨o, ho, het⟩ := htag j e he
        have := hw j hjJ e he
        rw [hi] at ho
        obtain rfl := Option.some.inj ho
        rw [het, tagOf_holds] at this
        rw [hgi j i hi]
        exact this i rfl
    · intro hw j hj e he
      obtain ⟨o, ho, het⟩ := htag j e he
      rw [het, tagOf_holds]
      rintro i rfl
      have := hw (g j) (Finset.mem_image_of_mem g (Finset.mem_filter.mpr ⟨hj, i, ho⟩))
      rwa [hgi j i ho] at this
  have hfs : ∀ j i : Nat, num[j]? = some (some i) → i < s.probs.length ∧ s.prob i = saidProb fs j := by
    intro j i hi
    have hjl : j < fs.length := by
      rw [← hnl]; exact (List.getElem?_eq_some_iff.mp hi).1
    have hf : fs[j]? = some fs[j] := List.getElem?_eq_getElem hjl
    rcases hget j _ hf with ⟨h6, _⟩ | ⟨i', h6, h7, _⟩
    · rw [hi] at h6; simp at h6
    · rw [hi] at h6
      obtain rfl := Option.some.inj (Option.some.inj h6)
      rw [hs _ (List.getElem_mem hjl)] at h7
      refine ⟨(List.getElem?_eq_some_iff.mp h7).1, ?_⟩
      simp [Reg.prob, h7, saidProb, hf]
  rw [hev, eventProb_all]
  · rw [Finset.prod_image hginj]
    have hsub : J1 ⊆ J := Finset.filter_subset _ _
    rw [← Finset.prod_subset hsub (f := saidProb fs)]
    · refine Finset.prod_congr rfl (fun j hj => ?_)
      obtain ⟨_, i, hi⟩ := Finset.mem_filter.mp hj
      rw [hgi j i hi]
      exact (hfs j i hi).2
    · intro j hj hj1
      unfold saidProb
      cases hf : fs[j]? with
      | none => rfl
      | some f =>
        rcases hget j f hf with ⟨_, h7⟩ | ⟨i, h6, _⟩
        · rw [hs f (List.mem_of_getElem? hf)] at h7
          show f.1.says.1 = 1
          rw [h7]
        · exact absurd (Finset.mem_filter.mpr ⟨hj, i, h6⟩) hj1
  · intro x hx
    obtain ⟨j, hj, rfl⟩ := Finset.mem_image.mp hx
    obtain ⟨_, i, hi⟩ := Finset.mem_filter.mp hj
    rw [hgi j i hi]
    exact Finset.mem_range.mpr (hfs j i hi).1

theorem dedup_single (c : Clause) : Dnf.dedup [c] = [c] := by simp [Dnf.dedup, Dnf.dedupLoop]

theorem retainTopK_single (x : DnfCtx K) (c : Clause) {k : Nat} (hk : 0 < k) : x.retainTopK [c] k = [c] := by
  obtain ⟨k, rfl⟩ := Nat.exists_eq_succ_of_ne_zero hk.ne'
  simp [DnfCtx.retainTopK, DnfCtx.sortDesc]

theorem retainTopK_nil (x : DnfCtx K) (k : Nat) : x.retainTopK [] k = [] := by
  simp [DnfCtx.retainTopK, DnfCtx.sortDesc]

/-- The product of two facts: empty only for two facts of one exclusion. -/
theorem mult_numbers {log : List (Option Nat)} {x : DnfCtx K} (hd : DisjInv log x.disj) {k : Nat} (hk : 0 < k) (a b : Option Nat) (hab : ∀ i, a = some i → b ≠ some i) :
    x.topKMult k (tagOf a) (tagOf b) = [] ↔ ∃ i j e : Nat, a = some i ∧ b = some j ∧ log[i]? = some (some e) ∧ log[j]? = some (some e) := by
  have key : ∀ c : Clause, x.retainTopK (x.retainNoConflict (Dnf.dedup [c])) k = [] ↔ x.disj.hasConflict c.posFactIds = true := by
    intro c
    rw [dedup_single]
    unfold DnfCtx.retainNoConflict
    cases hc : x.disj.hasConflict c.posFactIds with
    | true => simp [hc, retainTopK_nil]
    | false => simp [hc, retainTopK_single x c hk]
  have single : ∀ i : Nat, x.disj.hasConflict (Clause.posFactIds [.pos i]) = false := by
    intro i
    have hp : Clause.posFactIds [.pos i] = [i] := by simp [Clause.posFactIds, bsetCollect, bsetInsert]
    rw [hp, hd.conflict [i] (by simp [Asc])]
    intro a ha b hb e _ _
    simp only [List.mem_singleton] at ha hb
    rw [ha, hb]
  have empty : x.disj.hasConflict (Clause.posFactIds []) = false := by
    have hp : Clause.posFactIds [] = [] := rfl
    rw [hp, hd.conflict [] (by simp [Asc])]
    intro a ha; simp at ha
  cases a with
  | none =>
    cases b with
    | none =>
      have : Dnf.and (tagOf none) (tagOf none) = [[]] := by simp [tagOf, Dnf.and, Clause.merge]
      rw [DnfCtx.topKMult, this, key, empty]; simp
    | some j =>
      have : Dnf.and (tagOf none) (tagOf (some j)) = [[.pos j]] := by simp [tagOf, Dnf.and, Clause.merge]
      rw [DnfCtx.topKMult, this, key, single]; simp
  | some i =>
    cases b with
    | none =>
      have : Dnf.and (tagOf (some i)) (tagOf none) = [[.pos i]] := by simp [tagOf, Dnf.and, Clause.merge, Clause.mergeFrom]
      rw [DnfCtx.topKMult, this, key, single]; simp
    | some j =>
      have hij : i ≠ j := fun h => hab i rfl (by rw [h])
      have pair : ∀ lo hi : Nat, lo < hi → (x.disj.hasConflict (Clause.posFactIds [.pos lo, .pos hi]) = true ↔
          ∃ e : Nat, log[lo]? = some (some e) ∧ log[hi]? = some (some e)) := by
        intro lo hi hlt
        have hp : Clause.posFactIds [.pos lo, .pos hi] = [lo, hi] := by
          simp [Clause.posFactIds, bsetCollect, bsetInsert, hlt.not_gt, hlt.ne']
        rw [hp, ← not_iff_not, Bool.not_eq_true, hd.conflict [lo, hi] (by simp [Asc, hlt])]
        constructor
        · rintro hn ⟨e, h1, h2⟩
          exact hlt.ne (hn lo (by simp) hi (by simp) e h1 h2)
        · intro hn a ha b hb e h1 h2
          simp only [List.mem_cons, List.not_mem_nil, or_false] at ha hb
          rcases ha with rfl | rfl <;> rcases hb with rfl | rfl
          · rfl
          · exact absurd ⟨e, h1, h2⟩ hn
          · exact absurd ⟨e, h2, h1⟩ hn
          · rfl
      rcases Nat.lt_or_gt_of_ne hij with hlt | hlt
      · have : Dnf.and (tagOf (some i)) (tagOf (some j)) = [[.pos i, .pos j]] := by
          simp [tagOf, Dnf.and, Clause.merge, Clause.mergeFrom, Literal.factId, hij, hlt]
        rw [DnfCtx.topKMult, this, key, pair i j hlt]
        simp
      · have : Dnf.and (tagOf (some i)) (tagOf (some j)) = [[.pos j, .pos i]] := by
          simp [tagOf, Dnf.and, Clause.merge, Clause.mergeFrom, Literal.factId, hij, hlt.not_gt]
        rw [DnfCtx.topKMult, this, key, pair j i hlt]
        constructor
        · rintro ⟨e, h1, h2⟩; exact ⟨i, j, e, rfl, rfl, h2, h1⟩
        · rintro ⟨i', j', e, h1, h2, h3, h4⟩
          obtain rfl := Option.some.inj h1
          obtain rfl := Option.some.inj h2
          exact ⟨e, h4, h3⟩

/-- Two internalized facts exclude each other if and only if they belong to one choice. -/
theorem internalize_apart {k : Kind} (hk : k = .exclusiveProb ∨ k = .exclusiveDiffProb) (fs : List (DynTag K × Tup V))
    (hs : ∀ f ∈ fs, taken (ofDyn k f.1) = f.1.says) {s : Reg K} {es : List (Elem (Tup V) Dnf)} (h : internalize k Reg.new fs = some (s, es))
    {n : Nat} (hn : 0 < n) {i j : Nat} (hij : i ≠ j) {f g : DynTag K × Tup V} {a b : Elem (Tup V) Dnf} (hf : fs[i]? = some f) (hg : fs[j]? = some g)
    (ha : es[i]? = some a) (hb : es[j]? = some b) :
    (DnfCtx.mk s.prob s.disj).topKMult n a.tag b.tag = [] ↔ ∃ e, f.1.says.2 = some e ∧ g.1.says.2 = some e := by
  obtain ⟨s1, es1, h1, h4, log, num, hd, hnl, h5, hinj, hget⟩ := internalize_get hk fs
  rw [h] at h1
  obtain ⟨rfl, rfl⟩ := Prod.mk.inj (Option.some.inj h1)
  have htag : ∀ (j : Nat) e, es[j]? = some e → ∃ o, num[j]? = some o ∧ e.tag = tagOf o := by
    intro j e he
    have := congrArg (fun l => l[j]?) h5
    simp only [List.getElem?_map, he, Option.map_some] at this
    cases ho : num[j]? with
    | none => rw [ho] at this; simp at this
    | some o => rw [ho] at this; exact ⟨o, rfl, by simpa using this⟩
  obtain ⟨oa, hoa, hta⟩ := htag i a ha
  obtain ⟨ob, hob, htb⟩ := htag j b hb
  rw [hta, htb, mult_numbers (x := ⟨s.prob, s.disj⟩) hd hn oa ob (fun m hm hm' => by subst hm; subst hm'; exact hij (hinj i j m hoa hob))]
  have hsf := hs f (List.mem_of_getElem? hf)
  have hsg := hs g (List.mem_of_getElem? hg)
  constructor
  · rintro ⟨m, m', e, rfl, rfl, h6, h7⟩
    rcases hget i f hf with ⟨h8, _⟩ | ⟨m1, h8, _, h9⟩
    · rw [hoa] at h8; simp at h8
    · rcases hget j g hg with ⟨h10, _⟩ | ⟨m2, h10, _, h11⟩
      · rw [hob] at h10; simp at h10
      · rw [hoa] at h8; rw [hob] at h10
        obtain rfl := Option.some.inj (Option.some.inj h8)
        obtain rfl := Option.some.inj (Option.some.inj h10)
        rw [hsf] at h9; rw [hsg] at h11
        exact ⟨e, by rw [h6] at h9; exact (Option.some.inj h9).symm, by rw [h7] at h11; exact (Option.some.inj h11).symm⟩
  · rintro ⟨e, h6, h7⟩
    rcases hget i f hf with ⟨_, h8⟩ | ⟨m1, h8, _, h9⟩
    · rw [hsf] at h8; rw [h8] at h6; simp at h6
    · rcases hget j g hg with ⟨_, h10⟩ | ⟨m2, h10, _, h11⟩
      · rw [hsg] at h10; rw [h10] at h7; simp at h7
      · rw [hoa] at h8; rw [hob] at h10
        obtain rfl := Option.some.inj h8
        obtain rfl := Option.some.inj h10
        rw [hsf, h6] at h9; rw [hsg, h7] at h11
        exact ⟨m1, m2, e, rfl, rfl, h9, h11⟩

end

end Scallop.Input
