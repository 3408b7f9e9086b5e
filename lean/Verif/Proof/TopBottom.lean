import Verif.Spec.TopBottom
import Verif.Proof.Dnf
import Verif.Proof.Proofs
import Verif.Proof.SddTop
import Mathlib.Data.List.Forall2

/-!
# Proofs about top-bottom-k clauses
-/

namespace Scallop

open DnfCtx (HeapElem)

variable {K : Type*} [Field K] [LinearOrder K]

/-! ### The loop over a heap -/

/-- What is needed of the function that makes elements: it keeps the indices, and is defined where all indices are in bounds. -/
structure Creates (lens : List Nat) (create : List Nat → Option (HeapElem K)) : Prop where
  indices : ∀ v e, create v = some e → e.indices = v
  dom : ∀ v, (∃ e, create v = some e) ↔ List.Forall₂ (fun n i => i < n) lens v

/-- Invariant of the loop. -/
structure HeapInv (lens : List Nat) (create : List Nat → Option (HeapElem K)) (keep : Clause → Bool) (heap : List (HeapElem K))
    (visited : List (List Nat)) (result : List Clause) : Prop where
  elem : ∀ e ∈ heap, create e.indices = some e
  nodup : visited.Nodup
  vis : ∀ v ∈ visited, ∃ e, create v = some e ∧ (keep e.clause = true → e.clause ∈ result)
  succ : ∀ v ∈ visited, ∀ i < v.length, ∀ e, create (v.modify i (· + 1)) = some e →
    v.modify i (· + 1) ∈ visited ∨ ∃ e ∈ heap, e.indices = v.modify i (· + 1)
  zero : List.replicate lens.length 0 ∈ visited ∨ ∃ e ∈ heap, e.indices = List.replicate lens.length 0
  res : ∀ c ∈ result, ∃ v e, create v = some e ∧ e.clause = c ∧ keep c = true

variable {lens : List Nat} {create : List Nat → Option (HeapElem K)} {keep : Clause → Bool}

theorem HeapInv.skip {heap rest : List (HeapElem K)} {e : HeapElem K} {visited : List (List Nat)} {result : List Clause}
    (h : HeapInv lens create keep heap visited result) (hp : heap.Perm (e :: rest)) (hv : e.indices ∈ visited) :
    HeapInv lens create keep rest visited result := by
  have hmem : ∀ a ∈ heap, a = e ∨ a ∈ rest := fun a ha => List.mem_cons.mp (hp.mem_iff.mp ha)
  refine ⟨fun a ha => h.elem a (hp.mem_iff.mpr (by simp [ha])), h.nodup, h.vis, ?_, ?_, h.res⟩
  · intro v hv' i hi a ha
    rcases h.succ v hv' i hi a ha with h1 | ⟨b, hb, hb'⟩
    · exact Or.inl h1
    · rcases hmem b hb with rfl | hb
      · left; rw [← hb']; exact hv
      · exact Or.inr ⟨b, hb, hb'⟩
  · rcases h.zero with h1 | ⟨b, hb, hb'⟩
    · exact Or.inl h1
    · rcases hmem b hb with rfl | hb
      · left; rw [← hb']; exact hv
      · exact Or.inr ⟨b, hb, hb'⟩

theorem HeapInv.visit (hc : Creates lens create) {heap rest : List (HeapElem K)} {e : HeapElem K} {visited : List (List Nat)}
    {result : List Clause} (h : HeapInv lens create keep heap visited result) (hp : heap.Perm (e :: rest)) (hv : e.indices ∉ visited) :
    HeapInv lens create keep (rest ++ (List.range e.indices.length).filterMap (fun i => create (e.indices.modify i (· + 1))))
      (e.indices :: visited) (if keep e.clause then result ++ [e.clause] else result) := by
  have hmem : ∀ a ∈ heap, a = e ∨ a ∈ rest := fun a ha => List.mem_cons.mp (hp.mem_iff.mp ha)
  have he := h.elem e (hp.mem_iff.mpr (by simp))
  have hnext : ∀ a, a ∈ (List.range e.indices.length).filterMap (fun i => create (e.indices.modify i (· + 1))) ↔
      ∃ i < e.indices.length, create (e.indices.modify i (· + 1)) = some a := by
    intro a; simp only [List.mem_filterMap, List.mem_range]
  have hsub : ∀ c ∈ result, c ∈ (if keep e.clause then result ++ [e.clause] else result) := by
    intro c hc; split
    · simp [hc]
    · exact hc
  refine ⟨?_, List.nodup_cons.mpr ⟨hv, h.nodup⟩, ?_, ?_, ?_, ?_⟩
  · intro a ha
    rcases List.mem_append.mp ha with ha | ha
    · exact h.elem a (hp.mem_iff.mpr (by simp [ha]))
    · obtain ⟨i, _, hi⟩ := (hnext a).mp ha
      rw [hc.indices _ a hi]; exact hi
  · intro v hv'
    rcases List.mem_cons.mp hv' with rfl | hv'
    · refine ⟨e, he, fun hg => ?_⟩
      rw [if_pos hg]; simp
    · obtain ⟨a, ha, ha'⟩ := h.vis v hv'
      exact ⟨a, ha, fun hg => hsub _ (ha' hg)⟩
  · intro v hv' i hi a ha
    rcases List.mem_cons.mp hv' with rfl | hv'
    · exact Or.inr ⟨a, List.mem_append.mpr (Or.inr ((hnext a).mpr ⟨i, hi, ha⟩)), hc.indices _ a ha⟩
    · rcases h.succ v hv' i hi a ha with h1 | ⟨b, hb, hb'⟩
      · exact Or.inl (by simp [h1])
      · rcases hmem b hb with rfl | hb
        · left; rw [← hb']; simp
        · exact Or.inr ⟨b, by simp [hb], hb'⟩
  · rcases h.zero with h1 | ⟨b, hb, hb'⟩
    · exact Or.inl (by simp [h1])
    · rcases hmem b hb with rfl | hb
      · left; rw [← hb']; simp
      · exact Or.inr ⟨b, by simp [hb], hb'⟩
  · intro c hc
    split at hc
    · rename_i hg
      rcases List.mem_append.mp hc with hc | hc
      · exact h.res c hc
      · simp only [List.mem_cons, List.not_mem_nil, or_false] at hc
        subst hc; exact ⟨_, e, he, rfl, hg⟩
    · exact h.res c hc

theorem heapLoop_inv (hc : Creates lens create) {pop : List (HeapElem K) → Option (HeapElem K × List (HeapElem K))} (hpop : IsPop pop)
    (k : Nat) : ∀ fuel heap visited result r, HeapInv lens create keep heap visited result → result.length ≤ k →
    DnfCtx.heapLoop create keep pop k fuel heap visited result = some r →
    r.length ≤ k ∧ (∃ heap visited, HeapInv lens create keep heap visited r ∧ (r.length < k → heap = [])) := by
  intro fuel
  induction fuel with
  | zero => intro heap visited result r _ _ h; simp [DnfCtx.heapLoop] at h
  | succ fuel ih =>
    intro heap visited result r hinv hlen h
    unfold DnfCtx.heapLoop at h
    split at h
    · rename_i hlt
      split at h
      · rename_i hp
        obtain rfl := Option.some.inj h
        exact ⟨hlen, heap, visited, hinv, fun _ => hpop.none heap hp⟩
      · rename_i e rest hp
        obtain ⟨hperm, _⟩ := hpop.some heap e rest hp
        split at h
        · rename_i hv
          exact ih _ _ _ _ (hinv.skip hperm hv) hlen h
        · rename_i hv
          refine ih _ _ _ _ (hinv.visit hc hperm hv) ?_ h
          split
          · simp only [List.length_append, List.length_cons, List.length_nil]; omega
          · exact hlen
    · rename_i hge
      obtain rfl := Option.some.inj h
      exact ⟨hlen, heap, visited, hinv, fun hlt => absurd hlt hge⟩

/-- Every index vector but zero has a predecessor. -/
theorem exists_predecessor : ∀ (lens v : List Nat), List.Forall₂ (fun n i => i < n) lens v → 0 < v.sum →
    ∃ u i, i < u.length ∧ List.Forall₂ (fun n i => i < n) lens u ∧ u.modify i (· + 1) = v ∧ u.sum + 1 = v.sum := by
  intro lens v h
  induction h with
  | nil => intro h; simp at h
  | @cons c j cnf v hj hv ih =>
    intro hs
    cases j with
    | zero =>
      obtain ⟨u, i, hi, hu, hm, hsum⟩ := ih (by simpa using hs)
      exact ⟨0 :: u, i + 1, by simpa using hi, .cons hj hu, by simp [List.modify_succ_cons, hm], by simpa using hsum⟩
    | succ j =>
      exact ⟨j :: v, 0, by simp, .cons (by omega) hv, by simp [List.modify_zero_cons], by simp only [List.sum_cons]; omega⟩

theorem zero_of_sum_zero : ∀ (lens v : List Nat), List.Forall₂ (fun n i => i < n) lens v → v.sum = 0 → v = List.replicate lens.length 0 := by
  intro lens v h
  induction h with
  | nil => intro _; rfl
  | @cons c j cnf v hj hv ih =>
    intro hs
    simp only [List.sum_cons, Nat.add_eq_zero_iff] at hs
    rw [List.length_cons, List.replicate_succ, ← ih hs.2, hs.1]

/-- When the heap is empty, everything has been visited. -/
theorem HeapInv.all_visited (hc : Creates lens create) {visited : List (List Nat)} {result : List Clause}
    (h : HeapInv lens create keep [] visited result) :
    ∀ n v, v.sum = n → List.Forall₂ (fun n i => i < n) lens v → v ∈ visited := by
  intro n
  induction n with
  | zero =>
    intro v hs hv
    rw [zero_of_sum_zero lens v hv hs]
    rcases h.zero with h | ⟨e, he, _⟩
    · exact h
    · simp at he
  | succ n ih =>
    intro v hs hv
    obtain ⟨u, i, hi, hu, hm, hsum⟩ := exists_predecessor lens v hv (by omega)
    obtain ⟨e, he⟩ := (hc.dom v).mpr hv
    rcases h.succ u (ih u (by omega) hu) i hi e (by rw [hm]; exact he) with h | ⟨e, he, _⟩
    · rw [← hm]; exact h
    · simp at he

/-- All index vectors in bounds. -/
def boundedIndices : List Nat → List (List Nat)
  | [] => [[]]
  | n :: ns => (List.range n).flatMap (fun i => (boundedIndices ns).map (i :: ·))

theorem mem_boundedIndices : ∀ (lens v : List Nat), List.Forall₂ (fun n i => i < n) lens v → v ∈ boundedIndices lens := by
  intro cnf v h
  induction h with
  | nil => simp [boundedIndices]
  | cons hi _ ih => simp only [boundedIndices, List.mem_flatMap, List.mem_range]; exact ⟨_, hi, List.mem_map.mpr ⟨_, ih, rfl⟩⟩

theorem length_boundedIndices (lens : List Nat) : (boundedIndices lens).length = lens.prod := by
  induction lens with
  | nil => rfl
  | cons c cnf ih =>
    simp only [boundedIndices, List.length_flatMap, List.length_map, ih, List.prod_cons]
    rw [List.map_const', List.sum_replicate, List.length_range]; rfl

theorem HeapInv.visited_length (hc : Creates lens create) {heap : List (HeapElem K)} {visited : List (List Nat)} {result : List Clause}
    (h : HeapInv lens create keep heap visited result) : visited.length ≤ lens.prod := by
  rw [← length_boundedIndices]
  refine (List.subperm_of_subset h.nodup ?_).length_le
  intro v hv
  obtain ⟨e, he, _⟩ := h.vis v hv
  exact mem_boundedIndices lens v ((hc.dom v).mp ⟨e, he⟩)

theorem heapLoop_terminates (hc : Creates lens create) {pop : List (HeapElem K) → Option (HeapElem K × List (HeapElem K))} (hpop : IsPop pop)
    (k : Nat) : ∀ fuel heap visited result, HeapInv lens create keep heap visited result →
    heap.length + lens.length * (lens.prod - visited.length) + 1 ≤ fuel →
    ∃ r, DnfCtx.heapLoop create keep pop k fuel heap visited result = some r := by
  intro fuel
  induction fuel with
  | zero => intro heap visited result _ hf; omega
  | succ fuel ih =>
    intro heap visited result hinv hf
    unfold DnfCtx.heapLoop
    split
    · split
      · exact ⟨_, rfl⟩
      · rename_i e rest hp
        obtain ⟨hperm, _⟩ := hpop.some heap e rest hp
        have hl := hperm.length_eq
        simp only [List.length_cons] at hl
        split
        · rename_i hv
          exact ih _ _ _ (hinv.skip hperm hv) (by omega)
        · rename_i hv
          have hnew := hinv.visit hc hperm hv
          refine ih _ _ _ hnew ?_
          have h1 := hnew.visited_length hc
          simp only [List.length_cons] at h1
          have h2 : ((List.range e.indices.length).filterMap (fun i => create (e.indices.modify i (· + 1)))).length ≤ lens.length := by
            have he := hinv.elem e (hperm.mem_iff.mpr (by simp))
            have := ((hc.dom _).mp ⟨e, he⟩).length_eq
            refine (List.length_filterMap_le _ _).trans ?_
            simp [this]
          simp only [List.length_append, List.length_cons]
          obtain ⟨m, hm⟩ : ∃ m, lens.prod - visited.length = m + 1 := ⟨lens.prod - visited.length - 1, by omega⟩
          have hm' : lens.prod - (visited.length + 1) = m := by omega
          rw [hm, Nat.mul_succ] at hf
          rw [hm']; omega
    · exact ⟨_, rfl⟩

/-- The loop from its first element. -/
theorem heapLoop_spec (hc : Creates lens create) {pop : List (HeapElem K) → Option (HeapElem K × List (HeapElem K))} (hpop : IsPop pop)
    (k fuel : Nat) (first : HeapElem K) (hf : create (List.replicate lens.length 0) = some first)
    (hfuel : lens.length * lens.prod + 2 ≤ fuel) :
    ∃ r, DnfCtx.heapLoop create keep pop k fuel [first] [] [] = some r ∧ r.length ≤ k ∧
      (∀ c ∈ r, ∃ v e, create v = some e ∧ e.clause = c ∧ keep c = true) ∧
      (r.length < k → ∀ v e, create v = some e → keep e.clause = true → e.clause ∈ r) := by
  have hinit : HeapInv lens create keep [first] [] [] := by
    refine ⟨?_, List.nodup_nil, by simp, by simp, Or.inr ⟨first, by simp, hc.indices _ _ hf⟩, by simp⟩
    intro e he
    simp only [List.mem_cons, List.not_mem_nil, or_false] at he
    subst he; rw [hc.indices _ _ hf]; exact hf
  obtain ⟨r, hr⟩ := heapLoop_terminates hc hpop k fuel _ _ _ hinit (by simp; omega)
  obtain ⟨hlen, heap, visited, hinv, hend⟩ := heapLoop_inv hc hpop k _ _ _ _ r hinit (by simp) hr
  refine ⟨r, hr, hlen, hinv.res, fun hlt v e hv hk => ?_⟩
  obtain rfl := hend hlt
  obtain ⟨e', he', hk'⟩ := hinv.vis v (hinv.all_visited hc _ v rfl ((hc.dom v).mp ⟨e, hv⟩))
  rw [hv] at he'
  obtain rfl := Option.some.inj he'
  exact hk' hk

/-! ### Products -/

theorem pairElement_eq (x : DnfCtx K) (f1 f2 : List Clause) (v : List Nat) (e : HeapElem K) :
    x.pairElement f1 f2 v = some e ↔ ∃ i j a b, v = [i, j] ∧ f1[i]? = some a ∧ f2[j]? = some b ∧
      e = ⟨x.clauseProb (a.mergeUnchecked b), [i, j], a.mergeUnchecked b⟩ := by
  constructor
  · intro h
    unfold DnfCtx.pairElement at h
    split at h
    · split at h
      · exact ⟨_, _, _, _, rfl, ‹_›, ‹_›, (Option.some.inj h).symm⟩
      · simp at h
    · simp at h
  · rintro ⟨i, j, a, b, rfl, h1, h2, rfl⟩
    simp [DnfCtx.pairElement, h1, h2]

theorem pairElement_creates (x : DnfCtx K) (f1 f2 : List Clause) : Creates [f1.length, f2.length] (x.pairElement f1 f2) := by
  constructor
  · intro v e h
    obtain ⟨i, j, a, b, rfl, _, _, rfl⟩ := (pairElement_eq x f1 f2 v e).mp h
    rfl
  · intro v
    constructor
    · rintro ⟨e, h⟩
      obtain ⟨i, j, a, b, rfl, h1, h2, _⟩ := (pairElement_eq x f1 f2 v e).mp h
      exact .cons (List.getElem?_eq_some_iff.mp h1).1 (.cons (List.getElem?_eq_some_iff.mp h2).1 .nil)
    · intro h
      cases h with
      | cons h1 h =>
        cases h with
        | cons h2 h =>
          cases h
          rename_i i j
          exact ⟨_, (pairElement_eq x f1 f2 _ _).mpr ⟨i, j, _, _, rfl, List.getElem?_eq_getElem h1, List.getElem?_eq_getElem h2, rfl⟩⟩

/-- What the loop of the products returns. -/
theorem multLoop_spec (x : DnfCtx K) (keep : Clause → Bool) {pop : List (HeapElem K) → Option (HeapElem K × List (HeapElem K))}
    (hpop : IsPop pop) (f1 f2 : List Clause) (h1 : f1.length ≠ 0) (h2 : f2.length ≠ 0) (k : Nat) :
    ∃ r, x.multLoop keep pop f1 f2 k = some r ∧ r.length ≤ k ∧
      (∀ c ∈ r, ∃ a ∈ f1, ∃ b ∈ f2, c = a.mergeUnchecked b ∧ keep c = true) ∧
      (r.length < k → ∀ a ∈ f1, ∀ b ∈ f2, keep (a.mergeUnchecked b) = true → a.mergeUnchecked b ∈ r) := by
  have hc := pairElement_creates x f1 f2
  obtain ⟨first, hf⟩ := (hc.dom [0, 0]).mpr (.cons (by omega) (.cons (by omega) .nil))
  obtain ⟨r, hr, hlen, hres, hall⟩ := heapLoop_spec (keep := keep) hc hpop k (2 * (f1.length * f2.length) + 2) first hf (by simp)
  refine ⟨r, by unfold DnfCtx.multLoop; rw [hf]; exact hr, hlen, ?_, ?_⟩
  · intro c hc'
    obtain ⟨v, e, hv, rfl, hk⟩ := hres c hc'
    obtain ⟨i, j, a, b, rfl, ha, hb, rfl⟩ := (pairElement_eq x f1 f2 v e).mp hv
    exact ⟨a, List.mem_of_getElem? ha, b, List.mem_of_getElem? hb, rfl, hk⟩
  · intro hlt a ha b hb hk
    obtain ⟨i, hi⟩ := List.mem_iff_getElem?.mp ha
    obtain ⟨j, hj⟩ := List.mem_iff_getElem?.mp hb
    exact hall hlt [i, j] _ ((pairElement_eq x f1 f2 _ _).mpr ⟨i, j, a, b, rfl, hi, hj, rfl⟩) hk

/-- A clause with two opposite neighbours is never true as a conjunction and always as a disjunction. -/
theorem isValid_false {c : Clause} (h : c.isValid = false) : ∃ f, Literal.pos f ∈ c ∧ Literal.neg f ∈ c := by
  induction c with
  | nil => simp [Clause.isValid] at h
  | cons a c ih =>
    cases c with
    | nil => simp [Clause.isValid] at h
    | cons b c =>
      have hrec : Clause.isValid (b :: c) = false → ∃ f, Literal.pos f ∈ a :: b :: c ∧ Literal.neg f ∈ a :: b :: c := by
        intro hb
        obtain ⟨f, h1, h2⟩ := ih hb
        exact ⟨f, by simp [h1], by simp [h2]⟩
      cases a <;> cases b <;> simp only [Clause.isValid] at h
      · exact hrec h
      · split at h
        · rename_i x _ e; subst e; exact ⟨x, by simp, by simp⟩
        · exact hrec h
      · split at h
        · rename_i x _ e; subst e; exact ⟨x, by simp, by simp⟩
        · exact hrec h
      · exact hrec h

theorem mergeUnchecked_holds (a b : Clause) (w : Nat → Bool) : (a.mergeUnchecked b).holds w ↔ a.holds w ∧ b.holds w := by
  unfold Clause.holds
  simp only [Clause.mergeUnchecked_mem]
  exact ⟨fun h => ⟨fun l hl => h l (.inl hl), fun l hl => h l (.inr hl)⟩, fun h l hl => hl.elim (h.1 l) (h.2 l)⟩

theorem multFormulaTopK_spec (x : DnfCtx K) (hds : ∀ d ∈ x.disj.disjunctions, Asc d)
    {pop : List (HeapElem K) → Option (HeapElem K × List (HeapElem K))} (hpop : IsPop pop) (f1 f2 : List Clause) (k : Nat) :
    ∃ r, x.multFormulaTopK pop f1 f2 k = some r ∧ (f1 ≠ f2 → r.length ≤ k) ∧
      (∀ w, dnfHolds w r → dnfHolds w f1 ∧ dnfHolds w f2) ∧
      (f1 = f2 ∨ r.length < k → ∀ w, consistent w x.disj.disjunctions → dnfHolds w f1 → dnfHolds w f2 → dnfHolds w r) ∧
      (f1 ≠ f2 → ∀ c ∈ r, ∃ a ∈ f1, ∃ b ∈ f2, c = a.mergeUnchecked b ∧ c.isValid = true ∧ x.disj.hasConflict c.posFactIds = false) ∧
      (f1 = f2 → r = f1) := by
  unfold DnfCtx.multFormulaTopK
  split
  · rename_i h
    refine ⟨[], rfl, by simp, by simp [dnfHolds], ?_, by simp, ?_⟩
    · rintro - w - ⟨c, hc, _⟩ ⟨d, hd, _⟩
      rcases h with h | h <;> rw [List.length_eq_zero_iff] at h <;> subst h
      · simp at hc
      · simp at hd
    · rintro rfl
      simp only [List.length_eq_zero_iff, or_self] at h
      exact h.symm
  · rename_i h
    split
    · rename_i e
      subst e
      exact ⟨f1, rfl, by simp, fun w h => ⟨h, h⟩, fun _ w _ h _ => h, by simp, fun _ => rfl⟩
    · rename_i hne
      push Not at h
      obtain ⟨r, hr, hlen, hres, hall⟩ := multLoop_spec x (fun c => c.isValid && !x.disj.hasConflict c.posFactIds) hpop f1 f2 h.1 h.2 k
      refine ⟨r, hr, fun _ => hlen, ?_, ?_, ?_, fun e => absurd e hne⟩
      · rintro w ⟨c, hc, hw⟩
        obtain ⟨a, ha, b, hb, rfl, _⟩ := hres c hc
        have := (mergeUnchecked_holds a b w).mp hw
        exact ⟨⟨a, ha, this.1⟩, ⟨b, hb, this.2⟩⟩
      · rintro hk w hw ⟨a, ha, ha'⟩ ⟨b, hb, hb'⟩
        have hm := (mergeUnchecked_holds a b w).mpr ⟨ha', hb'⟩
        refine ⟨_, hall (hk.resolve_left hne) a ha b hb ?_, hm⟩
        rw [Bool.and_eq_true, Bool.not_eq_true']
        refine ⟨?_, hasConflict_false x.disj hds w hw _ hm⟩
        by_contra hv
        obtain ⟨f, hp, hn⟩ := isValid_false (Bool.eq_false_iff.mpr hv)
        have h1 := hm _ hp
        have h2 := hm _ hn
        simp [Literal.holds] at h1 h2
        rw [h1] at h2; simp at h2
      · intro _ c hc
        obtain ⟨a, ha, b, hb, he, hk⟩ := hres c hc
        rw [Bool.and_eq_true, Bool.not_eq_true'] at hk
        exact ⟨a, ha, b, hb, he, hk⟩

theorem multFormulaBottomK_spec (x : DnfCtx K) {pop : List (HeapElem K) → Option (HeapElem K × List (HeapElem K))} (hpop : IsPop pop)
    (f1 f2 : List Clause) (k : Nat) :
    ∃ r, x.multFormulaBottomK pop f1 f2 k = some r ∧ (f1 ≠ [] → f2 ≠ [] → f1 ≠ f2 → r.length ≤ k) ∧
      (f1 ≠ [] → f2 ≠ [] → ∀ w, cnfHolds w f1 ∨ cnfHolds w f2 → cnfHolds w r) ∧
      (f1 ≠ [] → f2 ≠ [] → f1 = f2 ∨ r.length < k → ∀ w, cnfHolds w r → cnfHolds w f1 ∨ cnfHolds w f2) ∧
      (f1 = [] ∨ f2 = [] → r = [[]]) ∧
      (f1 ≠ [] → f2 ≠ [] → ∀ c ∈ r, (f1 = f2 ∧ c ∈ f1) ∨ ∃ a ∈ f1, ∃ b ∈ f2, c = a.mergeUnchecked b ∧ c.isValid = true) := by
  unfold DnfCtx.multFormulaBottomK
  split
  · rename_i h
    simp only [List.length_eq_zero_iff] at h
    refine ⟨[[]], rfl, fun h1 h2 => absurd h (by simp [h1, h2]), fun h1 h2 => absurd h (by simp [h1, h2]),
      fun h1 h2 => absurd h (by simp [h1, h2]), fun _ => rfl, fun h1 h2 => absurd h (by simp [h1, h2])⟩
  · rename_i h
    push Not at h
    have hn : ¬ (f1 = [] ∨ f2 = []) := by rintro (e | e) <;> subst e <;> simp at h
    split
    · rename_i e
      subst e
      exact ⟨f1, rfl, by simp, fun _ _ w h => h.elim id id, fun _ _ _ w h => .inl h, fun e => absurd e hn, fun _ _ c hc => .inl ⟨rfl, hc⟩⟩
    · rename_i hne
      obtain ⟨r, hr, hlen, hres, hall⟩ := multLoop_spec x.dual Clause.isValid hpop f1 f2 h.1 h.2 k
      refine ⟨r, hr, fun _ _ _ => hlen, ?_, ?_, fun e => absurd e hn, fun _ _ c hc => .inr (hres c hc)⟩
      · intro _ _ w hw c hc
        obtain ⟨a, ha, b, hb, rfl, _⟩ := hres c hc
        rcases hw with hw | hw
        · obtain ⟨l, hl, h⟩ := hw a ha
          exact ⟨l, (Clause.mergeUnchecked_mem a b l).mpr (.inl hl), h⟩
        · obtain ⟨l, hl, h⟩ := hw b hb
          exact ⟨l, (Clause.mergeUnchecked_mem a b l).mpr (.inr hl), h⟩
      · intro _ _ hk w hw
        by_contra hno
        push Not at hno
        obtain ⟨n1, n2⟩ := hno
        unfold cnfHolds at n1 n2
        push Not at n1 n2
        obtain ⟨a, ha, na⟩ := n1
        obtain ⟨b, hb, nb⟩ := n2
        have hfalse : ∀ l ∈ a.mergeUnchecked b, ¬ l.holds w := by
          intro l hl
          rcases (Clause.mergeUnchecked_mem a b l).mp hl with hl | hl
          · exact na l hl
          · exact nb l hl
        by_cases hv : (a.mergeUnchecked b).isValid = true
        · obtain ⟨l, hl, h⟩ := hw _ (hall (hk.resolve_left hne) a ha b hb hv)
          exact hfalse l hl h
        · obtain ⟨f, hp, hn⟩ := isValid_false (Bool.eq_false_iff.mpr hv)
          have h1 := hfalse _ hp
          have h2 := hfalse _ hn
          simp [Literal.holds] at h1 h2
          rw [h1] at h2; simp at h2

/-! ### Sums -/

theorem mergeK_spec (x : DnfCtx K) : ∀ (k : Nat) (f1 f2 : List Clause),
    (x.mergeK k f1 f2).length ≤ k ∧ (∀ c ∈ x.mergeK k f1 f2, c ∈ f1 ∨ c ∈ f2) ∧
    ((x.mergeK k f1 f2).length < k ∨ f1.length + f2.length ≤ k → (∀ c, c ∈ f1 ∨ c ∈ f2 → c ∈ x.mergeK k f1 f2) ∧
      f1.length ≤ (x.mergeK k f1 f2).length ∧ f2.length ≤ (x.mergeK k f1 f2).length) := by
  intro k
  induction k with
  | zero =>
    intro f1 f2
    refine ⟨by simp [DnfCtx.mergeK], by simp [DnfCtx.mergeK], ?_⟩
    intro h
    have : f1 = [] ∧ f2 = [] := by
      rcases h with h | h
      · simp at h
      · exact ⟨List.length_eq_zero_iff.mp (by omega), List.length_eq_zero_iff.mp (by omega)⟩
    obtain ⟨rfl, rfl⟩ := this
    simp
  | succ k ih =>
    intro f1 f2
    cases f1 with
    | nil =>
      cases f2 with
      | nil => simp [DnfCtx.mergeK]
      | cons b bs =>
        obtain ⟨h1, h2, h3⟩ := ih [] bs
        simp only [DnfCtx.mergeK, List.length_cons, List.length_nil, List.mem_cons, List.not_mem_nil, false_or]
        refine ⟨by omega, ?_, ?_⟩
        · rintro c (rfl | hc)
          · exact .inl rfl
          · exact .inr ((h2 c hc).resolve_left (by simp))
        · intro h
          obtain ⟨h4, h5, h6⟩ := h3 (by simp; omega)
          exact ⟨fun c hc => hc.imp id (fun h => h4 c (.inr h)), by omega, by omega⟩
    | cons a as =>
      cases f2 with
      | nil =>
        obtain ⟨h1, h2, h3⟩ := ih as []
        simp only [DnfCtx.mergeK, List.length_cons, List.length_nil, List.mem_cons, List.not_mem_nil, or_false]
        refine ⟨by omega, ?_, ?_⟩
        · rintro c (rfl | hc)
          · exact .inl rfl
          · exact .inr ((h2 c hc).resolve_right (by simp))
        · intro h
          obtain ⟨h4, h5, h6⟩ := h3 (by simp; omega)
          exact ⟨fun c hc => hc.imp id (fun h => h4 c (.inl h)), by omega, by omega⟩
      | cons b bs =>
        unfold DnfCtx.mergeK
        split
        · rename_i e
          subst e
          obtain ⟨h1, h2, h3⟩ := ih as bs
          simp only [List.length_cons, List.mem_cons]
          refine ⟨by omega, ?_, ?_⟩
          · rintro c (rfl | hc)
            · exact .inl (.inl rfl)
            · exact (h2 c hc).imp .inr .inr
          · intro h
            obtain ⟨h4, h5, h6⟩ := h3 (by omega)
            refine ⟨?_, by omega, by omega⟩
            rintro c ((rfl | hc) | (rfl | hc))
            · exact .inl rfl
            · exact .inr (h4 c (.inl hc))
            · exact .inl rfl
            · exact .inr (h4 c (.inr hc))
        · split
          · obtain ⟨h1, h2, h3⟩ := ih as (b :: bs)
            simp only [List.length_cons, List.mem_cons] at *
            refine ⟨by omega, ?_, ?_⟩
            · rintro c (rfl | hc)
              · exact .inl (.inl rfl)
              · exact (h2 c hc).imp .inr id
            · intro h
              obtain ⟨h4, h5, h6⟩ := h3 (by omega)
              refine ⟨?_, by omega, by omega⟩
              rintro c ((rfl | hc) | hc)
              · exact .inl rfl
              · exact .inr (h4 c (.inl hc))
              · exact .inr (h4 c (.inr hc))
          · obtain ⟨h1, h2, h3⟩ := ih (a :: as) bs
            simp only [List.length_cons, List.mem_cons] at *
            refine ⟨by omega, ?_, ?_⟩
            · rintro c (rfl | hc)
              · exact .inr (.inl rfl)
              · exact (h2 c hc).imp id .inr
            · intro h
              obtain ⟨h4, h5, h6⟩ := h3 (by omega)
              refine ⟨?_, by omega, by omega⟩
              rintro c (hc | (rfl | hc))
              · exact .inr (h4 c (.inl hc))
              · exact .inl rfl
              · exact .inr (h4 c (.inr hc))

end Scallop
