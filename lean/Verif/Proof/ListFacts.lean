import Mathlib.Data.List.Nodup
import Verif.Spec.ListFacts

/-!
# Lemmas on facts given as a list (C116)
-/

namespace Scallop.ListFacts

variable {P τ : Type}

theorem assignOne_spec (elems : List (PyTag P × τ)) (id : Nat) : ∀ (d : List Nat) (pr : List (PyTag P × τ)), pr.length = elems.length → (∀ i ∈ d, i < elems.length) →
    ∃ pr', assignOne elems id d pr = some pr' ∧ pr'.length = elems.length ∧ (∀ i, i ∉ d → pr'[i]? = pr[i]?) ∧
      ∀ i tag t, i ∈ d → elems[i]? = some (tag, t) → pr'[i]? = some (.tup [tag, .num id], t)
  | [], pr, hl, _ => ⟨pr, rfl, hl, fun _ _ => rfl, by simp⟩
  | k :: d, pr, hl, hd => by
    have hk := hd k (by simp)
    have hg := List.getElem?_eq_getElem hk
    obtain ⟨pr', h1, h2, h3, h4⟩ := assignOne_spec elems id d (pr.set k (.tup [elems[k].1, .num id], elems[k].2)) (by simpa using hl)
      (fun i hi => hd i (by simp [hi]))
    refine ⟨pr', by simp only [assignOne, hg]; exact h1, h2, ?_, ?_⟩
    · intro i hi
      simp only [List.mem_cons, not_or] at hi
      rw [h3 i hi.2, List.getElem?_set_ne (Ne.symm hi.1)]
    · intro i tag t hi he
      by_cases hid : i ∈ d
      · exact h4 i tag t hid he
      · have : i = k := by
          rcases List.mem_cons.mp hi with h | h
          · exact h
          · exact absurd h hid
        subst this
        rw [h3 i hid, List.getElem?_set_self (by omega)]
        rw [hg] at he
        simp only [Option.some.injEq] at he
        rw [he]

theorem assignAll_spec (elems : List (PyTag P × τ)) : ∀ (ds : List (List Nat)) (c : Nat) (pr : List (PyTag P × τ)), pr.length = elems.length → Proper elems.length ds →
    ∃ pr', assignAll elems ds c pr = some pr' ∧ pr'.length = elems.length ∧ (∀ i, (∀ j, ¬ InDisj ds i j) → pr'[i]? = pr[i]?) ∧
      ∀ i j tag t, InDisj ds i j → elems[i]? = some (tag, t) → pr'[i]? = some (.tup [tag, .num (c + j)], t)
  | [], c, pr, hl, _ => ⟨pr, rfl, hl, fun _ _ => rfl, by rintro i j tag t ⟨d, hd, _⟩; simp at hd⟩
  | d :: ds, c, pr, hl, hp => by
    have up : ∀ i j, InDisj ds i j → InDisj (d :: ds) i (j + 1) := fun i j h => by
      obtain ⟨e, he, hi⟩ := h
      exact ⟨e, by simpa using he, hi⟩
    have zero : ∀ i, i ∈ d → InDisj (d :: ds) i 0 := fun i h => ⟨d, rfl, h⟩
    obtain ⟨p1, h1, h2, h3, h4⟩ := assignOne_spec elems c d pr hl (fun i hi => hp.1 i 0 (zero i hi))
    obtain ⟨p2, h5, h6, h7, h8⟩ := assignAll_spec elems ds (c + 1) p1 h2 ⟨fun i j h => hp.1 i _ (up i j h), fun i j k hj hk => by
      have := hp.2 i _ _ (up i j hj) (up i k hk)
      omega⟩
    refine ⟨p2, by simp only [assignAll, h1]; exact h5, h6, ?_, ?_⟩
    · intro i hi
      rw [h7 i (fun j hj => hi _ (up i j hj)), h3 i (fun hm => hi 0 (zero i hm))]
    · intro i j tag t hj he
      cases j with
      | zero =>
        obtain ⟨e, hee, hi⟩ := hj
        simp only [List.getElem?_cons_zero, Option.some.injEq] at hee
        subst hee
        rw [h7 i (fun j hj' => by have := hp.2 i _ _ (zero i hi) (up i j hj'); omega)]
        exact h4 i tag t hi he
      | succ j =>
        obtain ⟨e, hee, hi⟩ := hj
        rw [h8 i j tag t ⟨e, by simpa using hee, hi⟩ he]
        rw [show c + 1 + j = c + (j + 1) by omega]

theorem finish_spec (visited : Nat → Bool) : ∀ (es : List (PyTag P × τ)) (n : Nat) (pr : List (PyTag P × τ)), n + es.length ≤ pr.length →
    (finish visited n es pr).length = pr.length ∧ (∀ i, visited i = true → (finish visited n es pr)[i]? = pr[i]?) ∧
    (∀ i, i < n → (finish visited n es pr)[i]? = pr[i]?) ∧
    ∀ i tag t, visited (n + i) = false → es[i]? = some (tag, t) → (finish visited n es pr)[n + i]? = some (alone tag, t)
  | [], n, pr, _ => by simp [finish]
  | (tag, t) :: es, n, pr, hl => by
    simp only [List.length_cons] at hl
    have hl' : n + 1 + es.length ≤ (if visited n then pr else pr.set n (alone tag, t)).length := by
      split
      · omega
      · simp; omega
    obtain ⟨h1, h2, h3, h4⟩ := finish_spec visited es (n + 1) (if visited n then pr else pr.set n (alone tag, t)) hl'
    simp only [finish]
    refine ⟨?_, ?_, ?_, ?_⟩
    · rw [h1]; split <;> simp
    · intro i hi
      rw [h2 i hi]
      split
      · rfl
      · rename_i hn
        rw [List.getElem?_set_ne]
        rintro rfl
        exact hn hi
    · intro i hi
      rw [h3 i (by omega)]
      split
      · rfl
      · rw [List.getElem?_set_ne (by omega)]
    · intro i tag' t' hv he
      cases i with
      | zero =>
        simp only [List.getElem?_cons_zero, Option.some.injEq, Prod.mk.injEq] at he
        obtain ⟨rfl, rfl⟩ := he
        simp only [Nat.add_zero] at hv ⊢
        rw [h3 n (by omega), hv]
        simp only [Bool.false_eq_true, if_false]
        rw [List.getElem?_set_self (by omega)]
      | succ i =>
        have := h4 i tag' t' (by rw [← hv]; congr 1; omega) (by simpa using he)
        rw [← this]
        congr 1
        omega

theorem any_iff (ds : List (List Nat)) (i : Nat) : ds.any (fun d => d.contains i) = true ↔ ∃ j, InDisj ds i j := by
  simp only [List.any_eq_true, List.contains_iff_mem]
  constructor
  · rintro ⟨d, hd, hi⟩
    obtain ⟨j, hj⟩ := List.mem_iff_getElem?.mp hd
    exact ⟨j, d, hj, hi⟩
  · rintro ⟨j, d, hj, hi⟩
    exact ⟨d, List.mem_of_getElem? hj, hi⟩

theorem process_spec (elems : List (PyTag P × τ)) (ds : List (List Nat)) (c : Nat) (hp : Proper elems.length ds) :
    ∃ out, processElems true elems (some ds) c = some (out, c + ds.length) ∧ out.length = elems.length ∧
      ∀ i tag t, elems[i]? = some (tag, t) → (∀ j, InDisj ds i j → out[i]? = some (.tup [tag, .num (c + j)], t)) ∧
        ((∀ j, ¬ InDisj ds i j) → out[i]? = some (alone tag, t)) := by
  obtain ⟨pr, h1, h2, h3, h4⟩ := assignAll_spec elems ds c elems rfl hp
  obtain ⟨f1, f2, f3, f4⟩ := finish_spec (fun n => ds.any (fun d => d.contains n)) elems 0 pr (by omega)
  refine ⟨finish (fun n => ds.any (fun d => d.contains n)) 0 elems pr, by simp only [processElems, if_true, h1], by rw [f1, h2], ?_⟩
  intro i tag t he
  refine ⟨?_, ?_⟩
  · intro j hj
    rw [f2 i ((any_iff ds i).mpr ⟨j, hj⟩)]
    exact h4 i j tag t hj he
  · intro hn
    have := f4 i tag t (by
      rw [Nat.zero_add, Bool.eq_false_iff]
      intro h
      obtain ⟨j, hj⟩ := (any_iff ds i).mp h
      exact hn j hj) he
    simpa using this

theorem process_none (elems : List (PyTag P × τ)) (c : Nat) :
    ∃ out, processElems true elems none c = some (out, c) ∧ out.length = elems.length ∧
      ∀ (i : Nat) (tag : PyTag P) (t : τ), elems[i]? = some (tag, t) → out[i]? = some (alone tag, t) := by
  obtain ⟨f1, f2, f3, f4⟩ := finish_spec (fun _ => false) elems 0 elems (by omega)
  refine ⟨finish (fun _ => false) 0 elems elems, by simp only [processElems, if_true], f1, ?_⟩
  intro i tag t he
  have := f4 i tag t rfl he
  simpa using this

/-! ## Sorting -/

theorem insertDesc_perm (lt : P → P → Bool) (x : (P × τ) × Nat) : ∀ l, (insertDesc lt x l).Perm (x :: l)
  | [] => List.Perm.refl _
  | y :: l => by
    simp only [insertDesc]
    split
    · exact ((insertDesc_perm lt x l).cons y).trans (List.Perm.swap x y l)
    · exact List.Perm.refl _

theorem sortDesc_perm (lt : P → P → Bool) : ∀ l : List ((P × τ) × Nat), (sortDesc lt l).Perm l
  | [] => List.Perm.refl _
  | x :: l => (insertDesc_perm lt x _).trans ((sortDesc_perm lt l).cons x)

theorem insertDesc_sorted (lt : P → P → Bool) (hlt : WeakOrder lt) (x : (P × τ) × Nat) : ∀ l : List ((P × τ) × Nat), l.Pairwise (fun a b => lt a.1.1 b.1.1 = false) →
    (insertDesc lt x l).Pairwise (fun a b => lt a.1.1 b.1.1 = false)
  | [], _ => by simp [insertDesc]
  | y :: l, h => by
    rw [List.pairwise_cons] at h
    simp only [insertDesc]
    split
    · rename_i hxy
      rw [List.pairwise_cons]
      refine ⟨?_, insertDesc_sorted lt hlt x l h.2⟩
      intro z hz
      rcases List.mem_cons.mp ((insertDesc_perm lt x l).mem_iff.mp hz) with e | e
      · subst e; exact hlt.1 _ _ hxy
      · exact h.1 z e
    · rename_i hxy
      have hxy' : lt x.1.1 y.1.1 = false := by simpa using hxy
      rw [List.pairwise_cons, List.pairwise_cons]
      refine ⟨?_, h⟩
      intro z hz
      rcases List.mem_cons.mp hz with e | e
      · subst e; exact hxy'
      · exact hlt.2 _ _ _ hxy' (h.1 z e)

theorem sortDesc_sorted (lt : P → P → Bool) (hlt : WeakOrder lt) : ∀ l : List ((P × τ) × Nat), (sortDesc lt l).Pairwise (fun a b => lt a.1.1 b.1.1 = false)
  | [] => List.Pairwise.nil
  | x :: l => insertDesc_sorted lt hlt x _ (sortDesc_sorted lt hlt l)

theorem lookup_zip {β : Type} [BEq β] [LawfulBEq β] : ∀ (l : List β) (n k : Nat) (a : β), l.Nodup → l[k]? = some a → (l.zipIdx n).lookup a = some (n + k)
  | [], _, _, _, _, h => by simp at h
  | b :: l, c, 0, a, _, h => by simp at h; subst h; simp [List.zipIdx]
  | b :: l, c, k + 1, a, hn, h => by
    simp only [List.getElem?_cons_succ] at h
    rw [List.nodup_cons] at hn
    have hne : (a == b) = false := by
      rw [beq_eq_false_iff_ne]
      rintro rfl
      exact hn.1 (List.mem_of_getElem? h)
    rw [List.zipIdx_cons, List.lookup_cons, hne]
    simp only
    rw [lookup_zip l (c + 1) k a hn.2 h]
    congr 1
    omega

theorem lookup_zip_none {β : Type} [BEq β] [LawfulBEq β] : ∀ (l : List β) (n k : Nat) (a : β), (l.zipIdx n).lookup a = some k → ∃ i, k = n + i ∧ l[i]? = some a
  | [], _, _, _, h => by simp at h
  | b :: l, n, k, a, h => by
    rw [List.zipIdx_cons, List.lookup_cons] at h
    cases hb : a == b with
    | true =>
      rw [hb] at h
      simp only [Option.some.injEq] at h
      have := eq_of_beq hb
      subst this
      exact ⟨0, by omega, rfl⟩
    | false =>
      rw [hb] at h
      obtain ⟨i, hk, hi⟩ := lookup_zip_none l (n + 1) k a h
      exact ⟨i + 1, by omega, by simpa using hi⟩

end Scallop.ListFacts
