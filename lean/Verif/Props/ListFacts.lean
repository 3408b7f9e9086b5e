import Verif.Proof.ListFacts

/-!
# C116: Facts given as a list keep their probabilities and disjunctions
-/

namespace Scallop.ListFacts

variable {P τ : Type}

/-- **C116**, disjunctions: if no fact is in two disjunctions, all facts are passed on in order, with their probabilities, and two of them belong to the
same choice exactly if they are in the same disjunction. *Partial*: no fact in two disjunctions. -/
theorem c116_disjunctions_partial (lt : P → P → Bool) (facts : List (P × τ)) (ds : List (List Nat)) (c : Nat) (hp : Proper facts.length ds) :
    ∃ out, listFacts lt true none facts (some ds) c = some (out, c + ds.length) ∧ out.length = facts.length ∧
      ∀ i, i < facts.length → ReadsAs facts ds c out i i := by
  obtain ⟨out, h1, h2, h3⟩ := process_spec (facts.map fun f => ((.prob f.1 : PyTag P), f.2)) ds c (by simpa using hp)
  refine ⟨out, by simp only [listFacts]; exact h1, by simpa using h2, ?_⟩
  intro i hi
  have hg := List.getElem?_eq_getElem hi
  obtain ⟨a, b⟩ := h3 i (.prob facts[i].1) facts[i].2 (by simp [hg])
  by_cases h : ∃ j, InDisj ds i j
  · obtain ⟨j, hj⟩ := h
    refine ⟨facts[i].1, facts[i].2, _, hg, a j hj, ?_, fun hn => absurd hj (hn j)⟩
    intro k hk
    have := hp.2 i j k hj hk
    subst this
    rfl
  · refine ⟨facts[i].1, facts[i].2, _, hg, b (fun j hj => h ⟨j, hj⟩), fun j hj => absurd ⟨j, hj⟩ h, fun _ => rfl⟩

example : Proper 3 [[0, 1], [2]] := by
  have : ∀ i j, InDisj [[0, 1], [2]] i j → (j = 0 ∧ (i = 0 ∨ i = 1)) ∨ (j = 1 ∧ i = 2) := by
    rintro i j ⟨d, hd, hi⟩
    match j, hd with
    | 0, hd => cases hd; simp at hi; exact Or.inl ⟨rfl, hi⟩
    | 1, hd => cases hd; simp at hi; exact Or.inr ⟨rfl, hi⟩
    | j + 2, hd => simp at hd
  refine ⟨fun i j h => by have := this i j h; omega, fun i j k hj hk => ?_⟩
  have h1 := this i j hj
  have h2 := this i k hk
  omega

/-- **C116**, a fact in two disjunctions: it belongs to the last one only, and does not exclude the facts of the other. -/
theorem c116_overlap_false (lt : P → P → Bool) (p q r : P) (a b d : τ) : ∃ out,
    listFacts lt true none [(p, a), (q, b), (r, d)] (some [[0, 1], [1, 2]]) 0 = some (out, 2) ∧
    InDisj [[0, 1], [1, 2]] 0 0 ∧ InDisj [[0, 1], [1, 2]] 1 0 ∧
    out.map (fun f => readTag f.1) = [some (p, some 0), some (q, some 1), some (r, some 1)] :=
  ⟨_, rfl, ⟨_, rfl, by simp⟩, ⟨_, rfl, by simp⟩, rfl⟩

/-- **C116**, no disjunctions: all facts are passed on in order, with their probabilities, and belong to no choice. -/
theorem c116_none (lt : P → P → Bool) (facts : List (P × τ)) (c : Nat) :
    ∃ out, listFacts lt true none facts none c = some (out, c) ∧ out.length = facts.length ∧
      ∀ (i : Nat) (p : P) (t : τ), facts[i]? = some (p, t) → ∃ tag, out[i]? = some (tag, t) ∧ readTag tag = some (p, none) := by
  obtain ⟨out, h1, h2, h3⟩ := process_none (facts.map fun f => ((.prob f.1 : PyTag P), f.2)) c
  refine ⟨out, by simp only [listFacts]; exact h1, by simpa using h2, ?_⟩
  intro i p t h
  exact ⟨_, h3 i (.prob p) t (by simp [h]), rfl⟩

/-- **C116**, retaining: with a bound, as many facts as the bound says (or all) are passed on, none smaller than one that is left out, from the greatest
on, each with its probability and the choice of its disjunction. *Partial*: no fact in two disjunctions. -/
theorem c116_retain_partial (lt : P → P → Bool) (hlt : WeakOrder lt) (k : Nat) (facts : List (P × τ)) (ds : List (List Nat)) (c : Nat) (hp : Proper facts.length ds) :
    ∃ out, ∃ js : List Nat, listFacts lt true (some k) facts (some ds) c = some (out, c + ds.length) ∧ js.length = min k facts.length ∧ js.Nodup ∧
      out.length = js.length ∧ (∀ (o i : Nat), js[o]? = some i → ReadsAs facts ds c out o i) ∧
      js.Pairwise (fun i j => ∀ x y : P × τ, facts[i]? = some x → facts[j]? = some y → lt x.1 y.1 = false) ∧
      ∀ i ∈ js, ∀ j, j ∉ js → ∀ x y : P × τ, facts[i]? = some x → facts[j]? = some y → lt x.1 y.1 = false := by
  have hperm := sortDesc_perm lt facts.zipIdx
  have hsort := sortDesc_sorted lt hlt facts.zipIdx
  have hfst : ∀ e ∈ sortDesc lt facts.zipIdx, facts[e.2]? = some e.1 := by
    intro e he
    have := hperm.mem_iff.mp he
    exact List.mem_zipIdx_iff_getElem?.mp this
  have hnd : ((sortDesc lt facts.zipIdx).map Prod.snd).Nodup := by
    rw [(hperm.map Prod.snd).nodup_iff]
    have : facts.zipIdx.map Prod.snd = List.range' 0 facts.length := by simp
    rw [this]
    exact List.nodup_range'
  have hsl : (sortDesc lt facts.zipIdx).length = facts.length := by rw [hperm.length_eq]; simp
  generalize hS : sortDesc lt facts.zipIdx = S at *
  have htk : ∀ e ∈ S.take (min k facts.length), facts[e.2]? = some e.1 := fun e he => hfst e (List.mem_of_mem_take he)
  have hndt : ((S.take (min k facts.length)).map Prod.snd).Nodup := hnd.sublist ((List.take_sublist _ _).map _)
  generalize hI : S.take (min k facts.length) = I at *
  have hIl : I.length = min k facts.length := by rw [← hI]; simp [hsl]
  -- the disjunctions after renumbering
  have hre : ∀ o j, InDisj (ds.map fun d => d.filterMap fun i => ((I.map Prod.snd).zipIdx).lookup i) o j ↔
      ∃ i, (I.map Prod.snd)[o]? = some i ∧ InDisj ds i j := by
    intro o j
    simp only [InDisj, List.getElem?_map]
    constructor
    · rintro ⟨d', hd', ho⟩
      cases hd : ds[j]? with
      | none => simp [hd] at hd'
      | some d =>
        simp only [hd, Option.map_some, Option.some.injEq] at hd'
        subst hd'
        obtain ⟨i, hi, hl⟩ := List.mem_filterMap.mp ho
        obtain ⟨o', ho', hg⟩ := lookup_zip_none _ _ _ _ hl
        have : o = o' := by omega
        subst this
        exact ⟨i, by simpa using hg, d, rfl, hi⟩
    · rintro ⟨i, hi, d, hd, hm⟩
      refine ⟨_, by rw [hd]; rfl, List.mem_filterMap.mpr ⟨i, hm, ?_⟩⟩
      rw [lookup_zip _ 0 o i hndt (by simpa using hi)]
      simp
  have hproper : Proper (I.map fun f => ((.prob f.1.1 : PyTag P), f.1.2)).length
      (ds.map fun d => d.filterMap fun i => ((I.map Prod.snd).zipIdx).lookup i) := by
    refine ⟨?_, ?_⟩
    · intro o j h
      obtain ⟨i, hi, _⟩ := (hre o j).mp h
      have := (List.getElem?_eq_some_iff.mp hi).1
      simpa using this
    · intro o j j' h h'
      obtain ⟨i, hi, hd⟩ := (hre o j).mp h
      obtain ⟨i', hi', hd'⟩ := (hre o j').mp h'
      rw [hi] at hi'
      cases hi'
      exact hp.2 i j j' hd hd'
  obtain ⟨out, h1, h2, h3⟩ := process_spec _ _ c hproper
  refine ⟨out, I.map Prod.snd, ?_, by simp [hIl], hndt, by simpa using h2, ?_, ?_, ?_⟩
  · simp only [listFacts, hS, hI, Option.map_some]
    simpa using h1
  · intro o i ho
    simp only [List.getElem?_map, Option.map_eq_some_iff] at ho
    obtain ⟨e, he, rfl⟩ := ho
    have hf := htk e (List.mem_of_getElem? he)
    obtain ⟨a, b⟩ := h3 o (.prob e.1.1) e.1.2 (by simp [he])
    have hio : (I.map Prod.snd)[o]? = some e.2 := by simp [he]
    by_cases h : ∃ j, InDisj ds e.2 j
    · obtain ⟨j, hj⟩ := h
      refine ⟨e.1.1, e.1.2, _, hf, a j ((hre o j).mpr ⟨_, hio, hj⟩), ?_, fun hn => absurd hj (hn j)⟩
      intro j' hj'
      have := hp.2 _ j j' hj hj'
      subst this
      rfl
    · refine ⟨e.1.1, e.1.2, _, hf, b ?_, fun j hj => absurd ⟨j, hj⟩ h, fun _ => rfl⟩
      intro j hj
      obtain ⟨i, hi, hd⟩ := (hre o j).mp hj
      rw [hio] at hi
      cases hi
      exact h ⟨j, hd⟩
  · rw [List.pairwise_map]
    have : I.Pairwise (fun a b => lt a.1.1 b.1.1 = false) := by rw [← hI]; exact hsort.sublist (List.take_sublist _ _)
    refine this.imp_of_mem ?_
    intro a b ha hb hab x y hx hy
    rw [htk a ha] at hx
    rw [htk b hb] at hy
    cases hx
    cases hy
    exact hab
  · intro i hi j hj x y hx hy
    obtain ⟨e, he, rfl⟩ := List.mem_map.mp hi
    have hje : (y, j) ∈ S := hperm.mem_iff.mpr (List.mem_zipIdx_iff_getElem?.mpr hy)
    rw [← List.take_append_drop (min k facts.length) S, hI] at hje hsort
    rcases List.mem_append.mp hje with h | h
    · exact absurd (List.mem_map.mpr ⟨_, h, rfl⟩) hj
    · have := (List.pairwise_append.mp hsort).2.2 e he (y, j) h
      rw [htk e he] at hx
      cases hx
      exact this

/-- The two greatest of three facts, two of which are in a disjunction; the order of numbers is as required. -/
example : (listFacts (fun a b => decide (a < b)) true (some 2) [((3 : Nat), "a"), (1, "b"), (5, "c")] (some [[1], [0, 2]]) 7).map
      (fun r => (r.1.map (fun f => (readTag f.1, f.2)), r.2)) = some ([(some (5, some 8), "c"), (some (3, some 8), "a")], 9) ∧
    WeakOrder (fun a b : Nat => decide (a < b)) := by
  refine ⟨rfl, ?_, ?_⟩
  · intro a b; simp only [decide_eq_true_eq, decide_eq_false_iff_not]; omega
  · intro a b c; simp only [decide_eq_false_iff_not]; omega

/-- **C116**, debugging: with the provenance for debugging, a fact that is in no disjunction is read as it was given; *but* the tag of a fact that is in a
disjunction is not accepted. -/
theorem c116_debug_false (facts : List ((P × Nat) × τ)) (ds : List (List Nat)) (c : Nat) (hp : Proper facts.length ds) :
    ∃ out, processElems true (facts.map fun f => (.tup [.prob f.1.1, .num f.1.2], f.2)) (some ds) c = some (out, c + ds.length) ∧
      ∀ (i : Nat) (p : P) (n : Nat) (t : τ), facts[i]? = some ((p, n), t) → ∃ tag, out[i]? = some (tag, t) ∧
        (n ≠ 0 → (∀ j, ¬ InDisj ds i j) → readDebugTag tag = some (p, n, none)) ∧ ∀ j, InDisj ds i j → readDebugTag tag = none := by
  obtain ⟨out, h1, _, h3⟩ := process_spec (facts.map fun f => ((.tup [.prob f.1.1, .num f.1.2] : PyTag P), f.2)) ds c (by simpa using hp)
  refine ⟨out, h1, ?_⟩
  intro i p n t h
  obtain ⟨a, b⟩ := h3 i (.tup [.prob p, .num n]) t (by simp [h])
  by_cases hj : ∃ j, InDisj ds i j
  · obtain ⟨j, hj⟩ := hj
    exact ⟨_, a j hj, fun _ hn => absurd hj (hn j), fun _ _ => rfl⟩
  · refine ⟨_, b (fun j h => hj ⟨j, h⟩), ?_, fun j h => absurd ⟨j, h⟩ hj⟩
    intro hn _
    simp [alone, readDebugTag, hn]

end Scallop.ListFacts
