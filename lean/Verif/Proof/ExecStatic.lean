import Verif.Proof.Semantics

/-!
# Subtracted parts of dataflows
-/

namespace Scallop.Exec

variable {V T W ι κ : Type} [LinearOrder V]

/-- The naive evaluation of a static dataflow has the tuples of its set semantics. -/
theorem static_sem (c : Prov T W) (inp : κ → List (Elem (Tup V) T)) (X : ι → Set (Tup V)) : ∀ {d : DF V ι κ}, d.static → ∀ t,
    t ∈ tuples (d.bag c (inputSrc inp)) ↔ t ∈ d.sem c inp X := by
  intro d
  induction d with
  | input j => exact fun _ t => Iff.rfl
  | overwriteOne d ih =>
    intro h t
    rw [DF.sem, ← ih h t]
    simp [DF.bag, tuples]
  | filter d p ih =>
    intro h t
    simp only [DF.sem, Set.mem_setOf_eq]
    rw [← ih h t]
    simp only [DF.bag, tuples, List.mem_filter, Set.mem_setOf_eq]
    constructor
    · rintro ⟨e, ⟨h1, h2⟩, rfl⟩; exact ⟨⟨e, h1, rfl⟩, h2⟩
    · rintro ⟨⟨e, h1, rfl⟩, h2⟩; exact ⟨e, ⟨h1, h2⟩, rfl⟩
  | find d k ih =>
    intro h t
    simp only [DF.sem, Set.mem_setOf_eq]
    rw [← ih h t]
    simp only [DF.bag, findSpec, tuples, List.mem_filter, Set.mem_setOf_eq, decide_eq_true_eq]
    constructor
    · rintro ⟨e, ⟨h1, h2⟩, rfl⟩; exact ⟨⟨e, h1, rfl⟩, h2⟩
    · rintro ⟨⟨e, h1, rfl⟩, h2⟩; exact ⟨e, ⟨h1, h2⟩, rfl⟩
  | project d f ih =>
    intro h t
    simp only [DF.sem, Set.mem_setOf_eq]
    simp only [DF.bag, tuples, List.mem_filterMap, Set.mem_setOf_eq]
    constructor
    · rintro ⟨e, ⟨e', h1, h2⟩, rfl⟩
      obtain ⟨u, hu, rfl⟩ := Option.map_eq_some_iff.mp h2
      exact ⟨e'.tuple, (ih h _).mp ⟨e', h1, rfl⟩, hu⟩
    · rintro ⟨u, hu, hf⟩
      obtain ⟨e, he, rfl⟩ := (ih h u).mpr hu
      exact ⟨⟨t, e.tag⟩, ⟨e, he, by rw [hf]; rfl⟩, rfl⟩
  | _ => intro h; exact h.elim

/-- Without subtraction of tags, what is subtracted is removed. -/
theorem survives_none {c : Prov T W} (hm : ∀ a b, c.minus a b = none) {B : List (Elem (Tup V) T)} {k : Option (Tup V)} :
    survives c B k ↔ ∀ t, k = some t → t ∉ tuples B := by
  unfold survives
  constructor
  · rintro h t rfl ⟨e, he, rfl⟩
    cases hf : B.find? (fun y => decide (some y.tuple = some e.tuple)) with
    | none => exact absurd (List.find?_eq_none.mp hf e he) (by simp)
    | some y =>
      have := h y hf
      rw [hm] at this
      cases this
  · intro h y hy
    have h1 := List.find?_some hy
    have h2 := List.mem_of_find?_eq_some hy
    simp only [decide_eq_true_eq] at h1
    exact absurd ⟨y, h2, rfl⟩ (h _ h1.symm)


end Scallop.Exec
