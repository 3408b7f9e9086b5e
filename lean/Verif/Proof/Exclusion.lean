import Verif.Spec.InputTags

/-! # Numbers of exclusions: lemmas -/

namespace Scallop.Input

variable {K V : Type*}

section
variable [DecidableEq (Tup V)]

/-- The map of a dataflow: numbers from `lo` to the counter, one for each tuple. -/
structure VisOk (lo : Nat) (s : Nat × Visited V) : Prop where
  le : lo ≤ s.1
  bound : ∀ t i, s.2.lookup t = some i → lo ≤ i ∧ i < s.1
  inj : ∀ t t' i, s.2.lookup t = some i → s.2.lookup t' = some i → t = t'

theorem exclusionOf_spec {lo : Nat} {s : Nat × Visited V} (h : VisOk lo s) (t : Tup V) :
    VisOk lo (exclusionOf s t).2 ∧ (exclusionOf s t).2.2.lookup t = some (exclusionOf s t).1 ∧
      (∀ u i, s.2.lookup u = some i → (exclusionOf s t).2.2.lookup u = some i) ∧ s.1 ≤ (exclusionOf s t).2.1 := by
  unfold exclusionOf
  cases ht : s.2.lookup t with
  | some id => exact ⟨h, ht, fun _ _ hu => hu, le_refl _⟩
  | none =>
    have hlk : ∀ u, ((t, s.1) :: s.2).lookup u = if u = t then some s.1 else s.2.lookup u := by
      intro u
      rw [List.lookup_cons]
      by_cases hu : u = t
      · simp [hu]
      · have : (u == t) = false := by simpa using hu
        simp [this, hu]
    refine ⟨⟨Nat.le_succ_of_le h.le, ?_, ?_⟩, by simp, ?_, Nat.le_succ _⟩
    · intro u i hu
      simp only [hlk] at hu
      split at hu
      · obtain rfl := Option.some.inj hu
        exact ⟨h.le, Nat.lt_succ_self _⟩
      · have := h.bound u i hu
        exact ⟨this.1, Nat.lt_succ_of_lt this.2⟩
    · intro u u' i hu hu'
      simp only [hlk] at hu hu'
      split at hu <;> split at hu'
      · rename_i h1 h2; rw [h1, h2]
      · obtain rfl := Option.some.inj hu
        exact absurd (h.bound u' _ hu').2 (lt_irrefl _)
      · obtain rfl := Option.some.inj hu'
        exact absurd (h.bound u _ hu).2 (lt_irrefl _)
      · exact h.inj u u' i hu hu'
    · intro u i hu
      simp only [hlk]
      rw [if_neg, hu]
      rintro rfl
      rw [ht] at hu; simp at hu

theorem exclusionBatch_spec (alts : List (Tup V)) {lo : Nat} : ∀ (ts : List (Tup V)) (s : Nat × Visited V), VisOk lo s →
    VisOk lo (exclusionBatch alts s ts).2 ∧ (∀ u i, s.2.lookup u = some i → (exclusionBatch alts s ts).2.2.lookup u = some i) ∧
      s.1 ≤ (exclusionBatch alts s ts).2.1 ∧
      ∀ r ∈ (exclusionBatch alts s ts).1, (exclusionBatch alts s ts).2.2.lookup r.1 = some r.2.2
  | [], s, h => ⟨h, fun _ _ hu => hu, le_refl _, fun r hr => by simp [exclusionBatch] at hr⟩
  | t :: ts, s, h => by
    obtain ⟨h1, h2, h3, h4⟩ := exclusionOf_spec h t
    obtain ⟨h5, h6, h7, h8⟩ := exclusionBatch_spec alts ts _ h1
    refine ⟨h5, fun u i hu => h6 u i (h3 u i hu), le_trans h4 h7, fun r hr => ?_⟩
    simp only [exclusionBatch, List.mem_append, List.mem_map] at hr
    rcases hr with ⟨a, _, rfl⟩ | hr
    · exact h6 t _ h2
    · exact h8 r hr

theorem exclusionBatch_pairs (alts : List (Tup V)) : ∀ (ts : List (Tup V)) (s : Nat × Visited V),
    (exclusionBatch alts s ts).1.map (fun r => (r.1, r.2.1)) = ts.flatMap (fun t => alts.map (fun a => (t, a)))
  | [], s => rfl
  | t :: ts, s => by
    simp [exclusionBatch, exclusionBatch_pairs alts ts]

theorem VisOk.empty (n : Nat) : VisOk n ((n, []) : Nat × Visited V) := by
  constructor <;> simp

/-- The numbers of an evaluation. -/
theorem exclusionBatch_ids (alts : List (Tup V)) (n : Nat) (ts : List (Tup V)) (r r' : Tup V × Tup V × Nat)
    (hr : r ∈ (exclusionBatch alts (n, []) ts).1) (hr' : r' ∈ (exclusionBatch alts (n, []) ts).1) :
    (r.2.2 = r'.2.2 ↔ r.1 = r'.1) ∧ n ≤ r.2.2 ∧ r.2.2 < (exclusionBatch alts (n, []) ts).2.1 := by
  obtain ⟨h1, _, _, h4⟩ := exclusionBatch_spec alts ts (n, []) (VisOk.empty n)
  have ha := h4 r hr
  have hb := h4 r' hr'
  refine ⟨⟨fun h => ?_, fun h => ?_⟩, h1.bound _ _ ha⟩
  · rw [h] at ha; exact h1.inj _ _ _ ha hb
  · rw [h, hb] at ha; exact (Option.some.inj ha).symm

theorem exclusionRun_length (alts : List (Tup V)) : ∀ (its : List (List (Tup V))) (n : Nat), (exclusionRun alts n its).1.length = its.length
  | [], _ => rfl
  | ts :: its, n => by simp [exclusionRun, exclusionRun_length alts its]

theorem exclusionRun_pairs (alts : List (Tup V)) : ∀ (its : List (List (Tup V))) (n : Nat),
    (exclusionRun alts n its).1.map (List.map (fun r => (r.1, r.2.1))) = its.map (fun ts => ts.flatMap (fun t => alts.map (fun a => (t, a))))
  | [], _ => rfl
  | ts :: its, n => by simp [exclusionRun, exclusionRun_pairs alts its, exclusionBatch_pairs]

theorem exclusionRun_ge (alts : List (Tup V)) : ∀ (its : List (List (Tup V))) (n i : Nat) (rs : List (Tup V × Tup V × Nat)) (r : Tup V × Tup V × Nat),
    (exclusionRun alts n its).1[i]? = some rs → r ∈ rs → n ≤ r.2.2
  | [], _, _, _, _, h, _ => by simp [exclusionRun] at h
  | ts :: its, n, i, rs, r, h, hr => by
    simp only [exclusionRun] at h
    cases i with
    | zero =>
      simp only [List.getElem?_cons_zero, Option.some.injEq] at h
      subst h
      exact (exclusionBatch_ids alts n ts r r hr hr).2.1
    | succ i =>
      simp only [List.getElem?_cons_succ] at h
      exact le_trans (exclusionBatch_spec alts ts (n, []) (VisOk.empty n)).2.2.1 (exclusionRun_ge alts its _ i rs r h hr)

/-- The numbers of a run: equal for the alternatives of one tuple in one evaluation. -/
theorem exclusionRun_ids (alts : List (Tup V)) : ∀ (its : List (List (Tup V))) (n i j : Nat) (rs rs' : List (Tup V × Tup V × Nat)) (r r' : Tup V × Tup V × Nat),
    (exclusionRun alts n its).1[i]? = some rs → (exclusionRun alts n its).1[j]? = some rs' → r ∈ rs → r' ∈ rs' →
    (r.2.2 = r'.2.2 ↔ i = j ∧ r.1 = r'.1)
  | [], _, _, _, _, _, _, _, h, _, _, _ => by simp [exclusionRun] at h
  | ts :: its, n, i, j, rs, rs', r, r', h, h', hr, hr' => by
    simp only [exclusionRun] at h h'
    cases i with
    | zero =>
      simp only [List.getElem?_cons_zero, Option.some.injEq] at h
      subst h
      cases j with
      | zero =>
        simp only [List.getElem?_cons_zero, Option.some.injEq] at h'
        subst h'
        simpa using (exclusionBatch_ids alts n ts r r' hr hr').1
      | succ j =>
        simp only [List.getElem?_cons_succ] at h'
        have h1 := exclusionRun_ge alts its _ j rs' r' h' hr'
        have h2 := (exclusionBatch_ids alts n ts r r hr hr).2.2
        constructor
        · intro h; omega
        · rintro ⟨h, _⟩; omega
    | succ i =>
      simp only [List.getElem?_cons_succ] at h
      cases j with
      | zero =>
        simp only [List.getElem?_cons_zero, Option.some.injEq] at h'
        subst h'
        have h1 := exclusionRun_ge alts its _ i rs r h hr
        have h2 := (exclusionBatch_ids alts n ts r' r' hr' hr').2.2
        constructor
        · intro h; omega
        · rintro ⟨h, _⟩; omega
      | succ j =>
        simp only [List.getElem?_cons_succ] at h'
        rw [exclusionRun_ids alts its _ i j rs rs' r r' h h' hr hr']
        simp

end

theorem databaseExclusive_spec [Zero K] [One K] : ∀ (n : Nat) (calls : List (List (K × Tup V))),
    databaseExclusive n calls = (calls.zipIdx n).map (fun c => c.1.map (fun f => (.exclusiveProb f.1 (some c.2), f.2)))
  | _, [] => rfl
  | n, fs :: rest => by
    rw [databaseExclusive, databaseExclusive_spec (n + 1) rest, List.zipIdx_cons, List.map_cons]

/-- The choice of each alternative of a program. -/
theorem programExclusive_groups [Zero K] [One K] (ds : List (List (DynTag K × Tup V)))
    (h : ∀ d ∈ ds, ∀ f ∈ d, f.1 = .none ∨ ∃ p, f.1 = .float p) :
    (programExclusive ds).map (fun f => f.1.says.2) = (owners ds).map some := by
  unfold programExclusive owners
  have : ∀ (n : Nat) (l : List (List (DynTag K × Tup V))), (∀ d ∈ l, ∀ f ∈ d, f.1 = .none ∨ ∃ p, f.1 = .float p) →
      (((l.zipIdx n).map (fun d => d.1.map (fun f => (f.1.withExclusivity d.2, f.2)))).flatten).map (fun f : DynTag K × Tup V => f.1.says.2) =
        (((l.zipIdx n).map (fun d => List.replicate d.1.length d.2)).flatten).map some := by
    intro n l
    induction l generalizing n with
    | nil => intro _; rfl
    | cons d l ih =>
      intro hl
      simp only [List.zipIdx_cons, List.map_cons, List.flatten_cons, List.map_append]
      rw [ih (n + 1) (fun d' hd' => hl d' (List.mem_cons_of_mem _ hd'))]
      congr 1
      rw [List.map_map, List.map_replicate]
      refine List.eq_replicate_iff.mpr ⟨by simp, fun b hb => ?_⟩
      obtain ⟨f, hf, rfl⟩ := List.mem_map.mp hb
      rcases hl d (by simp) f hf with h1 | ⟨p, h1⟩ <;> simp [h1, DynTag.withExclusivity, DynTag.says]
  exact this 0 ds h

theorem programExclusive_says [Zero K] [One K] (ds : List (List (DynTag K × Tup V))) (h : ∀ d ∈ ds, ∀ f ∈ d, f.1 = .none ∨ ∃ p, f.1 = .float p) :
    ∀ f ∈ programExclusive ds, (∃ e, f.1 = .exclusive e) ∨ ∃ p e, f.1 = .exclusiveFloat p e := by
  intro f hf
  simp only [programExclusive, List.mem_flatten, List.mem_map] at hf
  obtain ⟨l, ⟨d, hd, rfl⟩, hf⟩ := hf
  obtain ⟨g, hg, rfl⟩ := List.mem_map.mp hf
  have hm : d.1 ∈ ds := by
    have := List.mem_zipIdx' hd
    rw [this.2]; exact List.getElem_mem _
  rcases h d.1 hm g hg with h1 | ⟨p, h1⟩
  · exact Or.inl ⟨d.2, by simp [h1, DynTag.withExclusivity]⟩
  · exact Or.inr ⟨p, d.2, by simp [h1, DynTag.withExclusivity]⟩

end Scallop.Input
