import Verif.Spec.History
import Verif.Proof.Dnf
import Mathlib.Data.List.Induction

/-!
# Lemmas about tagging histories
-/

namespace Scallop

/-! ### Registered exclusions -/

/-- The registered groups are those of the exclusions given so far. -/
structure DisjInv (log : List (Option Nat)) (ds : Disjunctions) : Prop where
  hsome : ∀ (e i : Nat), ds.idMap.lookup e = some i → ∃ d, ds.disjunctions[i]? = some d ∧ Asc d ∧ ∀ a : Nat, a ∈ d ↔ log[a]? = some (some e)
  hnone : ∀ e : Nat, ds.idMap.lookup e = none → ∀ a : Nat, log[a]? ≠ some (some e)
  surj : ∀ (i : Nat) d, ds.disjunctions[i]? = some d → ∃ e, ds.idMap.lookup e = some i
  inj : ∀ (e e' i : Nat), ds.idMap.lookup e = some i → ds.idMap.lookup e' = some i → e = e'

theorem DisjInv.empty : DisjInv [] Disjunctions.new := by
  constructor <;> simp [Disjunctions.new]

theorem log_append (log : List (Option Nat)) (o : Option Nat) (a e : Nat) :
    (log ++ [o])[a]? = some (some e) ↔ log[a]? = some (some e) ∨ (a = log.length ∧ o = some e) := by
  rcases Nat.lt_trichotomy a log.length with h | h | h
  · rw [List.getElem?_append_left h]
    constructor
    · exact Or.inl
    · rintro (h1 | ⟨h1, _⟩)
      · exact h1
      · omega
  · subst h; rw [List.getElem?_append_right (le_refl _)]; simp
  · rw [List.getElem?_append_right (by omega), List.getElem?_eq_none (by simp; omega), List.getElem?_eq_none (by omega)]
    simp; omega

theorem DisjInv.tag_none {log : List (Option Nat)} {ds : Disjunctions} (h : DisjInv log ds) : DisjInv (log ++ [Option.none]) ds := by
  have hl : ∀ a e : Nat, (log ++ [Option.none])[a]? = Option.some (Option.some e) ↔ log[a]? = Option.some (Option.some e) := by
    intro a e; rw [log_append]; simp
  refine ⟨fun e i he => ?_, fun e he a => ?_, h.surj, h.inj⟩
  · obtain ⟨d, h1, h2, h3⟩ := h.hsome e i he
    exact ⟨d, h1, h2, fun a => by rw [h3 a, hl]⟩
  · rw [ne_eq, hl]; exact h.hnone e he a

theorem DisjInv.tag_some {log : List (Option Nat)} {ds : Disjunctions} (h : DisjInv log ds) (e : Nat) :
    ∃ ds', ds.addDisjunction e log.length = Option.some ds' ∧ DisjInv (log ++ [Option.some e]) ds' := by
  unfold Disjunctions.addDisjunction
  cases he : ds.idMap.lookup e with
  | some i =>
    obtain ⟨d, h1, h2, h3⟩ := h.hsome e i he
    have hi : i < ds.disjunctions.length := (List.getElem?_eq_some_iff.mp h1).1
    simp only [h1]
    refine ⟨_, rfl, ⟨?_, ?_, ?_, h.inj⟩⟩
    · intro e' i' he'
      by_cases hii : i' = i
      · subst hii
        have := h.inj e' e i' he' he
        subst this
        refine ⟨bsetInsert log.length d, by simp [hi], bsetInsert_asc _ _ h2, fun a => ?_⟩
        rw [mem_bsetInsert, log_append, h3 a]; simp; tauto
      · obtain ⟨d', h1', h2', h3'⟩ := h.hsome e' i' he'
        refine ⟨d', by rw [List.getElem?_set_ne (Ne.symm hii)]; exact h1', h2', fun a => ?_⟩
        rw [log_append, h3' a]
        constructor
        · exact Or.inl
        · rintro (h | ⟨_, h⟩)
          · exact h
          · simp only [Option.some.injEq] at h; subst h
            rw [he] at he'; exact absurd (Option.some.inj he').symm hii
    · intro e' he' a
      rw [ne_eq, log_append]
      rintro (h5 | ⟨_, h5⟩)
      · exact h.hnone e' he' a h5
      · simp only [Option.some.injEq] at h5; subst h5; simp only at he'; rw [he] at he'; cases he'
    · intro i' d' hd'
      simp only at hd' ⊢
      by_cases hii : i' = i
      · subst hii; exact ⟨e, he⟩
      · rw [List.getElem?_set_ne (Ne.symm hii)] at hd'; exact h.surj i' d' hd'
  | none =>
    simp only
    have hlk : ∀ e', List.lookup e' ((e, ds.disjunctions.length) :: ds.idMap) =
        if e' = e then Option.some ds.disjunctions.length else ds.idMap.lookup e' := by
      intro e'
      rw [List.lookup_cons]
      by_cases hee : e' = e
      · subst hee; simp
      · rw [if_neg hee]; rw [beq_false_of_ne hee]
    have hbound : ∀ e' i, ds.idMap.lookup e' = Option.some i → i < ds.disjunctions.length := by
      intro e' i h5
      obtain ⟨d, h6, _⟩ := h.hsome e' i h5
      exact (List.getElem?_eq_some_iff.mp h6).1
    refine ⟨_, rfl, ⟨?_, ?_, ?_, ?_⟩⟩
    · intro e' i' he'
      simp only [hlk] at he'
      simp only
      split at he'
      · rename_i hee; subst hee
        obtain rfl := Option.some.inj he'
        refine ⟨[log.length], by simp, by simp [Asc], fun a => ?_⟩
        rw [log_append]
        simp only [List.mem_singleton, and_true]
        constructor
        · exact Or.inr
        · rintro (h5 | h5)
          · exact absurd h5 (h.hnone e' he a)
          · exact h5
      · rename_i hee
        obtain ⟨d, h1, h2, h3⟩ := h.hsome e' i' he'
        refine ⟨d, by rw [List.getElem?_append_left (hbound e' i' he')]; exact h1, h2, fun a => ?_⟩
        rw [log_append, h3 a]
        constructor
        · exact Or.inl
        · rintro (h5 | ⟨_, h5⟩)
          · exact h5
          · exact absurd (Option.some.inj h5).symm hee
    · intro e' he' a
      simp only [hlk] at he'
      split at he'
      · cases he'
      · rename_i hee
        rw [ne_eq, log_append]
        rintro (h5 | ⟨_, h5⟩)
        · exact h.hnone e' he' a h5
        · exact hee (Option.some.inj h5).symm
    · intro i d hd
      simp only at hd ⊢
      rcases Nat.lt_trichotomy i ds.disjunctions.length with hi | hi | hi
      · rw [List.getElem?_append_left hi] at hd
        obtain ⟨e', he'⟩ := h.surj i d hd
        refine ⟨e', ?_⟩
        rw [hlk, if_neg (fun hee => by subst hee; rw [he] at he'; cases he')]; exact he'
      · exact ⟨e, by rw [hlk, if_pos rfl, hi]⟩
      · rw [List.getElem?_eq_none (by simp; omega)] at hd; cases hd
    · intro e1 e2 i h1 h2
      simp only [hlk] at h1 h2
      split at h1 <;> split at h2
      · rename_i a b; rw [a, b]
      · have := hbound _ _ h2; obtain rfl := Option.some.inj h1; omega
      · have := hbound _ _ h1; obtain rfl := Option.some.inj h2; omega
      · exact h.inj e1 e2 i h1 h2

theorem DisjInv.asc {log : List (Option Nat)} {ds : Disjunctions} (h : DisjInv log ds) : ∀ d ∈ ds.disjunctions, Asc d := by
  intro d hd
  obtain ⟨i, hi⟩ := List.mem_iff_getElem?.mp hd
  obtain ⟨e, he⟩ := h.surj i d hi
  obtain ⟨d', h1, h2, _⟩ := h.hsome e i he
  rw [hi] at h1; obtain rfl := Option.some.inj h1; exact h2

/-- The groups, as a statement about the exclusions given. -/
theorem DisjInv.group {log : List (Option Nat)} {ds : Disjunctions} (h : DisjInv log ds) (a b : Nat) :
    (∃ d ∈ ds.disjunctions, a ∈ d ∧ b ∈ d) ↔ ∃ e, log[a]? = Option.some (Option.some e) ∧ log[b]? = Option.some (Option.some e) := by
  constructor
  · rintro ⟨d, hd, ha, hb⟩
    obtain ⟨i, hi⟩ := List.mem_iff_getElem?.mp hd
    obtain ⟨e, he⟩ := h.surj i d hi
    obtain ⟨d', h1, _, h3⟩ := h.hsome e i he
    rw [hi] at h1; obtain rfl := Option.some.inj h1
    exact ⟨e, (h3 a).mp ha, (h3 b).mp hb⟩
  · rintro ⟨e, ha, hb⟩
    cases he : ds.idMap.lookup e with
    | none => exact absurd ha (h.hnone e he a)
    | some i =>
      obtain ⟨d, h1, _, h3⟩ := h.hsome e i he
      exact ⟨d, List.mem_iff_getElem?.mpr ⟨i, h1⟩, (h3 a).mpr ha, (h3 b).mpr hb⟩

/-- No two different facts of one exclusion. -/
def NoPair (log : List (Option Nat)) (fs : List Nat) : Prop :=
  ∀ a ∈ fs, ∀ b ∈ fs, ∀ e, log[a]? = some (some e) → log[b]? = some (some e) → a = b

theorem DisjInv.conflict {log : List (Option Nat)} {ds : Disjunctions} (h : DisjInv log ds) (fs : List Nat) (hf : Asc fs) :
    ds.hasConflict fs = false ↔ NoPair log fs := by
  rw [Bool.eq_false_iff, ne_eq, (hasConflict_spec ds h.asc fs hf).2]
  constructor
  · intro hn a ha b hb e hea heb
    by_contra hab
    obtain ⟨d, hd, had, hbd⟩ := (h.group a b).mpr ⟨e, hea, heb⟩
    exact hn ⟨d, hd, a, had, ha, b, hbd, hb, hab⟩
  · rintro hn ⟨d, hd, a, had, ha, b, hbd, hb, hab⟩
    obtain ⟨e, hea, heb⟩ := (h.group a b).mp ⟨d, hd, had, hbd⟩
    exact hab (hn a ha b hb e hea heb)

theorem NoPair.append {log : List (Option Nat)} {fs : List Nat} (h : NoPair log fs) (hlt : ∀ a ∈ fs, a < log.length) (o : Option Nat) :
    NoPair (log ++ [o]) fs := by
  intro a ha b hb e hea heb
  rw [log_append] at hea heb
  have h1 := hlt a ha
  have h2 := hlt b hb
  exact h a ha b hb e (hea.resolve_right (fun h => by omega)) (heb.resolve_right (fun h => by omega))

theorem NoPair.of_world {log : List (Option Nat)} {fs : List Nat} {w : Nat → Bool}
    (hw : ∀ a b e, log[a]? = some (some e) → log[b]? = some (some e) → w a = true → w b = true → a = b) (h : ∀ f ∈ fs, w f = true) :
    NoPair log fs := fun a ha b hb e hea heb => hw a b e hea heb (h a ha) (h b hb)

/-! ### Proof sets -/

theorem mem_proofMerge (p1 p2 : Proof) (f : Nat) : f ∈ Proof.merge p1 p2 ↔ f ∈ p1 ∨ f ∈ p2 := by
  unfold Proof.merge; rw [mem_bsetCollect, List.mem_append]

theorem mem_union (t1 t2 : Proofs) (p : Proof) : p ∈ Proofs.union t1 t2 ↔ p ∈ t1 ∨ p ∈ t2 := by
  unfold Proofs.union; rw [mem_bsetCollect, List.mem_append]

theorem mem_mult (ds : Disjunctions) (t1 t2 : Proofs) (p : Proof) :
    p ∈ (proofsProv ds).mult t1 t2 ↔ (∃ p1 ∈ t1, ∃ p2 ∈ t2, p = Proof.merge p1 p2) ∧ ds.hasConflict p = false := by
  simp only [proofsProv, List.mem_filter, Bool.not_eq_true']
  unfold Proofs.cartesianProduct
  rw [mem_bsetCollect]
  simp only [List.mem_flatMap, List.mem_map]
  constructor
  · rintro ⟨⟨p1, h1, p2, h2, rfl⟩, h⟩; exact ⟨⟨p1, h1, p2, h2, rfl⟩, h⟩
  · rintro ⟨⟨p1, h1, p2, h2, rfl⟩, h⟩; exact ⟨⟨p1, h1, p2, h2, rfl⟩, h⟩

theorem mult_asc (ds : Disjunctions) (t1 t2 : Proofs) : Asc ((proofsProv ds).mult t1 t2) :=
  (bsetCollect_asc _).filter _

theorem proofMerge_asc (p1 p2 : Proof) : Asc (Proof.merge p1 p2) := bsetCollect_asc _

theorem hasConflict_mono (ds : Disjunctions) (hds : ∀ d ∈ ds.disjunctions, Asc d) {fs gs : List Nat} (hf : Asc fs) (hg : Asc gs)
    (hsub : ∀ x ∈ fs, x ∈ gs) (h : ds.hasConflict gs = false) : ds.hasConflict fs = false := by
  rw [Bool.eq_false_iff] at h ⊢
  intro hc; apply h
  obtain ⟨d, hd, a, ha, ha', b, hb, hb', hab⟩ := (hasConflict_spec ds hds fs hf).2.mp hc
  exact (hasConflict_spec ds hds gs hg).2.mpr ⟨d, hd, a, ha, hsub a ha', b, hb, hsub b hb', hab⟩

theorem union_holds (w : Nat → Bool) (t1 t2 : Proofs) : (Proofs.union t1 t2).holds w ↔ t1.holds w ∨ t2.holds w := by
  unfold Proofs.holds
  constructor
  · rintro ⟨p, hp, h⟩
    rcases (mem_union t1 t2 p).mp hp with h1 | h1
    · exact Or.inl ⟨p, h1, h⟩
    · exact Or.inr ⟨p, h1, h⟩
  · rintro (⟨p, hp, h⟩ | ⟨p, hp, h⟩)
    · exact ⟨p, (mem_union t1 t2 p).mpr (Or.inl hp), h⟩
    · exact ⟨p, (mem_union t1 t2 p).mpr (Or.inr hp), h⟩

theorem mult_holds (ds : Disjunctions) (hds : ∀ d ∈ ds.disjunctions, Asc d) (w : Nat → Bool) (hw : consistent w ds.disjunctions)
    (t1 t2 : Proofs) : Proofs.holds w ((proofsProv ds).mult t1 t2) ↔ t1.holds w ∧ t2.holds w := by
  constructor
  · rintro ⟨p, hp, h⟩
    obtain ⟨⟨p1, h1, p2, h2, rfl⟩, _⟩ := (mem_mult ds t1 t2 p).mp hp
    exact ⟨⟨p1, h1, fun f hf => h f ((mem_proofMerge _ _ _).mpr (Or.inl hf))⟩, ⟨p2, h2, fun f hf => h f ((mem_proofMerge _ _ _).mpr (Or.inr hf))⟩⟩
  · rintro ⟨⟨p1, h1, hh1⟩, ⟨p2, h2, hh2⟩⟩
    have hall : ∀ f ∈ Proof.merge p1 p2, w f = true := by
      intro f hf
      rcases (mem_proofMerge _ _ _).mp hf with hf | hf
      · exact hh1 f hf
      · exact hh2 f hf
    refine ⟨Proof.merge p1 p2, (mem_mult ds t1 t2 _).mpr ⟨⟨p1, h1, p2, h2, rfl⟩, ?_⟩, hall⟩
    rw [Bool.eq_false_iff]
    intro hc
    obtain ⟨d, hd, a, ha, ha', b, hb, hb', hab⟩ := (hasConflict_spec ds hds _ (proofMerge_asc p1 p2)).2.mp hc
    exact hab (hw d hd a ha b hb (hall a ha') (hall b hb'))

theorem hasConflict_nil (ds : Disjunctions) : ds.hasConflict [] = false := by
  simp [Disjunctions.hasConflict, Disjunctions.hasConflict?]

theorem merge_of_asc {p q : Proof} (hp : Asc p) (h : ∀ f, f ∈ q → f ∈ p) : Proof.merge p q = p :=
  Asc.ext (proofMerge_asc _ _) hp (fun f => by rw [mem_proofMerge]; exact ⟨fun h' => h'.elim id (h f), Or.inl⟩)

/-! ### Histories with proof sets -/

theorem exclusions_append (ops : List TagOp) (op : TagOp) :
    exclusions (ops ++ [op]) = exclusions ops ++ (match op with | .tag e => [e] | _ => []) := by
  unfold exclusions
  rw [List.filterMap_append]
  cases op <;> simp

/-- Invariant of a history with proof sets. -/
structure ProofsInv (ops : List TagOp) (s : ProofsState) : Prop where
  next : s.nextId = (exclusions ops).length
  disj : DisjInv (exclusions ops) s.disj
  pair : ∀ t ∈ s.tags, ∀ p ∈ t, Asc p ∧ (∀ a ∈ p, a < s.nextId) ∧ NoPair (exclusions ops) p

theorem consistent_of_log {log : List (Option Nat)} {ds : Disjunctions} (h : DisjInv log ds) (w : Nat → Bool)
    (hw : ∀ a b e, log[a]? = some (some e) → log[b]? = some (some e) → w a = true → w b = true → a = b) : consistent w ds.disjunctions := by
  intro g hg a ha b hb hwa hwb
  obtain ⟨e, h1, h2⟩ := (h.group a b).mp ⟨g, hg, ha, hb⟩
  exact hw a b e h1 h2 hwa hwb

theorem tagging_inv {ops : List TagOp} {s : ProofsState} (h : ProofsInv ops s) (e : Option Nat) :
    ∃ s', s.tagging e = some s' ∧ ProofsInv (ops ++ [.tag e]) s' ∧ s'.tags = s.tags ++ [[[s.nextId]]] ∧ s'.nextId = s.nextId + 1 := by
  have hpair : ∀ t ∈ s.tags ++ [[[s.nextId]]], ∀ p ∈ t, Asc p ∧ (∀ a ∈ p, a < s.nextId + 1) ∧ NoPair (exclusions (ops ++ [.tag e])) p := by
    intro t ht p hp
    rcases List.mem_append.mp ht with ht | ht
    · obtain ⟨h1, h2, h3⟩ := h.pair t ht p hp
      refine ⟨h1, fun a ha => Nat.lt_succ_of_lt (h2 a ha), ?_⟩
      rw [exclusions_append]
      exact h3.append (fun a ha => by rw [← h.next]; exact h2 a ha) e
    · simp only [List.mem_cons, List.not_mem_nil, or_false] at ht
      subst ht
      simp only [List.mem_cons, List.not_mem_nil, or_false] at hp
      subst hp
      refine ⟨by simp [Asc], by simp, ?_⟩
      intro a ha b hb _ _ _
      simp only [List.mem_cons, List.not_mem_nil, or_false] at ha hb
      rw [ha, hb]
  have hnext : s.nextId + 1 = (exclusions (ops ++ [.tag e])).length := by rw [exclusions_append]; simp [h.next]
  cases e with
  | none =>
    refine ⟨_, rfl, ⟨hnext, ?_, hpair⟩, rfl, rfl⟩
    rw [exclusions_append]; exact h.disj.tag_none
  | some e =>
    obtain ⟨ds', h1, h2⟩ := h.disj.tag_some e
    refine ⟨⟨s.nextId + 1, ds', s.tags ++ [[[s.nextId]]]⟩, ?_, ⟨hnext, ?_, hpair⟩, rfl, rfl⟩
    · simp only [ProofsState.tagging]; rw [h.next, h1]; rfl
    · rw [exclusions_append]; exact h2

theorem push_inv {ops : List TagOp} {s : ProofsState} (h : ProofsInv ops s) (op : TagOp) (hop : exclusions (ops ++ [op]) = exclusions ops)
    (t : Proofs) (ht : ∀ p ∈ t, Asc p ∧ (∀ a ∈ p, a < s.nextId) ∧ NoPair (exclusions ops) p) :
    ProofsInv (ops ++ [op]) { s with tags := s.tags ++ [t] } := by
  refine ⟨by rw [hop]; exact h.next, by rw [hop]; exact h.disj, ?_⟩
  intro t' ht' p hp
  rw [hop]
  rcases List.mem_append.mp ht' with ht' | ht'
  · exact h.pair t' ht' p hp
  · simp only [List.mem_cons, List.not_mem_nil, or_false] at ht'
    subst ht'; exact ht p hp

/-- Agreement of a proof set with a truth value, in worlds consistent with the exclusions given so far. -/
def Agree (w : Nat → Bool) (tags : List Proofs) (vals : List Bool) : Prop :=
  List.Forall₂ (fun t v => Proofs.holds w t ↔ v = true) tags vals

theorem Agree.push {w : Nat → Bool} {tags : List Proofs} {vals : List Bool} (h : Agree w tags vals) {t : Proofs} {v : Bool}
    (ht : Proofs.holds w t ↔ v = true) : Agree w (tags ++ [t]) (vals ++ [v]) :=
  List.rel_append h (.cons ht .nil)

theorem Agree.get {w : Nat → Bool} {tags : List Proofs} {vals : List Bool} (h : Agree w tags vals) {i : Nat} {t : Proofs}
    (ht : tags[i]? = some t) : ∃ v, vals[i]? = some v ∧ (Proofs.holds w t ↔ v = true) := by
  obtain ⟨hi, hti⟩ := List.getElem?_eq_some_iff.mp ht
  have hlen := h.length_eq
  refine ⟨vals[i]'(hlen ▸ hi), List.getElem?_eq_getElem _, ?_⟩
  subst hti
  exact List.Forall₂.get h hi (hlen ▸ hi)

/-- One step keeps the invariant and the agreement with the truth values. -/
theorem step_inv {ops : List TagOp} {s s' : ProofsState} (h : ProofsInv ops s) (op : TagOp) (hs : s.step op = some s') :
    ProofsInv (ops ++ [op]) s' ∧ ∀ w vals, worldOk (ops ++ [op]) w → Agree w s.tags vals →
      ∃ vals', evalStep w (s.nextId, vals) op = some (s'.nextId, vals') ∧ Agree w s'.tags vals' := by
  cases op with
  | tag e =>
    obtain ⟨s1, h1, h2, h3, h4⟩ := tagging_inv h e
    simp only [ProofsState.step] at hs
    rw [h1] at hs
    obtain rfl := Option.some.inj hs
    refine ⟨h2, fun w vals _ ha => ⟨vals ++ [w s.nextId], by simp [evalStep, h4], ?_⟩⟩
    rw [h3]
    exact ha.push (by simp [Proofs.holds])
  | zero =>
    obtain rfl := Option.some.inj hs
    exact ⟨push_inv h _ (by rw [exclusions_append]; simp) _ (by simp [proofsProv]), fun w vals _ ha =>
      ⟨vals ++ [false], rfl, ha.push (by simp [proofsProv, Proofs.holds])⟩⟩
  | one =>
    obtain rfl := Option.some.inj hs
    exact ⟨push_inv h _ (by rw [exclusions_append]; simp) _ (by simp [proofsProv, Asc, NoPair]), fun w vals _ ha =>
      ⟨vals ++ [true], rfl, ha.push (by simp [proofsProv, Proofs.holds])⟩⟩
  | add i j =>
    simp only [ProofsState.step] at hs
    split at hs
    · rename_i a b hi hj
      obtain rfl := Option.some.inj hs
      refine ⟨push_inv h _ (by rw [exclusions_append]; simp) _ ?_, fun w vals _ ha => ?_⟩
      · intro p hp
        rcases (mem_union a b p).mp hp with hp | hp
        · exact h.pair a (List.mem_of_getElem? hi) p hp
        · exact h.pair b (List.mem_of_getElem? hj) p hp
      · obtain ⟨v1, hv1, e1⟩ := ha.get hi
        obtain ⟨v2, hv2, e2⟩ := ha.get hj
        refine ⟨vals ++ [v1 || v2], by simp [evalStep, hv1, hv2], ha.push ?_⟩
        rw [Bool.or_eq_true, ← e1, ← e2]; exact union_holds w a b
    · cases hs
  | mult i j =>
    simp only [ProofsState.step] at hs
    split at hs
    · rename_i a b hi hj
      obtain rfl := Option.some.inj hs
      refine ⟨push_inv h _ (by rw [exclusions_append]; simp) _ ?_, fun w vals hw ha => ?_⟩
      · intro p hp
        obtain ⟨⟨p1, hp1, p2, hp2, rfl⟩, hc⟩ := (mem_mult s.disj a b p).mp hp
        refine ⟨proofMerge_asc _ _, fun f hf => ?_, (h.disj.conflict _ (proofMerge_asc _ _)).mp hc⟩
        rcases (mem_proofMerge _ _ _).mp hf with hf | hf
        · exact (h.pair a (List.mem_of_getElem? hi) p1 hp1).2.1 f hf
        · exact (h.pair b (List.mem_of_getElem? hj) p2 hp2).2.1 f hf
      · obtain ⟨v1, hv1, e1⟩ := ha.get hi
        obtain ⟨v2, hv2, e2⟩ := ha.get hj
        refine ⟨vals ++ [v1 && v2], by simp [evalStep, hv1, hv2], ha.push ?_⟩
        rw [Bool.and_eq_true, ← e1, ← e2]
        refine mult_holds s.disj h.disj.asc w (consistent_of_log h.disj w ?_) a b
        intro x y e hx hy
        refine hw x y ⟨e, ?_⟩
        rw [exclusions_append]; simp only [List.append_nil]; exact ⟨hx, hy⟩
    · cases hs
  | negate i => cases hs

theorem worldOk_prefix {ops : List TagOp} {op : TagOp} {w : Nat → Bool} (h : worldOk (ops ++ [op]) w) : worldOk ops w := by
  rintro a b ⟨e, h1, h2⟩
  refine h a b ⟨e, ?_⟩
  rw [exclusions_append]
  cases op with
  | tag o => exact ⟨(log_append _ o a e).mpr (Or.inl h1), (log_append _ o b e).mpr (Or.inl h2)⟩
  | _ => simp only [List.append_nil]; exact ⟨h1, h2⟩

theorem foldlM_append_singleton {σ β : Type*} (f : σ → β → Option σ) (l : List β) (x : β) (s : σ) :
    (l ++ [x]).foldlM f s = (l.foldlM f s).bind (fun s' => f s' x) := by
  simp [List.foldlM_append]

theorem run_inv : ∀ (ops : List TagOp) (s : ProofsState), ProofsState.run ops = some s → ProofsInv ops s ∧
    ∀ w, worldOk ops w → ∃ vals, evalWorld w ops = some (s.nextId, vals) ∧ Agree w s.tags vals := by
  intro ops
  induction ops using List.reverseRecOn with
  | nil =>
    intro s h
    obtain rfl := Option.some.inj h
    exact ⟨⟨rfl, DisjInv.empty, by simp⟩, fun w _ => ⟨[], rfl, .nil⟩⟩
  | append_singleton ops op ih =>
    intro s h
    unfold ProofsState.run at h
    rw [foldlM_append_singleton, Option.bind_eq_some_iff] at h
    obtain ⟨s1, h1, h2⟩ := h
    obtain ⟨hinv, hag⟩ := ih s1 h1
    obtain ⟨hinv', hstep⟩ := step_inv hinv op h2
    refine ⟨hinv', fun w hw => ?_⟩
    obtain ⟨vals, hv, ha⟩ := hag w (worldOk_prefix hw)
    obtain ⟨vals', hv', ha'⟩ := hstep w vals hw ha
    refine ⟨vals', ?_, ha'⟩
    unfold evalWorld
    rw [foldlM_append_singleton, Option.bind_eq_some_iff]
    exact ⟨_, hv, hv'⟩

/-! ### Top-k tags -/

open DnfCtx (HeapElem)

variable {K : Type*} [Field K] [LinearOrder K]

theorem topKAdd_spec (x : DnfCtx K) (k : Nat) (t1 t2 : Dnf) :
    (x.topKAdd k t1 t2).length ≤ k ∧ (x.topKAdd k t1 t2).Nodup ∧ (∀ c ∈ x.topKAdd k t1 t2, c ∈ t1 ∨ c ∈ t2) ∧
    (t1.length + t2.length ≤ k → ∀ c, c ∈ t1 ∨ c ∈ t2 → c ∈ x.topKAdd k t1 t2) ∧
    (∀ c, c ∈ t1 ∨ c ∈ t2 → c ∉ x.topKAdd k t1 t2 → (x.topKAdd k t1 t2).length = k ∧
      ∀ d ∈ x.topKAdd k t1 t2, x.clauseProb c ≤ x.clauseProb d) := by
  have hm : ∀ c, c ∈ (t1.or t2).dedup ↔ c ∈ t1 ∨ c ∈ t2 := by
    intro c; rw [mem_dedup]; unfold Dnf.or; rw [List.mem_append]
  have hl : (t1.or t2).dedup.length ≤ t1.length + t2.length := by
    have := dedup_length (t1.or t2); unfold Dnf.or at *; simpa using this
  obtain ⟨h1, h2, h3, h4, h5⟩ := retainTopK_spec x (t1.or t2).dedup k (dedup_nodup _)
  exact ⟨h1, h2, fun c hc => (hm c).mp (h3 c hc), fun hk c hc => h4 (hl.trans hk) c ((hm c).mpr hc), fun c hc => h5 c ((hm c).mpr hc)⟩

theorem topKMult_spec (x : DnfCtx K) (k : Nat) (t1 t2 : Dnf) :
    (x.topKMult k t1 t2).length ≤ k ∧ (x.topKMult k t1 t2).Nodup ∧
    (∀ c ∈ x.topKMult k t1 t2, (∃ c1 ∈ t1, ∃ c2 ∈ t2, c1.merge c2 = some c) ∧ x.disj.hasConflict c.posFactIds = false) ∧
    (t1.length * t2.length ≤ k → ∀ c1 ∈ t1, ∀ c2 ∈ t2, ∀ c, c1.merge c2 = some c → x.disj.hasConflict c.posFactIds = false →
      c ∈ x.topKMult k t1 t2) ∧
    (∀ c1 ∈ t1, ∀ c2 ∈ t2, ∀ c, c1.merge c2 = some c → x.disj.hasConflict c.posFactIds = false → c ∉ x.topKMult k t1 t2 →
      (x.topKMult k t1 t2).length = k ∧ ∀ d ∈ x.topKMult k t1 t2, x.clauseProb c ≤ x.clauseProb d) := by
  have hm : ∀ c, c ∈ x.retainNoConflict (t1.and t2).dedup ↔
      (∃ c1 ∈ t1, ∃ c2 ∈ t2, c1.merge c2 = some c) ∧ x.disj.hasConflict c.posFactIds = false := by
    intro c; rw [mem_retainNoConflict, mem_dedup, mem_and]
  have hl : (x.retainNoConflict (t1.and t2).dedup).length ≤ t1.length * t2.length := by
    refine le_trans ?_ ((dedup_length (t1.and t2)).trans (and_length t1 t2))
    exact List.length_filter_le _ _
  obtain ⟨h1, h2, h3, h4, h5⟩ := retainTopK_spec x (x.retainNoConflict (t1.and t2).dedup) k ((dedup_nodup _).filter _)
  exact ⟨h1, h2, fun c hc => (hm c).mp (h3 c hc), fun hk c1 hc1 c2 hc2 c hc hcf => h4 (hl.trans hk) c ((hm c).mpr ⟨⟨c1, hc1, c2, hc2, hc⟩, hcf⟩),
    fun c1 hc1 c2 hc2 c hc hcf => h5 c ((hm c).mpr ⟨⟨c1, hc1, c2, hc2, hc⟩, hcf⟩)⟩

/-- What the clauses of a tag are like after a history. -/
def ClauseOk (ops : List TagOp) (n : Nat) (c : Clause) : Prop :=
  c.Sorted ∧ (∀ l ∈ c, l.factId < n) ∧ NoPair (exclusions ops) c.posFactIds

structure TopKInv (k : Nat) (prob : Nat → K) (ops : List TagOp) (s : TopKState K) : Prop where
  next : s.numFacts = (exclusions ops).length
  disj : DisjInv (exclusions ops) s.ctx.disj
  prob : s.ctx.prob = prob
  ok : ∀ t ∈ s.tags, ∀ c ∈ t, ClauseOk ops s.numFacts c
  len : 0 < k → ∀ t ∈ s.tags, t.length ≤ k

theorem TopKInv.push {k : Nat} {prob : Nat → K} {ops : List TagOp} {s : TopKState K} (h : TopKInv k prob ops s) (op : TagOp)
    (hop : exclusions (ops ++ [op]) = exclusions ops) (t : Dnf) (ht : ∀ c ∈ t, ClauseOk ops s.numFacts c) (hl : 0 < k → t.length ≤ k) :
    TopKInv k prob (ops ++ [op]) { s with tags := s.tags ++ [t] } := by
  refine ⟨by rw [hop]; exact h.next, by rw [hop]; exact h.disj, h.prob, ?_, ?_⟩
  · intro t' ht' c hc
    have : ClauseOk ops s.numFacts c := by
      rcases List.mem_append.mp ht' with ht' | ht'
      · exact h.ok t' ht' c hc
      · simp only [List.mem_cons, List.not_mem_nil, or_false] at ht'
        subst ht'; exact ht c hc
    unfold ClauseOk at this ⊢; rw [hop]; exact this
  · intro hk t' ht'
    rcases List.mem_append.mp ht' with ht' | ht'
    · exact h.len hk t' ht'
    · simp only [List.mem_cons, List.not_mem_nil, or_false] at ht'
      subst ht'; exact hl hk

theorem posFactIds_lt {c : Clause} {n : Nat} (h : ∀ l ∈ c, l.factId < n) : ∀ a ∈ c.posFactIds, a < n := by
  intro a ha; exact h _ ((mem_posFactIds c a).mp ha)

theorem topKTagging_inv {k : Nat} {prob : Nat → K} {ops : List TagOp} {s : TopKState K} (h : TopKInv k prob ops s) (e : Option Nat) :
    ∃ s', s.tagging e = some s' ∧ TopKInv k prob (ops ++ [.tag e]) s' ∧ s'.tags = s.tags ++ [[[.pos s.numFacts]]] ∧ s'.numFacts = s.numFacts + 1 := by
  have hok : ∀ t ∈ s.tags ++ [[[Literal.pos s.numFacts]]], ∀ c ∈ t, ClauseOk (ops ++ [.tag e]) (s.numFacts + 1) c := by
    intro t ht c hc
    rcases List.mem_append.mp ht with ht | ht
    · obtain ⟨h1, h2, h3⟩ := h.ok t ht c hc
      refine ⟨h1, fun l hl => Nat.lt_succ_of_lt (h2 l hl), ?_⟩
      rw [exclusions_append]
      exact h3.append (fun a ha => by rw [← h.next]; exact posFactIds_lt h2 a ha) e
    · simp only [List.mem_cons, List.not_mem_nil, or_false] at ht
      subst ht
      simp only [List.mem_cons, List.not_mem_nil, or_false] at hc
      subst hc
      refine ⟨by simp [Clause.Sorted], by simp [Literal.factId], ?_⟩
      intro a ha b hb _ _ _
      rw [mem_posFactIds] at ha hb
      simp only [List.mem_cons, List.not_mem_nil, or_false, Literal.pos.injEq] at ha hb
      rw [ha, hb]
  have hnext : s.numFacts + 1 = (exclusions (ops ++ [.tag e])).length := by rw [exclusions_append]; simp [h.next]
  have hlen : 0 < k → ∀ t ∈ s.tags ++ [[[Literal.pos s.numFacts]]], t.length ≤ k := by
    intro hk t ht
    rcases List.mem_append.mp ht with ht | ht
    · exact h.len hk t ht
    · simp only [List.mem_cons, List.not_mem_nil, or_false] at ht
      subst ht; exact hk
  cases e with
  | none =>
    refine ⟨_, rfl, ⟨hnext, ?_, h.prob, hok, hlen⟩, rfl, rfl⟩
    rw [exclusions_append]; exact h.disj.tag_none
  | some e =>
    obtain ⟨ds', h1, h2⟩ := h.disj.tag_some e
    refine ⟨⟨s.numFacts + 1, { s.ctx with disj := ds' }, s.tags ++ [[[.pos s.numFacts]]]⟩, ?_, ⟨hnext, ?_, h.prob, hok, hlen⟩, rfl, rfl⟩
    · simp only [TopKState.tagging]; rw [h.next, h1]; rfl
    · rw [exclusions_append]; exact h2

theorem topKMult_ok {k : Nat} {prob : Nat → K} {ops : List TagOp} {s : TopKState K} (h : TopKInv k prob ops s) {a b : Dnf}
    (ha : a ∈ s.tags) (hb : b ∈ s.tags) : ∀ c ∈ s.ctx.topKMult k a b, ClauseOk ops s.numFacts c := by
  intro c hc
  obtain ⟨⟨c1, h1, c2, h2, hm⟩, hcf⟩ := (topKMult_spec s.ctx k a b).2.2.1 c hc
  obtain ⟨o1, o2, _⟩ := h.ok a ha c1 h1
  obtain ⟨q1, q2, _⟩ := h.ok b hb c2 h2
  obtain ⟨hs, hmem⟩ := (Clause.merge_spec c1 c2 o1 q1).1 c hm
  refine ⟨hs, fun l hl => ?_, (h.disj.conflict _ (posFactIds_asc c)).mp hcf⟩
  rcases (hmem l).mp hl with hl | hl
  · exact o2 l hl
  · exact q2 l hl

theorem topKStep_inv {pop : List (HeapElem K) → Option (HeapElem K × List (HeapElem K))} (hpop : IsPop pop) {k : Nat} {prob : Nat → K}
    {ops : List TagOp} {s s' : TopKState K} (h : TopKInv k prob ops s) (op : TagOp) (hs : s.step pop k op = some s') :
    TopKInv k prob (ops ++ [op]) s' := by
  cases op with
  | tag e =>
    obtain ⟨s1, h1, h2, _⟩ := topKTagging_inv h e
    simp only [TopKState.step] at hs
    rw [h1] at hs
    obtain rfl := Option.some.inj hs
    exact h2
  | zero =>
    obtain rfl := Option.some.inj hs
    exact h.push _ (by rw [exclusions_append]; simp) _ (by simp) (by simp)
  | one =>
    obtain rfl := Option.some.inj hs
    refine h.push _ (by rw [exclusions_append]; simp) _ ?_ (fun hk => hk)
    intro c hc
    simp only [List.mem_cons, List.not_mem_nil, or_false] at hc
    subst hc
    refine ⟨List.Pairwise.nil, by simp, ?_⟩
    intro a ha; rw [mem_posFactIds] at ha; simp at ha
  | add i j =>
    simp only [TopKState.step] at hs
    split at hs
    · rename_i a b hi hj
      obtain rfl := Option.some.inj hs
      refine h.push _ (by rw [exclusions_append]; simp) _ ?_ (fun _ => (topKAdd_spec s.ctx k a b).1)
      intro c hc
      rcases (topKAdd_spec s.ctx k a b).2.2.1 c hc with hc | hc
      · exact h.ok a (List.mem_of_getElem? hi) c hc
      · exact h.ok b (List.mem_of_getElem? hj) c hc
    · cases hs
  | mult i j =>
    simp only [TopKState.step] at hs
    split at hs
    · rename_i a b hi hj
      obtain rfl := Option.some.inj hs
      exact h.push _ (by rw [exclusions_append]; simp) _ (topKMult_ok h (List.mem_of_getElem? hi) (List.mem_of_getElem? hj))
        (fun _ => (topKMult_spec s.ctx k a b).1)
    · cases hs
  | negate i =>
    simp only [TopKState.step] at hs
    split at hs
    · rename_i a hi
      obtain ⟨n, hn, rfl⟩ := Option.map_eq_some_iff.mp hs
      obtain ⟨r, hr, hlen, hc, _⟩ := cnf2dnfK_spec s.ctx h.disj.asc pop hpop (a.map (fun c => c.map Literal.negate)) k
      unfold DnfCtx.topKNegate at hn
      rw [hr] at hn
      obtain rfl := Option.some.inj hn
      refine h.push _ (by rw [exclusions_append]; simp) _ ?_ (fun hk => ?_)
      · intro c hcr
        obtain ⟨h1, h2, h3, _⟩ := hc c hcr
        refine ⟨h1, fun l hl => ?_, (h.disj.conflict _ (posFactIds_asc c)).mp h2⟩
        obtain ⟨d, hd, hld⟩ := h3 l hl
        obtain ⟨d', hd', rfl⟩ := List.mem_map.mp hd
        obtain ⟨l', hl', rfl⟩ := List.mem_map.mp hld
        have := (h.ok a (List.mem_of_getElem? hi) d' hd').2.1 l' hl'
        cases l' <;> exact this
      · by_cases ha : a.map (fun c => c.map Literal.negate) = []
        · rw [ha] at hr
          simp only [DnfCtx.cnf2dnfK, List.map_nil, List.isEmpty_nil, if_true, Option.some.injEq] at hr
          rw [← hr]; exact hk
        · exact hlen ha
    · cases hs

theorem topKRun_inv {pop : List (HeapElem K) → Option (HeapElem K × List (HeapElem K))} (hpop : IsPop pop) (k : Nat) (prob : Nat → K) :
    ∀ (ops : List TagOp) (s : TopKState K), TopKState.run pop k prob ops = some s → TopKInv k prob ops s := by
  intro ops
  induction ops using List.reverseRecOn with
  | nil =>
    intro s h
    obtain rfl := Option.some.inj h
    exact ⟨rfl, DisjInv.empty, rfl, by simp, by simp⟩
  | append_singleton ops op ih =>
    intro s h
    unfold TopKState.run at h
    rw [foldlM_append_singleton, Option.bind_eq_some_iff] at h
    obtain ⟨s1, h1, h2⟩ := h
    exact topKStep_inv hpop (ih s1 h1) op h2

/-! Truth of the tags of a history without negation. -/

/-- Every tag implies the exact truth value. -/
def Below (w : Nat → Bool) (tags : List Dnf) (vals : List Bool) : Prop :=
  List.Forall₂ (fun t v => dnfHolds w t → v = true) tags vals

theorem Below.push {w : Nat → Bool} {tags : List Dnf} {vals : List Bool} (h : Below w tags vals) {t : Dnf} {v : Bool}
    (ht : dnfHolds w t → v = true) : Below w (tags ++ [t]) (vals ++ [v]) :=
  List.rel_append h (.cons ht .nil)

theorem Below.get {w : Nat → Bool} {tags : List Dnf} {vals : List Bool} (h : Below w tags vals) {i : Nat} {t : Dnf}
    (ht : tags[i]? = some t) : ∃ v, vals[i]? = some v ∧ (dnfHolds w t → v = true) := by
  obtain ⟨hi, hti⟩ := List.getElem?_eq_some_iff.mp ht
  have hlen := h.length_eq
  refine ⟨vals[i]'(hlen ▸ hi), List.getElem?_eq_getElem _, ?_⟩
  subst hti
  exact List.Forall₂.get h hi (hlen ▸ hi)

theorem topKMult_sound (x : DnfCtx K) (k : Nat) (t1 t2 : Dnf) (h1 : ∀ c ∈ t1, c.Sorted) (h2 : ∀ c ∈ t2, c.Sorted) (w : Nat → Bool)
    (h : dnfHolds w (x.topKMult k t1 t2)) : dnfHolds w t1 ∧ dnfHolds w t2 := by
  obtain ⟨c, hc, hw⟩ := h
  obtain ⟨⟨c1, hc1, c2, hc2, hm⟩, _⟩ := (topKMult_spec x k t1 t2).2.2.1 c hc
  have := (merge_holds (h1 c1 hc1) (h2 c2 hc2) hm w).mp hw
  exact ⟨⟨c1, hc1, this.1⟩, ⟨c2, hc2, this.2⟩⟩

theorem topKAdd_sound (x : DnfCtx K) (k : Nat) (t1 t2 : Dnf) (w : Nat → Bool)
    (h : dnfHolds w (x.topKAdd k t1 t2)) : dnfHolds w t1 ∨ dnfHolds w t2 := by
  obtain ⟨c, hc, hw⟩ := h
  rcases (topKAdd_spec x k t1 t2).2.2.1 c hc with hc | hc
  · exact Or.inl ⟨c, hc, hw⟩
  · exact Or.inr ⟨c, hc, hw⟩

theorem topKRun_below {pop : List (HeapElem K) → Option (HeapElem K × List (HeapElem K))} (hpop : IsPop pop) (k : Nat) (prob : Nat → K)
    (w : Nat → Bool) : ∀ (ops : List TagOp) (s : TopKState K), negationFree ops → TopKState.run pop k prob ops = some s →
      ∃ vals, evalWorld w ops = some (s.numFacts, vals) ∧ Below w s.tags vals := by
  intro ops
  induction ops using List.reverseRecOn with
  | nil =>
    intro s _ h
    obtain rfl := Option.some.inj h
    exact ⟨[], rfl, .nil⟩
  | append_singleton ops op ih =>
    intro s hneg h
    unfold TopKState.run at h
    rw [foldlM_append_singleton, Option.bind_eq_some_iff] at h
    obtain ⟨s1, h1, h2⟩ := h
    have hinv := topKRun_inv hpop k prob ops s1 h1
    obtain ⟨vals, hv, ha⟩ := ih s1 (fun o ho => hneg o (by simp [ho])) h1
    suffices hstep : ∃ vals', evalStep w (s1.numFacts, vals) op = some (s.numFacts, vals') ∧ Below w s.tags vals' by
      obtain ⟨vals', hv', ha'⟩ := hstep
      refine ⟨vals', ?_, ha'⟩
      unfold evalWorld
      rw [foldlM_append_singleton, Option.bind_eq_some_iff]
      exact ⟨_, hv, hv'⟩
    cases op with
    | tag e =>
      obtain ⟨s2, h3, _, h4, h5⟩ := topKTagging_inv hinv e
      simp only [TopKState.step] at h2
      rw [h3] at h2
      obtain rfl := Option.some.inj h2
      refine ⟨vals ++ [w s1.numFacts], by simp [evalStep, h5], ?_⟩
      rw [h4]
      exact ha.push (by simp [dnfHolds, Clause.holds, Literal.holds])
    | zero =>
      obtain rfl := Option.some.inj h2
      exact ⟨vals ++ [false], rfl, ha.push (by simp [dnfHolds])⟩
    | one =>
      obtain rfl := Option.some.inj h2
      exact ⟨vals ++ [true], rfl, ha.push (by simp)⟩
    | add i j =>
      simp only [TopKState.step] at h2
      split at h2
      · rename_i a b hi hj
        obtain rfl := Option.some.inj h2
        obtain ⟨v1, hv1, e1⟩ := ha.get hi
        obtain ⟨v2, hv2, e2⟩ := ha.get hj
        refine ⟨vals ++ [v1 || v2], by simp [evalStep, hv1, hv2], ha.push (fun ht => ?_)⟩
        rw [Bool.or_eq_true]
        exact (topKAdd_sound _ _ _ _ _ ht).imp e1 e2
      · cases h2
    | mult i j =>
      simp only [TopKState.step] at h2
      split at h2
      · rename_i a b hi hj
        obtain rfl := Option.some.inj h2
        obtain ⟨v1, hv1, e1⟩ := ha.get hi
        obtain ⟨v2, hv2, e2⟩ := ha.get hj
        refine ⟨vals ++ [v1 && v2], by simp [evalStep, hv1, hv2], ha.push (fun ht => ?_)⟩
        rw [Bool.and_eq_true]
        exact (topKMult_sound _ _ _ _ (fun c hc => (hinv.ok a (List.mem_of_getElem? hi) c hc).1)
          (fun c hc => (hinv.ok b (List.mem_of_getElem? hj) c hc).1) _ ht).imp e1 e2
      · cases h2
    | negate i => exact absurd rfl (hneg (.negate i) (by simp) i)

end Scallop
