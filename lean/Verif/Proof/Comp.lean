import Verif.Proof.Compile
import Mathlib.Data.Nat.Find

/-!
# The strata of a compiled program
-/

namespace Scallop.Plan

open Scallop.Back Scallop.Ram

variable {F : Type} {E : Env F} {S : Search} {rules : List (SRule F)} {strata : List (List String)}

/-- The relation is in the `k`-th stratum before negative dataflows are added. -/
def Base (strata : List (List String)) (ss : List (Nat × St F)) (sN : St F) (k : Nat) (r : String) : Prop :=
  ∃ D s, strata[k]? = some D ∧ ss[k]? = some s ∧
    (r ∈ D ∨ (∃ d, (r, d) ∈ s.2.temps) ∨ ∃ p ∈ D, ∃ π, (p, π) ∈ sN.perms ∧ r = permName p π)

/-- The sources of the dataflow are in strata up to the `k`-th. -/
def Covered (strata : List (List String)) (ss : List (Nat × St F)) (sN : St F) (k : Nat) (d : Dataflow F) : Prop :=
  ∀ r ∈ flowSources d, ∃ j, j ≤ k ∧ Base strata ss sN j r

/-- The negative dataflow is placed in the `k`-th stratum. -/
structure NegAt (strata : List (List String)) (ss : List (Nat × St F)) (sN : St F) (k : Nat) (n : String) (d : Dataflow F) : Prop where
  mem : (n, d) ∈ sN.negs
  cov : Covered strata ss sN k d
  first : ∀ j, j < k → ¬ Covered strata ss sN j d

/-- The relation is in the `k`-th stratum. -/
def At (strata : List (List String)) (ss : List (Nat × St F)) (sN : St F) (k : Nat) (r : String) : Prop :=
  Base strata ss sN k r ∨ ∃ d, NegAt strata ss sN k r d

/-- Predicates up to the `k`-th stratum. -/
abbrev UpTo (strata : List (List String)) (k : Nat) (q : String) : Prop := q ∈ (strata.take k).flatten

/-- The strata of a compiled program; `ss` are the states after the strata, with the values of the counter before, `sN` is the last. -/
structure Comp (E : Env F) (S : Search) (rules : List (SRule F)) (strata : List (List String)) (ram : List (Ram.Stratum F)) (ss : List (Nat × St F))
    (sN : St F) : Prop where
  len : ram.length = strata.length
  len2 : ss.length = strata.length
  rel : ∀ (k : Nat) st, ram[k]? = some st → ∀ r, r ∈ st.relations ↔ At strata ss sN k r
  fwd : ∀ (k : Nat) D s st, strata[k]? = some D → ss[k]? = some s → ram[k]? = some st →
    ∀ r ∈ rules, ∀ p ∈ D, headPred r.head = some p → ∃ f, Done E S r f s.2 ∧ (⟨p, f⟩ : Update F) ∈ st.updates
  tmp : ∀ (k : Nat) s st, ss[k]? = some s → ram[k]? = some st → ∀ n d, (n, d) ∈ s.2.temps → (⟨n, d⟩ : Update F) ∈ st.updates
  prm : ∀ (k : Nat) D st, strata[k]? = some D → ram[k]? = some st → ∀ p ∈ D, ∀ π e, (p, π) ∈ sN.perms → permExpr π = some e →
    (⟨permName p π, .project (.leaf (.rel p)) e⟩ : Update F) ∈ st.updates
  neg : ∀ (k : Nat) st, ram[k]? = some st → ∀ n d, NegAt strata ss sN k n d → (⟨n, d⟩ : Update F) ∈ st.updates
  bwd : ∀ (k : Nat) D s st, strata[k]? = some D → ss[k]? = some s → ram[k]? = some st → ∀ u ∈ st.updates,
    (Reads (RdP (UpTo strata (k + 1)) s.2) (RdN (UpTo strata k) s.2) (UpTo strata k) u.flow ∧
      ((∃ r ∈ rules, u.target ∈ D ∧ headPred r.head = some u.target ∧ Done E S r u.flow s.2) ∨ (u.target, u.flow) ∈ s.2.temps)) ∨
    (∃ p ∈ D, ∃ π e, (p, π) ∈ sN.perms ∧ permExpr π = some e ∧ u = ⟨permName p π, .project (.leaf (.rel p)) e⟩) ∨
    NegAt strata ss sN k u.target u.flow
  inv : ∀ (k : Nat) s, ss[k]? = some s → Inv (UpTo strata (k + 1)) (UpTo strata k) (UpTo strata k) s.1 s.2
  next : ∀ (j k : Nat) (s s' : Nat × St F), j < k → ss[j]? = some s → ss[k]? = some s' → s.2.next ≤ s'.1
  last : ∀ s ∈ ss, (∀ q ∈ s.2.negs, q ∈ sN.negs) ∧ ∀ q ∈ s.2.perms, q ∈ sN.perms
  invN : ∃ lo, Inv (fun q => q ∈ strata.flatten) (fun q => q ∈ strata.flatten) (fun q => q ∈ strata.flatten) lo sN

theorem compileStrata_comp (hS : S.Lawful) (hnames : ∀ p ∈ strata.flatten, UserName p)
    (hr : ∀ (k : Nat) D, strata[k]? = some D → ∀ r ∈ rules, ∀ p ∈ D, headPred r.head = some p → RuleLooks E (UpTo strata (k + 1)) (UpTo strata k) r)
    {ram} (h : compileStrata E S rules strata = some ram) : ∃ ss sN, Comp E S rules strata ram ss sN := by
  simp only [compileStrata, Option.bind_eq_some_iff, Option.map_eq_some_iff] at h
  obtain ⟨⟨sts, sN⟩, h1, sts', h2, rfl⟩ := h
  simp only at h2
  obtain ⟨ss, c⟩ := strataFlow_spec (pre := []) hS (fun k D hD r h1 p h2 h3 => hr k D hD r h1 p h2 h3)
    ⟨0, Nat.le_refl _, by simp, by simp, by simp, by simp, by simp⟩ h1
  obtain ⟨l1, l2⟩ := mapM_get h2
  have hinvN : ∃ lo, Inv (fun q => q ∈ strata.flatten) (fun q => q ∈ strata.flatten) (fun q => q ∈ strata.flatten) lo sN := by simpa using c.inv
  have huser : ∀ p π, (p, π) ∈ sN.perms → p ∈ strata.flatten := by
    intro p π hp
    obtain ⟨lo, hi⟩ := hinvN
    exact (hi.perms p π hp).1.elim id id
  have each : ∀ (k : Nat) D st s, strata[k]? = some D → sts[k]? = some st → ss[k]? = some s →
      StratumRes E S rules D (UpTo strata (k + 1)) (UpTo strata k) s.1 st s.2 := by
    intro k D st s hD hst hs
    exact c.each k D st s hD hst hs
  have hex : ∀ k : Nat, k < strata.length → ∃ D st st' s, strata[k]? = some D ∧ sts[k]? = some st ∧ sts'[k]? = some st' ∧ ss[k]? = some s := by
    intro k hk
    exact ⟨_, _, _, _, List.getElem?_eq_getElem hk, List.getElem?_eq_getElem (by rw [c.len1]; exact hk),
      List.getElem?_eq_getElem (by rw [l1, c.len1]; exact hk), List.getElem?_eq_getElem (by rw [c.len2]; exact hk)⟩
  have hbase : ∀ (k : Nat) st', sts'[k]? = some st' → ∀ r, r ∈ st'.relations ↔ Base strata ss sN k r := by
    intro k st' hk r
    have hlt : k < strata.length := by
      have := (List.getElem?_eq_some_iff.mp hk).1
      rwa [l1, c.len1] at this
    obtain ⟨D, st, st'', s, hD, hst, hst', hs⟩ := hex k hlt
    rw [hk] at hst'
    cases hst'
    obtain ⟨st2, h3, h4⟩ := l2 k st hst
    rw [hk] at h3
    cases h3
    have he := each k D st s hD hst hs
    rw [(addPerms_spec h4).1 r, he.relations]
    constructor
    · rintro (h | ⟨p, hp, π, hπ, rfl⟩)
      · rcases List.mem_append.mp h with h | h
        · exact ⟨D, s, hD, hs, Or.inl h⟩
        · obtain ⟨⟨n, d⟩, h5, rfl⟩ := List.mem_map.mp h
          exact ⟨D, s, hD, hs, Or.inr (Or.inl ⟨d, h5⟩)⟩
      · rcases List.mem_append.mp hp with h | h
        · exact ⟨D, s, hD, hs, Or.inr (Or.inr ⟨p, h, π, hπ, rfl⟩)⟩
        · obtain ⟨⟨n, d⟩, h5, e⟩ := List.mem_map.mp h
          simp only at e
          subst e
          obtain ⟨⟨i, _, _, h6⟩, _⟩ := he.inv.temps n d h5
          exact absurd h6 ((hnames n (huser n π hπ)).1 i)
    · rintro ⟨D', s', hD', hs', h⟩
      rw [hD] at hD'
      cases hD'
      rw [hs] at hs'
      cases hs'
      rcases h with h | ⟨d, h⟩ | ⟨p, hp, π, hπ, rfl⟩
      · exact Or.inl (List.mem_append.mpr (Or.inl h))
      · exact Or.inl (List.mem_append.mpr (Or.inr (List.mem_map.mpr ⟨_, h, rfl⟩)))
      · exact Or.inr ⟨p, List.mem_append.mpr (Or.inl hp), π, hπ, rfl⟩
  have hcov : ∀ (k : Nat) (d : Dataflow F), Cov [] sts' k d ↔ Covered strata ss sN k d := by
    intro k d
    refine forall_congr' fun r => imp_congr_right fun _ => ?_
    constructor
    · rintro (h | ⟨j, st, h3, h4, h5⟩)
      · simp at h
      · exact ⟨j, h3, (hbase j st h4 r).mp h5⟩
    · rintro ⟨j, h3, h4⟩
      have hlt : j < strata.length := by
        obtain ⟨D, s, h5, _⟩ := h4
        exact (List.getElem?_eq_some_iff.mp h5).1
      obtain ⟨D, st, st', s, hD, hst, hst', hs⟩ := hex j hlt
      exact Or.inr ⟨j, st', h3, hst', (hbase j st' hst' r).mpr h4⟩
  obtain ⟨l3, l4⟩ := placeNegs_spec (sts := sts') (acc := []) (negs := sN.negs)
  have hneg : ∀ (k : Nat) n d, ((n, d) ∈ sN.negs ∧ Cov [] sts' k d ∧ ∀ j, j < k → ¬ Cov [] sts' j d) ↔ NegAt strata ss sN k n d := by
    intro k n d
    constructor
    · rintro ⟨a1, a2, a3⟩
      exact ⟨a1, (hcov k d).mp a2, fun j hj h => a3 j hj ((hcov j d).mpr h)⟩
    · rintro ⟨a1, a2, a3⟩
      exact ⟨a1, (hcov k d).mpr a2, fun j hj h => a3 j hj ((hcov j d).mp h)⟩
  -- the stratum at an index
  have hat : ∀ (k : Nat) st'', (placeNegs [] sN.negs sts')[k]? = some st'' → ∃ D st st' s, strata[k]? = some D ∧ sts[k]? = some st ∧ sts'[k]? = some st' ∧
      ss[k]? = some s ∧ addPerms sN.perms st = some st' ∧
      (∀ r, r ∈ st''.relations ↔ r ∈ st'.relations ∨ ∃ d, NegAt strata ss sN k r d) ∧
      (∀ u, u ∈ st''.updates ↔ u ∈ st'.updates ∨ NegAt strata ss sN k u.target u.flow) := by
    intro k st'' hk
    have hlt : k < strata.length := by
      have := (List.getElem?_eq_some_iff.mp hk).1
      rwa [l3, l1, c.len1] at this
    obtain ⟨D, st, st', s, hD, hst, hst', hs⟩ := hex k hlt
    obtain ⟨st2, h3, h4⟩ := l2 k st hst
    rw [hst'] at h3
    cases h3
    obtain ⟨st3, h5, h6, h7⟩ := l4 k st' hst'
    rw [hk] at h5
    cases h5
    refine ⟨D, st, st', s, hD, hst, hst', hs, h4, fun r => ?_, fun u => ?_⟩
    · rw [h6 r]
      exact or_congr Iff.rfl (exists_congr fun d => hneg k r d)
    · rw [h7 u, hneg]
  refine ⟨ss, sN, ⟨by rw [l3, l1, c.len1], c.len2, ?_, ?_, ?_, ?_, ?_, ?_, ?_, c.next, c.last, hinvN⟩⟩
  · intro k st'' hk r
    obtain ⟨D, st, st', s, hD, hst, hst', hs, h4, h5, h6⟩ := hat k st'' hk
    rw [h5 r, hbase k st' hst' r]
    exact Iff.rfl
  · intro k D s st'' hD hs hk r hr' p hp hpr
    obtain ⟨D', st, st', s', hD', hst, hst', hs', h4, h5, h6⟩ := hat k st'' hk
    rw [hD] at hD'; cases hD'
    rw [hs] at hs'; cases hs'
    obtain ⟨f, h7, h8⟩ := (each k D st s hD hst hs).fwd r hr' p hp hpr
    exact ⟨f, h7, (h6 _).mpr (Or.inl (((addPerms_spec h4).2 _).mpr (Or.inl h8)))⟩
  · intro k s st'' hs hk n d hd
    obtain ⟨D', st, st', s', hD', hst, hst', hs', h4, h5, h6⟩ := hat k st'' hk
    rw [hs] at hs'; cases hs'
    exact (h6 _).mpr (Or.inl (((addPerms_spec h4).2 _).mpr (Or.inl ((each k D' st s hD' hst hs).temps n d hd))))
  · intro k D st'' hD hk p hp π e hπ he
    obtain ⟨D', st, st', s', hD', hst, hst', hs', h4, h5, h6⟩ := hat k st'' hk
    rw [hD] at hD'; cases hD'
    refine (h6 _).mpr (Or.inl (((addPerms_spec h4).2 _).mpr (Or.inr ⟨p, ?_, π, e, hπ, he, rfl⟩)))
    rw [(each k D st s' hD hst hs').relations]
    exact List.mem_append.mpr (Or.inl hp)
  · intro k st'' hk n d hn
    obtain ⟨D', st, st', s', hD', hst, hst', hs', h4, h5, h6⟩ := hat k st'' hk
    exact (h6 _).mpr (Or.inr hn)
  · intro k D s st'' hD hs hk u hu
    obtain ⟨D', st, st', s', hD', hst, hst', hs', h4, h5, h6⟩ := hat k st'' hk
    rw [hD] at hD'; cases hD'
    rw [hs] at hs'; cases hs'
    have he := each k D st s hD hst hs
    rcases (h6 u).mp hu with hu | hu
    · rcases ((addPerms_spec h4).2 u).mp hu with hu | ⟨p, hp, π, e, hπ, he', rfl⟩
      · exact Or.inl ⟨he.reads u hu, he.bwd u hu⟩
      · refine Or.inr (Or.inl ⟨p, ?_, π, e, hπ, he', rfl⟩)
        rw [he.relations] at hp
        rcases List.mem_append.mp hp with hp | hp
        · exact hp
        · obtain ⟨⟨n, d⟩, h7, e⟩ := List.mem_map.mp hp
          simp only at e
          subst e
          obtain ⟨⟨i, _, _, h8⟩, _⟩ := he.inv.temps n d h7
          exact absurd h8 ((hnames n (huser n π hπ)).1 i)
    · exact Or.inr (Or.inr hu)
  · intro k s hs
    have hlt : k < strata.length := by
      have := (List.getElem?_eq_some_iff.mp hs).1
      rwa [c.len2] at this
    obtain ⟨D, st, st', s', hD, hst, hst', hs'⟩ := hex k hlt
    rw [hs] at hs'
    cases hs'
    exact (each k D st s hD hst hs).inv

/-! ## Every relation is in one stratum -/

theorem mem_upTo {k : Nat} {q : String} : UpTo strata k q ↔ ∃ (j : Nat) (D : List String), j < k ∧ strata[j]? = some D ∧ q ∈ D := by
  simp only [UpTo, List.mem_flatten]
  constructor
  · rintro ⟨D, hD, hq⟩
    obtain ⟨j, hj, e⟩ := List.getElem_of_mem hD
    rw [List.length_take, Nat.lt_min] at hj
    refine ⟨j, D, hj.1, ?_, hq⟩
    rw [List.getElem_take] at e
    rw [← e]
    exact List.getElem?_eq_getElem hj.2
  · rintro ⟨j, D, hj, hD, hq⟩
    refine ⟨D, ?_, hq⟩
    refine List.mem_of_getElem? (i := j) ?_
    rw [List.getElem?_take, if_pos hj, hD]

theorem mem_flatten_get {q : String} : q ∈ strata.flatten ↔ ∃ (j : Nat) (D : List String), strata[j]? = some D ∧ q ∈ D := by
  rw [List.mem_flatten]
  constructor
  · rintro ⟨D, hD, hq⟩
    obtain ⟨j, hj⟩ := List.mem_iff_getElem?.mp hD
    exact ⟨j, D, hj, hq⟩
  · rintro ⟨j, D, hj, hq⟩
    exact ⟨D, List.mem_of_getElem? hj, hq⟩

theorem stratum_unique (hn : strata.flatten.Nodup) : ∀ {j k : Nat} {D D' : List String} {q : String}, strata[j]? = some D → strata[k]? = some D' → q ∈ D → q ∈ D' →
    j = k := by
  intro j k D D' q hj hk hq hq'
  have hp := (List.nodup_flatten.mp hn).2
  by_contra hne
  rcases Nat.lt_or_gt_of_ne hne with h | h
  · have := List.pairwise_iff_getElem.mp hp j k (List.getElem?_eq_some_iff.mp hj).1 (List.getElem?_eq_some_iff.mp hk).1 h
    rw [(List.getElem?_eq_some_iff.mp hj).2, (List.getElem?_eq_some_iff.mp hk).2] at this
    exact this hq hq'
  · have := List.pairwise_iff_getElem.mp hp k j (List.getElem?_eq_some_iff.mp hk).1 (List.getElem?_eq_some_iff.mp hj).1 h
    rw [(List.getElem?_eq_some_iff.mp hk).2, (List.getElem?_eq_some_iff.mp hj).2] at this
    exact this hq' hq

section
variable {ram : List (Ram.Stratum F)} {ss : List (Nat × St F)} {sN : St F}

theorem UserName.ne {p : String} (h : UserName p) : (∀ i, p ≠ tempName i) ∧ (∀ i, p ≠ ntempName i) ∧ ∀ q π, p ≠ permName q π :=
  ⟨h.1, h.2.1, fun q π => h.2.2 q (permStr π)⟩

theorem mem_of_get {k : Nat} {D : List String} {q : String} (h : strata[k]? = some D) (hq : q ∈ D) : q ∈ strata.flatten :=
  mem_flatten_get.mpr ⟨k, D, h, hq⟩

theorem Comp.base_unique (c : Comp E S rules strata ram ss sN) (hn : strata.flatten.Nodup) (hu : ∀ p ∈ strata.flatten, UserName p) {j k : Nat} {r : String}
    (hj : Base strata ss sN j r) (hk : Base strata ss sN k r) : j = k := by
  obtain ⟨D, s, hD, hs, h⟩ := hj
  obtain ⟨D', s', hD', hs', h'⟩ := hk
  rcases h with h | ⟨d, h⟩ | ⟨p, hp, π, hπ, rfl⟩
  · have hr := (hu r (mem_of_get hD h)).ne
    rcases h' with h' | ⟨d', h'⟩ | ⟨p', hp', π', hπ', e⟩
    · exact stratum_unique hn hD hD' h h'
    · obtain ⟨⟨i, _, _, e⟩, -⟩ := (c.inv k s' hs').temps r d' h'
      exact absurd e (hr.1 i)
    · exact absurd e (hr.2.2 p' π')
  · obtain ⟨⟨i, i1, i2, e⟩, _⟩ := (c.inv j s hs).temps r d h
    rcases h' with h' | ⟨d', h'⟩ | ⟨p', hp', π', hπ', e'⟩
    · exact absurd e ((hu r (mem_of_get hD' h')).ne.1 i)
    · obtain ⟨⟨i', i3, i4, e'⟩, _⟩ := (c.inv k s' hs').temps r d' h'
      rw [e] at e'
      have := tempName_inj e'
      subst this
      by_contra hne
      rcases Nat.lt_or_gt_of_ne hne with h | h
      · have := c.next j k s s' h hs hs'
        exact absurd i2 (Nat.not_lt.mpr (Nat.le_trans this i3))
      · have := c.next k j s' s h hs' hs
        exact absurd i4 (Nat.not_lt.mpr (Nat.le_trans this i1))
    · rw [e] at e'
      exact absurd e' (temp_ne_perm i p' π')
  · rcases h' with h' | ⟨d', h'⟩ | ⟨p', hp', π', hπ', e'⟩
    · exact absurd rfl ((hu _ (mem_of_get hD' h')).ne.2.2 p π)
    · obtain ⟨⟨i', i3, i4, e'⟩, _⟩ := (c.inv k s' hs').temps _ d' h'
      exact absurd e'.symm (temp_ne_perm i' p π)
    · obtain ⟨rfl, rfl⟩ := permName_inj e'
      exact stratum_unique hn hD hD' hp hp'

theorem Comp.neg_name (c : Comp E S rules strata ram ss sN) {n : String} {d : Dataflow F} (h : (n, d) ∈ sN.negs) : ∃ i, n = ntempName i := by
  obtain ⟨lo, hi⟩ := c.invN
  obtain ⟨⟨i, _, e⟩, _⟩ := hi.negs n d h
  exact ⟨i, e⟩

theorem Comp.base_ne_neg (c : Comp E S rules strata ram ss sN) (hu : ∀ p ∈ strata.flatten, UserName p) {j : Nat} {n : String} {d : Dataflow F}
    (hj : Base strata ss sN j n) (h : (n, d) ∈ sN.negs) : False := by
  obtain ⟨i, rfl⟩ := c.neg_name h
  obtain ⟨D, s, hD, hs, h⟩ := hj
  rcases h with h | ⟨d, h⟩ | ⟨p, hp, π, hπ, e⟩
  · exact (hu _ (mem_of_get hD h)).ne.2.1 i rfl
  · obtain ⟨⟨i', _, _, e⟩, -⟩ := (c.inv j s hs).temps _ d h
    exact temp_ne_ntemp i' i e.symm
  · exact ntemp_ne_perm i p π e

theorem nodup_fst {α β : Type} {l : List (α × β)} (h : (l.map Prod.fst).Nodup) {a : α} {b b' : β} (h1 : (a, b) ∈ l) (h2 : (a, b') ∈ l) : b = b' := by
  induction l with
  | nil => simp at h1
  | cons x l ih =>
    rw [List.map_cons, List.nodup_cons] at h
    rcases List.mem_cons.mp h1 with e1 | h1 <;> rcases List.mem_cons.mp h2 with e2 | h2
    · rw [← e1] at e2
      exact (congrArg Prod.snd e2).symm
    · exact absurd (List.mem_map.mpr ⟨_, h2, by rw [← e1]⟩) h.1
    · exact absurd (List.mem_map.mpr ⟨_, h1, by rw [← e2]⟩) h.1
    · exact ih h.2 h1 h2

theorem Comp.neg_fun (c : Comp E S rules strata ram ss sN) {n : String} {d d' : Dataflow F} (h : (n, d) ∈ sN.negs) (h' : (n, d') ∈ sN.negs) : d = d' := by
  obtain ⟨lo, hi⟩ := c.invN
  exact nodup_fst hi.nnodup h h'

theorem NegAt.unique {j k : Nat} {n : String} {d : Dataflow F} (hj : NegAt strata ss sN j n d) (hk : NegAt strata ss sN k n d) : j = k := by
  by_contra hne
  rcases Nat.lt_or_gt_of_ne hne with h | h
  · exact hk.first j h hj.cov
  · exact hj.first k h hk.cov

/-- No relation is in two strata. -/
theorem Comp.at_unique (c : Comp E S rules strata ram ss sN) (hn : strata.flatten.Nodup) (hu : ∀ p ∈ strata.flatten, UserName p) {j k : Nat} {r : String}
    (hj : At strata ss sN j r) (hk : At strata ss sN k r) : j = k := by
  rcases hj with hj | ⟨d, hj⟩ <;> rcases hk with hk | ⟨d', hk⟩
  · exact c.base_unique hn hu hj hk
  · exact (c.base_ne_neg hu hj hk.mem).elim
  · exact (c.base_ne_neg hu hk hj.mem).elim
  · have := c.neg_fun hj.mem hk.mem
    subst this
    exact hj.unique hk

/-! ## What the strata look at -/

theorem reads_sources {P N R : String → Prop} {d : Dataflow F} (h : Reads P N R d) : ∀ r ∈ flowSources d, P r ∨ N r ∨ R r := by
  induction d generalizing P N with
  | leaf l =>
    cases l <;> simp only [Reads] at h <;> simp only [flowSources, List.mem_singleton, List.not_mem_nil, forall_eq, false_implies, implies_true]
    · exact Or.inl h
    · exact Or.inr (Or.inr h.1)
  | un o d ih =>
    cases o <;> simp only [Reads] at h <;> simp only [flowSources]
    case joinIndexedVec r =>
      intro q hq
      rcases List.mem_cons.mp hq with rfl | hq
      · exact Or.inl h.1
      · exact ih h.2 q hq
    all_goals exact ih h
  | bin o d1 d2 ih1 ih2 =>
    have hsw : (∀ r ∈ flowSources d2, N r ∨ P r ∨ R r) → ∀ r ∈ flowSources d2, P r ∨ N r ∨ R r := by
      intro h r hr
      rcases h r hr with h | h | h
      · exact Or.inr (Or.inl h)
      · exact Or.inl h
      · exact Or.inr (Or.inr h)
    intro r hr
    simp only [flowSources] at hr
    rcases List.mem_append.mp hr with hr | hr
    · cases o <;> exact ih1 h.1 r hr
    · cases o
      · exact ih2 h.2 r hr
      · exact ih2 h.2 r hr
      · exact ih2 h.2 r hr
      · exact ih2 h.2 r hr
      · exact hsw (ih2 h.2) r hr
      · exact hsw (ih2 h.2) r hr
  | project d e ih => exact ih h

theorem reads_src {P N R : String → Prop} {d : Dataflow F} (h : Reads P N R d) :
    Reads (fun r => P r ∧ r ∈ flowSources d) (fun r => N r ∧ r ∈ flowSources d) R d := by
  induction d generalizing P N with
  | leaf l => cases l <;> simp_all [Reads, flowSources]
  | un o d ih =>
    cases o <;> simp only [Reads, flowSources] at h ⊢
    case joinIndexedVec r => exact ⟨⟨h.1, by simp⟩, (ih h.2).mono (fun _ h => ⟨h.1, by simp [h.2]⟩) (fun _ h => ⟨h.1, by simp [h.2]⟩) (fun _ h => h)⟩
    all_goals exact ih h
  | bin o d1 d2 ih1 ih2 =>
    have f1 : ∀ {Q : String → Prop} r, (Q r ∧ r ∈ flowSources d1) → Q r ∧ r ∈ flowSources (.bin o d1 d2) := fun r hr => ⟨hr.1, by simp [flowSources, hr.2]⟩
    have f2 : ∀ {Q : String → Prop} r, (Q r ∧ r ∈ flowSources d2) → Q r ∧ r ∈ flowSources (.bin o d1 d2) := fun r hr => ⟨hr.1, by simp [flowSources, hr.2]⟩
    cases o <;> exact ⟨(ih1 h.1).mono f1 f1 (fun _ h => h), (ih2 h.2).mono f2 f2 (fun _ h => h)⟩
  | project d e ih => exact ih h

theorem Comp.user_at (c : Comp E S rules strata ram ss sN) {j : Nat} {D : List String} {q : String} (hD : strata[j]? = some D) (hq : q ∈ D) :
    Base strata ss sN j q := by
  have hj : j < ss.length := by rw [c.len2]; exact (List.getElem?_eq_some_iff.mp hD).1
  exact ⟨D, ss[j], hD, List.getElem?_eq_getElem hj, Or.inl hq⟩

theorem Comp.perm_at (c : Comp E S rules strata ram ss sN) {j : Nat} {D : List String} {q : String} {π : Perm} (hD : strata[j]? = some D) (hq : q ∈ D)
    (hπ : (q, π) ∈ sN.perms) : Base strata ss sN j (permName q π) := by
  have hj : j < ss.length := by rw [c.len2]; exact (List.getElem?_eq_some_iff.mp hD).1
  exact ⟨D, ss[j], hD, List.getElem?_eq_getElem hj, Or.inr (Or.inr ⟨q, hq, π, hπ, rfl⟩)⟩

theorem Comp.copy_at (c : Comp E S rules strata ram ss sN) {k m : Nat} {s : Nat × St F} (hs : ss[k]? = some s) {r : String} (h : Copy (UpTo strata m) s.2 r) :
    ∃ j, j < m ∧ Base strata ss sN j r := by
  rcases h with h | ⟨p, π, h1, h2, rfl⟩
  · obtain ⟨j, D, hj, hD, hq⟩ := mem_upTo.mp h
    exact ⟨j, hj, c.user_at hD hq⟩
  · obtain ⟨j, D, hj, hD, hq⟩ := mem_upTo.mp h1
    exact ⟨j, hj, c.perm_at hD hq ((c.last s (List.mem_of_getElem? hs)).2 _ h2)⟩

/-- A negative dataflow of a stratum is placed in an earlier one. -/
theorem Comp.neg_at (c : Comp E S rules strata ram ss sN) {k : Nat} {s : Nat × St F} (hs : ss[k]? = some s) {n : String} {d : Dataflow F}
    (h : (n, d) ∈ s.2.negs) : ∃ j, j < k ∧ NegAt strata ss sN j n d := by
  obtain ⟨_, hf⟩ := (c.inv k s hs).negs n d h
  have hsrc : ∀ r ∈ flowSources d, ∃ j, j < k ∧ Base strata ss sN j r := by
    intro r hr
    rcases reads_sources hf.reads r hr with h | h | h
    · exact c.copy_at hs h
    · exact h.elim
    · exact h.elim
  have hk : 0 < k := by
    obtain ⟨r, hr⟩ := List.exists_mem_of_ne_nil _ hf.some
    obtain ⟨j, hj, _⟩ := hsrc r hr
    exact Nat.lt_of_le_of_lt (Nat.zero_le _) hj
  have hcov : Covered strata ss sN (k - 1) d := by
    intro r hr
    obtain ⟨j, hj, h⟩ := hsrc r hr
    exact ⟨j, Nat.le_sub_one_of_lt hj, h⟩
  classical
  let m := Nat.find (p := fun m => Covered strata ss sN m d) ⟨k - 1, hcov⟩
  have hm : Covered strata ss sN m d := Nat.find_spec (p := fun m => Covered strata ss sN m d) ⟨k - 1, hcov⟩
  have hle : m ≤ k - 1 := Nat.find_min' (p := fun m => Covered strata ss sN m d) _ hcov
  refine ⟨m, ?_, (c.last s (List.mem_of_getElem? hs)).1 _ h, hm, fun j hj => Nat.find_min (p := fun m => Covered strata ss sN m d) _ hj⟩
  exact Nat.lt_of_le_of_lt hle (Nat.sub_lt hk (by decide))

/-- What the update of a stratum looks at: for what it contains, in this stratum or an earlier one; else in an earlier one. -/
theorem Comp.looks (c : Comp E S rules strata ram ss sN) {k : Nat} {st : Ram.Stratum F} (hk : ram[k]? = some st) {u : Update F} (hu : u ∈ st.updates) :
    Reads (fun r => ∃ j, j ≤ k ∧ At strata ss sN j r) (fun r => ∃ j, j < k ∧ At strata ss sN j r) (fun r => ∃ j, j < k ∧ At strata ss sN j r) u.flow := by
  have hlt : k < strata.length := by
    have := (List.getElem?_eq_some_iff.mp hk).1
    rwa [c.len] at this
  have hD := List.getElem?_eq_getElem hlt
  have hs := List.getElem?_eq_getElem (l := ss) (i := k) (by rw [c.len2]; exact hlt)
  rcases c.bwd k _ _ st hD hs hk u hu with ⟨h, _⟩ | ⟨p, hp, π, e, hπ, he, rfl⟩ | h
  · refine h.mono ?_ ?_ ?_
    · rintro r (h | ⟨d, hd⟩)
      · obtain ⟨j, hj, h⟩ := c.copy_at hs h
        exact ⟨j, Nat.le_of_lt_succ hj, Or.inl h⟩
      · exact ⟨k, Nat.le_refl _, Or.inl ⟨_, _, hD, hs, Or.inr (Or.inl ⟨d, hd⟩)⟩⟩
    · rintro r (h | ⟨d, hd⟩)
      · obtain ⟨j, hj, h⟩ := c.copy_at hs h
        exact ⟨j, hj, Or.inl h⟩
      · obtain ⟨j, hj, h⟩ := c.neg_at hs hd
        exact ⟨j, hj, Or.inr ⟨d, h⟩⟩
    · intro r hr
      obtain ⟨j, D, hj, hD, hq⟩ := mem_upTo.mp hr
      exact ⟨j, hj, Or.inl (c.user_at hD hq)⟩
  · exact ⟨k, Nat.le_refl _, Or.inl (c.user_at hD hp)⟩
  · obtain ⟨lo, hi⟩ := c.invN
    obtain ⟨_, hf⟩ := hi.negs _ _ h.mem
    have := reads_src hf.reads
    exact this.mono (fun r hr => (h.cov r hr.2).imp fun j hj => ⟨hj.1, Or.inl hj.2⟩) (fun _ h => h.1.elim) (fun _ h => h.elim)

end

end Scallop.Plan
