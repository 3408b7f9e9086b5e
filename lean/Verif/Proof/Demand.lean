import Verif.Spec.Demand
import Verif.Proof.Strata
import Verif.Proof.Layers

/-!
# Stratified programs: closure and induction; grounded variables
-/

namespace Scallop.Plan

open Scallop.Back Scallop.Ram

variable {F : Type}

/-! ## Models are closed under the rules, and contain nothing else -/

section
variable {G : Setting F} {E : Env F} {rules : List (SRule F)} {strata : List (List String)} {facts J : Interp (Tup (Val F))}

theorem mem_strata {p : String} : p ∈ strata.flatten ↔ ∃ (k : Nat) (D : List String), strata[k]? = some D ∧ p ∈ D := by
  simp only [List.mem_flatten]
  constructor
  · rintro ⟨D, h1, h2⟩
    obtain ⟨k, hk⟩ := List.mem_iff_getElem?.1 h1
    exact ⟨k, D, hk, h2⟩
  · rintro ⟨k, D, h1, h2⟩
    exact ⟨D, List.mem_of_getElem? h1, h2⟩

theorem mem_take {p : String} {n : Nat} : p ∈ (strata.take n).flatten ↔ ∃ (k : Nat) (D : List String), k < n ∧ strata[k]? = some D ∧ p ∈ D := by
  rw [mem_strata]
  constructor
  · rintro ⟨k, D, h1, h2⟩
    rw [List.getElem?_take] at h1
    split at h1
    · exact ⟨k, D, by assumption, h1, h2⟩
    · cases h1
  · rintro ⟨k, D, h0, h1, h2⟩
    exact ⟨k, D, by rw [List.getElem?_take, if_pos h0]; exact h1, h2⟩

theorem stratum_index_unique (hn : strata.flatten.Nodup) {p : String} {j k : Nat} {D D' : List String} (h1 : strata[j]? = some D) (h2 : strata[k]? = some D')
    (hp : p ∈ D) (hp' : p ∈ D') : j = k := by
  by_contra hne
  rw [List.nodup_flatten] at hn
  have h := hn.2
  rw [List.pairwise_iff_getElem] at h
  obtain ⟨l1, e1⟩ := List.getElem?_eq_some_iff.1 h1
  obtain ⟨l2, e2⟩ := List.getElem?_eq_some_iff.1 h2
  rcases Nat.lt_or_gt_of_ne hne with hlt | hlt
  · have := h j k l1 l2 hlt
    rw [e1, e2] at this
    exact this hp hp'
  · have := h k j l2 l1 hlt
    rw [e1, e2] at this
    exact this hp' hp

/-- What is in an earlier stratum, or in none, is not in this one. -/
theorem not_in_stratum (hn : strata.flatten.Nodup) {p : String} {k : Nat} {D : List String} (h1 : strata[k]? = some D)
    (h : p ∈ (strata.take k).flatten ∨ p ∉ strata.flatten) : p ∉ D := by
  intro hp
  rcases h with h | h
  · obtain ⟨j, D', hj, h2, h3⟩ := mem_take.1 h
    have := stratum_index_unique hn h2 h1 h3 hp
    omega
  · exact h (mem_strata.2 ⟨k, D, h1, hp⟩)

/-- A model contains what a rule derives from it. -/
theorem model_closed (hG : G.Local) (hs : Stratified rules strata) (hJ : StratModel facts (strata.map (srcLayer G E rules)) J) {r : SRule F} (hr : r ∈ rules)
    {p : String} (hp : headPred r.head = some p) (hps : p ∈ strata.flatten) {σ : Asg F} (hb : ∀ l ∈ r.body, LitHolds (G.world J) σ l) {t : Tup (Val F)}
    (ht : Derives E σ r.head t) : J p t := by
  obtain ⟨k, D, hD, hpD⟩ := mem_strata.1 hps
  have hL : srcLayer G E rules D ∈ strata.map (srcLayer G E rules) := List.mem_map.2 ⟨D, List.mem_of_getElem? hD, rfl⟩
  refine (hJ _ hL p hpD t).2 (fun X hX => ?_)
  refine hX.2 ⟨p, fun J t => ∃ σ, (∀ l ∈ r.body, LitHolds (G.world J) σ l) ∧ Derives E σ r.head t⟩ ⟨r, hr, p, hpD, hp, rfl⟩ t ⟨σ, ?_, ht⟩
  have hsub : ∀ q ∈ D, ∀ u, J q u → X q u := fun q hq u hu => (hJ _ hL q hq u).1 hu X hX
  refine lits_mono hG ?_ ?_ ?_ hb
  · intro a _ u hu
    by_cases ha : a.predicate ∈ D
    · exact (patch_in ha u).2 (hsub _ ha u hu)
    · exact (patch_out ha u).2 hu
  · intro a ha u
    exact (patch_out (not_in_stratum hs.nodup hD (hs.neg k D hD r hr p hpD hp a ha)) u).symm
  · intro q hq
    obtain ⟨h1, h2⟩ := hs.red k D hD r hr p hpD hp q hq
    exact ⟨fun u => (patch_out (not_in_stratum hs.nodup hD h1) u).symm, fun g hg u => (patch_out (not_in_stratum hs.nodup hD (h2 g hg)) u).symm⟩

/-- A model contains the given facts. -/
theorem model_facts (hJ : StratModel facts (strata.map (srcLayer G E rules)) J) {p : String} (hps : p ∈ strata.flatten) {t : Tup (Val F)} (h : facts p t) : J p t := by
  obtain ⟨k, D, hD, hpD⟩ := mem_strata.1 hps
  have hL : srcLayer G E rules D ∈ strata.map (srcLayer G E rules) := List.mem_map.2 ⟨D, List.mem_of_getElem? hD, rfl⟩
  exact (hJ _ hL p hpD t).2 (fun X hX => hX.1 p hpD t h)

/-- Induction over derivations: what holds of the given facts, and of what rules derive if it holds of the facts they use, holds of all facts. -/
theorem model_induction (hG : G.Local) (hs : Stratified rules strata) (hJ : StratModel facts (strata.map (srcLayer G E rules)) J)
    {Q : Interp (Tup (Val F))} (hfacts : ∀ p ∈ strata.flatten, ∀ t, facts p t → Q p t)
    (hrule : ∀ r ∈ rules, ∀ p ∈ strata.flatten, headPred r.head = some p → ∀ σ, (∀ l ∈ r.body, LitHolds (G.world J) σ l) →
      (∀ a, .atom a ∈ r.body → a.predicate ∈ strata.flatten → Q a.predicate (flat (a.args.map (Term.val σ)))) → ∀ t, Derives E σ r.head t → Q p t) :
    ∀ p ∈ strata.flatten, ∀ t, J p t → Q p t := by
  have main : ∀ (k : Nat) D, strata[k]? = some D → ∀ p ∈ D, ∀ t, J p t → Q p t := by
    intro k
    induction k using Nat.strong_induction_on with
    | _ k ih =>
      intro D hD p hp t ht
      have hL : srcLayer G E rules D ∈ strata.map (srcLayer G E rules) := List.mem_map.2 ⟨D, List.mem_of_getElem? hD, rfl⟩
      refine ((hJ _ hL p hp t).1 ht (fun q u => J q u ∧ Q q u) ⟨fun q hq u hu => ?_, ?_⟩).2
      · have hqs := mem_strata.2 ⟨k, D, hD, hq⟩
        exact ⟨model_facts hJ hqs hu, hfacts q hqs u hu⟩
      · rintro d ⟨r, hr, q, hq, hhead, rfl⟩ u ⟨σ, hb, hder⟩
        have hqs := mem_strata.2 ⟨k, D, hD, hq⟩
        have hb' : ∀ l ∈ r.body, LitHolds (G.world J) σ l := by
          refine lits_mono hG ?_ ?_ ?_ hb
          · intro a _ u hu
            by_cases ha : a.predicate ∈ D
            · exact ((patch_in ha u).1 hu).1
            · exact (patch_out ha u).1 hu
          · intro a ha u
            exact patch_out (not_in_stratum hs.nodup hD (hs.neg k D hD r hr q hq hhead a ha)) u
          · intro w hw
            obtain ⟨h1, h2⟩ := hs.red k D hD r hr q hq hhead w hw
            exact ⟨fun u => patch_out (not_in_stratum hs.nodup hD h1) u, fun g hg u => patch_out (not_in_stratum hs.nodup hD (h2 g hg)) u⟩
        refine ⟨model_closed hG hs hJ hr hhead hqs hb' hder, hrule r hr q hqs hhead σ hb' (fun a ha has => ?_) u hder⟩
        by_cases haD : a.predicate ∈ D
        · have : patch D (fun q u => J q u ∧ Q q u) J a.predicate (flat (a.args.map (Term.val σ))) := hb _ ha
          exact ((patch_in haD _).1 this).2
        · rcases hs.pos k D hD r hr q hq hhead a (List.mem_filterMap.2 ⟨_, ha, rfl⟩) with h | h
          · obtain ⟨j, D', hj, hD', hj'⟩ := mem_take.1 h
            have hne : j ≠ k := by
              rintro rfl
              rw [hD] at hD'
              cases hD'
              exact haD hj'
            exact ih j (by omega) D' hD' a.predicate hj' _ (hb' _ ha)
          · exact absurd has h
  intro p hp t ht
  obtain ⟨k, D, hD, hpD⟩ := mem_strata.1 hp
  exact main k D hD p hpD t ht

theorem solveAll_outside {facts : Interp (Tup (Val F))} : ∀ {Ls : List (Layer (Tup (Val F)))} {J : Interp (Tup (Val F))} {p : String}, (∀ L ∈ Ls, p ∉ L.names) →
    ∀ t, solveAll facts Ls J p t ↔ J p t
  | [], _, _, _, _ => Iff.rfl
  | L :: Ls, J, p, h, t => by
    rw [solveAll, solveAll_outside (fun L' hL' => h L' (by simp [hL'])) t]
    exact patch_out (h L (by simp)) t

/-- The predicates that occur in the rules but are not defined. -/
def outsidePreds (rules : List (SRule F)) (strata : List (List String)) : List String :=
  (rules.flatMap (fun r => (posOf r.body ++ negOf r.body).map Atom.predicate ++
    (reducesOf r.body).flatMap (fun q => q.body :: q.groupByPred.toList))).filter (fun p => decide (p ∉ strata.flatten))

/-- A stratified program has a model, whatever the contents of the relations it does not define. -/
theorem stratified_model (hG : G.Local) (hs : Stratified rules strata) (facts J₀ : Interp (Tup (Val F))) :
    ∃ J, StratModel facts (strata.map (srcLayer G E rules)) J ∧ ∀ p, p ∉ strata.flatten → ∀ t, J p t ↔ J₀ p t := by
  have lits : ∀ {k : Nat} {D : List String}, strata[k]? = some D → ∀ {r : SRule F}, r ∈ rules → ∀ {p : String}, p ∈ D → headPred r.head = some p →
      ∀ {K K' : Interp (Tup (Val F))}, (∀ p ∈ D, ∀ t, K p t → K' p t) → (∀ p, p ∈ (strata.take k).flatten ∨ p ∈ outsidePreds rules strata → ∀ t, K p t ↔ K' p t) → ∀ {σ : Asg F},
      (∀ l ∈ r.body, LitHolds (G.world K) σ l) → ∀ l ∈ r.body, LitHolds (G.world K') σ l := by
    intro k D hD r hr p hp hpr K K' h1 h2 σ
    refine lits_mono hG ?_ ?_ ?_
    · intro a ha t ht
      rcases hs.pos k D hD r hr p hp hpr a ha with h | h
      · obtain ⟨j, D', hj, hD', hp'⟩ := mem_take.1 h
        rcases Nat.lt_or_eq_of_le (Nat.le_of_lt_succ hj) with hlt | rfl
        · exact (h2 _ (.inl (mem_take.2 ⟨j, D', hlt, hD', hp'⟩)) t).1 ht
        · rw [hD] at hD'
          cases hD'
          exact h1 _ hp' t ht
      · refine (h2 _ (.inr (List.mem_filter.2 ⟨List.mem_flatMap.2 ⟨r, hr, ?_⟩, by simpa using h⟩)) t).1 ht
        simp only [List.mem_append, List.mem_map]
        exact .inl ⟨a, .inl ha, rfl⟩
    · intro a ha t
      rcases hs.neg k D hD r hr p hp hpr a ha with h | h
      · exact h2 _ (.inl h) t
      · refine h2 _ (.inr (List.mem_filter.2 ⟨List.mem_flatMap.2 ⟨r, hr, ?_⟩, by simpa using h⟩)) t
        simp only [List.mem_append, List.mem_map]
        exact .inl ⟨a, .inr ha, rfl⟩
    · intro q hq
      obtain ⟨g1, g2⟩ := hs.red k D hD r hr p hp hpr q hq
      constructor
      · intro t
        rcases g1 with h | h
        · exact h2 _ (.inl h) t
        · refine h2 _ (.inr (List.mem_filter.2 ⟨List.mem_flatMap.2 ⟨r, hr, ?_⟩, by simpa using h⟩)) t
          simp only [List.mem_append, List.mem_flatMap]
          exact .inr ⟨q, hq, by simp⟩
      · intro g hg t
        rcases g2 g hg with h | h
        · exact h2 _ (.inl h) t
        · refine h2 _ (.inr (List.mem_filter.2 ⟨List.mem_flatMap.2 ⟨r, hr, ?_⟩, by simpa using h⟩)) t
          simp only [List.mem_append, List.mem_flatMap]
          exact .inr ⟨q, hq, by simp [hg]⟩
  have hout : ∀ q, q ∈ outsidePreds rules strata → q ∉ strata.flatten := fun q hq => by simpa using (List.mem_filter.1 hq).2
  have layered : Layered (outsidePreds rules strata) (strata.map (srcLayer G E rules)) := by
    refine layered_of_index ?_
    intro k L hL
    obtain ⟨D, hD, rfl⟩ := get_map hL
    refine ⟨?_, ?_, ?_, ?_⟩
    · rintro d ⟨r, hr, p, hp, hpr, rfl⟩
      exact hp
    · intro p hp
      refine ⟨fun h => hout p h (mem_strata.2 ⟨k, D, hD, hp⟩), ?_⟩
      intro j L' hj hL' hp'
      obtain ⟨D', hD', rfl⟩ := get_map hL'
      exact absurd (stratum_index_unique hs.nodup hD' hD hp' hp) (Nat.ne_of_lt hj)
    · rintro J d ⟨r, hr, p, hp, hpr, rfl⟩ X Y hXY t ⟨σ, h1, h2⟩
      refine ⟨σ, lits hD hr hp hpr ?_ ?_ h1, h2⟩
      · intro q hq t ht
        exact (patch_in (D := D) hq t).mpr (hXY q hq t ((patch_in (D := D) hq t).mp ht))
      · intro q hq t
        have : q ∉ D := not_in_stratum hs.nodup hD (hq.imp id (hout q))
        exact (patch_out (D := D) this t).trans (patch_out (D := D) this t).symm
    · rintro d ⟨r, hr, p, hp, hpr, rfl⟩ J J' hJ t
      have h1 : ∀ j ≤ k, ∀ D', strata[j]? = some D' → ∀ q ∈ D', ∀ t, J q t ↔ J' q t := by
        intro j hj D' hD' q hq
        exact hJ q (Or.inr ⟨j, srcLayer G E rules D', hj, by rw [List.getElem?_map, hD']; rfl, hq⟩)
      have h2 : ∀ q, q ∈ (strata.take k).flatten ∨ q ∈ outsidePreds rules strata → ∀ t, J q t ↔ J' q t := by
        rintro q (hq | hq)
        · obtain ⟨j, D', hj, hD', hq⟩ := mem_take.1 hq
          exact h1 j (Nat.le_of_lt hj) D' hD' q hq
        · exact hJ q (.inl hq)
      constructor
      · rintro ⟨σ, h3, h4⟩
        exact ⟨σ, lits hD hr hp hpr (fun q hq t => (h1 k (Nat.le_refl _) D hD q hq t).mp) h2 h3, h4⟩
      · rintro ⟨σ, h3, h4⟩
        exact ⟨σ, lits hD hr hp hpr (fun q hq t => (h1 k (Nat.le_refl _) D hD q hq t).mpr) (fun q hq t => (h2 q hq t).symm) h3, h4⟩
  refine ⟨_, model_exists (J := J₀) layered, fun p hp t => solveAll_outside (fun L hL hp' => ?_) t⟩
  obtain ⟨D, hD, rfl⟩ := List.mem_map.1 hL
  exact hp (List.mem_flatten.2 ⟨D, hD, hp'⟩)
end

/-! ## Grounded variables -/

/-- The variable gets a value from the atoms and assignments of the body. -/
inductive Gr (base : List (Lit String F Reduce)) : String → Prop
  | atom {a x} : .atom a ∈ base → .var x ∈ a.args → Gr base x
  | assign {x e} : .assign x e ∈ base → (∀ y ∈ e.vars, Gr base y) → Gr base x

theorem mem_atomsVars {base : List (Lit String F Reduce)} {x : String} : x ∈ atomsVars base ↔ ∃ a, .atom a ∈ base ∧ .var x ∈ a.args := by
  simp only [atomsVars, List.mem_flatMap]
  constructor
  · rintro ⟨l, hl, hx⟩
    cases l <;> simp at hx
    rename_i a
    obtain ⟨t, ht, hx⟩ := hx
    cases t <;> simp [Term.var?] at hx
    subst hx
    exact ⟨a, hl, ht⟩
  · rintro ⟨a, ha, hx⟩
    refine ⟨_, ha, ?_⟩
    simp only [List.mem_filterMap]
    exact ⟨_, hx, rfl⟩

theorem mem_groundStep {base : List (Lit String F Reduce)} {S : List String} {x : String} :
    x ∈ groundStep base S ↔ ∃ e, .assign x e ∈ base ∧ ∀ y ∈ e.vars, y ∈ S := by
  simp only [groundStep, List.mem_filterMap]
  constructor
  · rintro ⟨l, hl, hx⟩
    cases l <;> simp at hx
    rename_i y e
    obtain ⟨h1, rfl⟩ := hx
    exact ⟨e, hl, h1⟩
  · rintro ⟨e, he, hx⟩
    exact ⟨_, he, by simpa using hx⟩

theorem groundLoop_gr {base : List (Lit String F Reduce)} : ∀ (n : Nat) (S S' : List String), (∀ x ∈ S, Gr base x) → groundLoop base n S = some S' →
    (∀ x ∈ S', Gr base x) ∧ (∀ x ∈ S, x ∈ S') ∧ ∀ x ∈ groundStep base S', x ∈ S'
  | 0, S, S', _, h => by simp [groundLoop] at h
  | n + 1, S, S', hS, h => by
    simp only [groundLoop] at h
    split at h
    · rename_i hall
      cases h
      exact ⟨hS, fun _ h => h, by simpa using hall⟩
    · obtain ⟨h1, h2, h3⟩ := groundLoop_gr n _ S' (by
        intro x hx
        rcases List.mem_append.1 hx with hx | hx
        · exact hS x hx
        · obtain ⟨e, he, hy⟩ := mem_groundStep.1 hx
          exact .assign he (fun y hy' => hS y (hy y hy'))) h
      exact ⟨h1, fun x hx => h2 x (by simp [hx]), h3⟩

/-- The assignments whose left-hand side is not in the list. -/
def openAssigns (base : List (Lit String F Reduce)) (S : List String) : List (Lit String F Reduce) :=
  base.filter (fun l => match l with | .assign x _ => !S.contains x | _ => false)

theorem groundLoop_some {base : List (Lit String F Reduce)} : ∀ (n : Nat) (S : List String), (openAssigns base S).length < n → (groundLoop base n S).isSome
  | 0, S, h => by omega
  | n + 1, S, h => by
    simp only [groundLoop]
    split
    · rfl
    · rename_i hall
      refine groundLoop_some n _ ?_
      simp only [List.all_eq_true, not_forall] at hall
      obtain ⟨x, hx, hxS⟩ := hall
      obtain ⟨e, he, _⟩ := mem_groundStep.1 hx
      have hlt : (openAssigns base (S ++ groundStep base S)).length < (openAssigns base S).length := by
        have hsub : openAssigns base (S ++ groundStep base S) = (openAssigns base S).filter (fun l => match l with | .assign x _ => !(groundStep base S).contains x | _ => false) := by
          unfold openAssigns
          rw [List.filter_filter]
          refine List.filter_congr (fun l _ => ?_)
          cases l <;> simp
          rw [Bool.and_comm]
        rw [hsub]
        refine List.length_filter_lt_length_iff_exists.2 ⟨.assign x e, ?_, ?_⟩
        · simp only [openAssigns, List.mem_filter]
          exact ⟨he, by simpa using hxS⟩
        · simpa using hx
      omega

theorem grounded_spec (base : List (Lit String F Reduce)) : ∃ g, grounded base = some g ∧ ∀ x, x ∈ g ↔ Gr base x := by
  have h := groundLoop_some (base := base) (base.length + 1) (atomsVars base) (by
    have := List.length_filter_le (fun l : Lit String F Reduce => match l with | .assign x _ => !(atomsVars base).contains x | _ => false) base
    unfold openAssigns
    omega)
  obtain ⟨g, hg⟩ := Option.isSome_iff_exists.1 h
  refine ⟨g, hg, fun x => ?_⟩
  obtain ⟨h1, h2, h3⟩ := groundLoop_gr _ _ _ (fun x hx => by
    obtain ⟨a, ha, hx⟩ := mem_atomsVars.1 hx
    exact .atom ha hx) hg
  refine ⟨h1 x, fun hx => ?_⟩
  induction hx with
  | atom ha hx => exact h2 _ (mem_atomsVars.2 ⟨_, ha, hx⟩)
  | assign he _ ih => exact h3 _ (mem_groundStep.2 ⟨_, he, ih⟩)

end Scallop.Plan
