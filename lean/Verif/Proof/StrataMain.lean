import Verif.Proof.Strata

/-!
# One stratum after the other
-/

namespace Scallop.Plan

open Scallop.Back Scallop.Ram

variable {F : Type} {G : Setting F} {E : Env F} {arity : String → Nat} {rules : List (SRule F)} {strata : List (List String)} {facts : Interp (Tup (Val F))}
  {S : Search} {ram : List (Ram.Stratum F)} {ss : List (Nat × St F)} {sN : St F} {J : Interp (Tup (Val F))}

/-- What is known of a model of the compiled program. -/
structure Run (G : Setting F) (E : Env F) (S : Search) (arity : String → Nat) (rules : List (SRule F)) (strata : List (List String)) (facts : Interp (Tup (Val F)))
    (ram : List (Ram.Stratum F)) (ss : List (Nat × St F)) (sN : St F) (J : Interp (Tup (Val F))) : Prop where
  loc : G.Local
  exact : G.X.ExactFloats
  orders : E.Orders
  search : S.Lawful
  ok : ProgramOk G E arity rules strata facts
  comp : Comp E S rules strata ram ss sN
  model : StratModel facts (ram.map (ramLayer G)) J

theorem Run.fix (R : Run G E S arity rules strata facts ram ss sN J) {k : Nat} {st : Ram.Stratum F} (hst : ram[k]? = some st) {p : String} (hp : p ∈ st.relations) (t) :
    J p t ↔ facts p t ∨ ∃ u ∈ st.updates, u.target = p ∧ Den (G.world J) u.flow t := by
  have hm := model_fix (L := ramLayer G st) (R.comp.mono R.ok.nodup R.ok.names R.loc hst J) (R.comp.own G hst)
    (R.model _ (List.mem_map.mpr ⟨st, List.mem_of_getElem? hst, rfl⟩)) hp t
  rw [hm]
  refine or_congr Iff.rfl ⟨?_, ?_⟩
  · rintro ⟨d, ⟨u, hu, rfl⟩, h1, h2⟩
    exact ⟨u, hu, h1, h2⟩
  · rintro ⟨u, hu, h1, h2⟩
    exact ⟨_, ⟨u, hu, rfl⟩, h1, h2⟩

theorem Run.aux (R : Run G E S arity rules strata facts ram ss sN J) {k : Nat} {st : Ram.Stratum F} (hst : ram[k]? = some st) {r : String} {d : Dataflow F}
    (h : Aux strata ss sN k r d) (t) : J r t ↔ Den (G.world J) d t := by
  obtain ⟨s, D, hs, hD⟩ := R.comp.get' hst
  have hu := R.comp.aux_not_user R.ok.names h
  rw [R.fix hst ((R.comp.rel k st hst r).mpr ((R.comp.at_iff hD).mpr (Or.inr ⟨d, h⟩))) t]
  constructor
  · rintro (h1 | ⟨u, h1, rfl, h2⟩)
    · exact absurd (R.ok.facts r t h1).1 hu
    · rcases R.comp.update hD hs hst h1 with ⟨q, _, h3, _⟩ | h3
      · exact absurd (mem_of_get hD h3) hu
      · rw [R.comp.aux_fun h h3]
        exact h2
  · exact fun h1 => Or.inr ⟨⟨r, d⟩, R.comp.aux_update hst h, rfl, h1⟩

theorem Run.at_ram (R : Run G E S arity rules strata facts ram ss sN J) {j k : Nat} {st : Ram.Stratum F} (hst : ram[k]? = some st) (hj : j ≤ k) :
    ∃ st', ram[j]? = some st' :=
  ⟨_, List.getElem?_eq_getElem (Nat.lt_of_le_of_lt hj (List.getElem?_eq_some_iff.mp hst).1)⟩

theorem Run.solves (R : Run G E S arity rules strata facts ram ss sN J) {k : Nat} {s : Nat × St F} (hs : ss[k]? = some s) : Solves (G.world J) s.2 := by
  refine R.comp.solves hs ?_
  intro j hj r d h t
  have hk : j < ram.length := by
    rw [R.comp.len, ← R.comp.len2]
    exact Nat.lt_of_le_of_lt hj (List.getElem?_eq_some_iff.mp hs).1
  exact R.aux (List.getElem?_eq_getElem hk) h t

theorem Run.out (R : Run G E S arity rules strata facts ram ss sN J) {k : Nat} {st : Ram.Stratum F} (hst : ram[k]? = some st) {r : String}
    (h : ∃ j, j < k ∧ At strata ss sN j r) : r ∉ st.relations := by
  obtain ⟨j, hj, h⟩ := h
  intro hr
  exact absurd (R.comp.at_unique R.ok.nodup R.ok.names h ((R.comp.rel k st hst r).mp hr)) (Nat.ne_of_lt hj)

theorem Run.user_in (R : Run G E S arity rules strata facts ram ss sN J) {k : Nat} {st : Ram.Stratum F} {D : List String} (hst : ram[k]? = some st)
    (hD : strata[k]? = some D) {p : String} (hp : p ∈ st.relations) (hu : p ∈ strata.flatten) : p ∈ D := by
  rcases (R.comp.at_iff hD).mp ((R.comp.rel k st hst p).mp hp) with h | ⟨d, h⟩
  · exact h
  · exact absurd hu (R.comp.aux_not_user R.ok.names h)

/-- What a model of the compiled program holds is of the right form, and is derivable. -/
theorem Run.sound (R : Run G E S arity rules strata facts ram ss sN J) : ∀ (k : Nat) (D : List String), strata[k]? = some D → ∀ p ∈ D, ∀ t, J p t →
    Layout E arity p t ∧ ∀ X, (srcLayer G E rules D).Closed facts J X → X p t := by
  intro k
  induction k using Nat.strong_induction_on with
  | _ k ih =>
  intro D hD
  obtain ⟨s, st, hs, hst⟩ := R.comp.get hD
  -- everything derived is in any interpretation that is closed
  have main : ∀ X, (srcLayer G E rules D).Closed facts J X → ∀ p ∈ D, ∀ t, J p t → Layout E arity p t ∧ X p t := by
    intro X hX
    let U : Interp (Tup (Val F)) := fun p t => J p t ∧ Layout E arity p t ∧ X p t
    let A : List String := st.relations.filter (fun r => decide (r ∉ D))
    let L : Layer (Tup (Val F)) := ⟨A, {e | ∃ r d, Aux strata ss sN k r d ∧ e = ⟨r, fun J t => Den (G.world J) d t⟩}⟩
    let B : Interp (Tup (Val F)) := patch D U J
    let K : Interp (Tup (Val F)) := L.solve (fun _ _ => False) B
    have hA : ∀ r, r ∈ A ↔ r ∈ st.relations ∧ r ∉ D := fun r => by simp [A]
    have hrel : ∀ r ∈ D, r ∈ st.relations := fun r hr => (R.comp.rel k st hst r).mpr ((R.comp.at_iff hD).mpr (Or.inl hr))
    have auxA : ∀ r d, Aux strata ss sN k r d → r ∈ A := by
      intro r d h
      refine (hA r).mpr ⟨(R.comp.rel k st hst r).mpr ((R.comp.at_iff hD).mpr (Or.inr ⟨d, h⟩)), ?_⟩
      intro hr
      exact R.comp.aux_not_user R.ok.names h (mem_of_get hD hr)
    have hout : ∀ r, (∃ j, j < k ∧ At strata ss sN j r) → r ∉ st.relations := fun r => R.out hst
    have houtA : ∀ r, (∃ j, j < k ∧ At strata ss sN j r) → r ∉ A := fun r h hr => hout r h ((hA r).mp hr).1
    have hlooks : ∀ r d, Aux strata ss sN k r d → Reads (fun r => ∃ j, j ≤ k ∧ At strata ss sN j r) (fun r => ∃ j, j < k ∧ At strata ss sN j r)
        (fun r => ∃ j, j < k ∧ At strata ss sN j r) d := fun r d h => R.comp.looks hst (R.comp.aux_update hst h)
    have hB : ∀ r t, B r t → J r t := by
      rintro r t (⟨_, h⟩ | ⟨_, h⟩)
      · exact h.1
      · exact h
    have hBout : ∀ r, r ∉ st.relations → ∀ t, B r t ↔ J r t := fun r hr t => patch_out (fun h => hr (hrel r h)) t
    have hmono : L.Mono B := by
      rintro e ⟨r, d, h, rfl⟩ X Y hXY t
      refine den_mono R.loc ?_ ?_ ?_ (hlooks r d h) t
      · intro q _ t ht
        by_cases hq : q ∈ A
        · exact (patch_in hq t).mpr (hXY q hq t ((patch_in hq t).mp ht))
        · exact (patch_out hq t).mpr ((patch_out hq t).mp ht)
      · intro q hq t ht
        exact (patch_out (houtA q hq) t).mpr ((patch_out (houtA q hq) t).mp ht)
      · intro q hq t
        exact (patch_out (houtA q hq) t).trans (patch_out (houtA q hq) t).symm
    have hown : L.Own := by
      rintro e ⟨r, d, h, rfl⟩
      exact auxA r d h
    have hKD : ∀ p ∈ D, ∀ t, K p t ↔ U p t := by
      intro p hp t
      have : p ∉ L.names := fun h => ((hA p).mp h).2 hp
      exact (patch_out this t).trans (patch_in hp t)
    have hKout : ∀ r, r ∉ st.relations → ∀ t, K r t ↔ J r t := by
      intro r hr t
      have : r ∉ L.names := fun h => hr ((hA r).mp h).1
      exact (patch_out this t).trans (hBout r hr t)
    have hKJ : ∀ r t, K r t → J r t := by
      rintro r t (⟨_, h⟩ | ⟨_, h⟩)
      · refine h J ⟨fun _ _ _ h => h.elim, ?_⟩
        rintro e ⟨r, d, hr, rfl⟩ t ht
        refine (R.aux hst hr t).mpr ?_
        refine den_mono R.loc ?_ ?_ ?_ (hlooks r d hr) t ht
        · rintro q _ t (⟨_, h⟩ | ⟨_, h⟩)
          · exact h
          · exact hB q t h
        · intro q hq t ht
          exact (patch_out (houtA q hq) t).mpr ((hBout q (hout q hq) t).mpr ht)
        · intro q hq t
          exact (patch_out (houtA q hq) t).trans (hBout q (hout q hq) t)
      · exact hB r t h
    have hKaux : ∀ r d, Aux strata ss sN k r d → ∀ t, K r t ↔ Den (G.world K) d t := by
      intro r d h t
      have h1 : K r t ↔ L.lfp (fun _ _ => False) B r t := patch_in (auxA r d h) t
      rw [h1, lfp_fix hmono hown (auxA r d h) t]
      constructor
      · rintro (h2 | ⟨e, ⟨r', d', h', rfl⟩, e1, h2⟩)
        · exact h2.elim
        · simp only at e1
          subst e1
          rw [R.comp.aux_fun h h']
          exact h2
      · exact fun h2 => Or.inr ⟨_, ⟨r, d, h, rfl⟩, rfl, h2⟩
    have hKold : ∀ j, j < k → ∀ r d, Aux strata ss sN j r d → ∀ t, K r t ↔ Den (G.world K) d t := by
      intro j hj r d h t
      obtain ⟨st', hst'⟩ := R.at_ram hst (Nat.le_of_lt hj)
      obtain ⟨s', D', hs', hD'⟩ := R.comp.get' hst'
      have hr : r ∉ st.relations := hout r ⟨j, hj, (R.comp.at_iff hD').mpr (Or.inr ⟨d, h⟩)⟩
      rw [hKout r hr t, R.aux hst' h t]
      have h1 : ∀ q, (∃ i, i ≤ j ∧ At strata ss sN i q) → ∀ t, J q t ↔ K q t := by
        rintro q ⟨i, hi, h⟩ t
        exact (hKout q (hout q ⟨i, Nat.lt_of_le_of_lt hi hj, h⟩) t).symm
      have h2 : ∀ q, (∃ i, i < j ∧ At strata ss sN i q) → ∀ t, J q t ↔ K q t := fun q ⟨i, hi, h⟩ => h1 q ⟨i, Nat.le_of_lt hi, h⟩
      exact den_congr R.loc h1 h2 h2 (R.comp.looks hst' (R.comp.aux_update hst' h)) t
    have hsol : Solves (G.world K) s.2 := by
      refine R.comp.solves hs ?_
      intro j hj r d h t
      rcases Nat.lt_or_eq_of_le hj with h' | h'
      · exact hKold j h' r d h t
      · subst h'
        exact hKaux r d h t
    have hearly : ∀ q, UpTo strata k q → q ∉ st.relations := by
      intro q hq
      obtain ⟨j, D', hj, hD', hq'⟩ := mem_upTo.mp hq
      exact hout q ⟨j, hj, Or.inl (R.comp.user_at hD' hq')⟩
    have hlay : ∀ q, UpTo strata (k + 1) q → ∀ t, K q t → Layout E arity q t := by
      intro q hq t ht
      rcases (upTo_mem hD).mp hq with h | h
      · exact ((hKD q h t).mp ht).2.1
      · have hJ := (hKout q (hearly q h) t).mp ht
        obtain ⟨j, D', hj, hD', hq'⟩ := mem_upTo.mp h
        exact (ih j hj D' hD' q hq' t hJ).1
    have hclosed : (ramLayer G st).Closed facts J K := by
      refine ⟨?_, ?_⟩
      · intro p hp t ht
        obtain ⟨h1, h2⟩ := R.ok.facts p t ht
        have hpD : p ∈ D := R.user_in hst hD hp h1
        exact (hKD p hpD t).mpr ⟨(R.fix hst hp t).mpr (Or.inl ht), h2, hX.1 p hpD t ht⟩
      · rintro e ⟨u, hu, rfl⟩ t ht
        have hpatch : patch (ramLayer G st).names K J = K := (patch_eq (fun _ _ _ => Iff.rfl) (fun r hr t => hKout r hr t)).symm
        rw [hpatch] at ht
        simp only at ht
        rcases R.comp.update hD hs hst hu with ⟨r, hr, h1, h2, s1, s2, h3, h4⟩ | h1
        · obtain ⟨o1, o2, o3⟩ := R.ok.rule k D hD r hr _ h1 h2
          have hok : RuleOk (G.world K) E E.numBounded r.body (headVars r.head) := by
            refine o1.top ?_
            rintro a (ha | ha) t ht
            · exact hlay _ (R.ok.pos k D hD r hr _ h1 h2 a ha) t ht
            · exact hlay _ ((upTo_mem hD).mpr (Or.inr (R.ok.neg k D hD r hr _ h1 h2 a ha).1)) t ht
          have ht' := ht
          rw [rule_exact (W := G.world K) R.exact R.orders R.search hok o2 o3 h3 (hsol.mono h4) t] at ht'
          obtain ⟨σ, hσ, hder⟩ := ht'
          refine (hKD _ h1 t).mpr ⟨?_, derives_layout o2 h2 hder, ?_⟩
          · refine (R.fix hst (hrel _ h1) t).mpr (Or.inr ⟨u, hu, rfl, ?_⟩)
            refine den_mono R.loc (fun q _ => hKJ q) ?_ ?_ (R.comp.looks hst hu) t ht
            · intro q hq t ht
              exact (hKout q (hout q hq) t).mpr ht
            · intro q hq t
              exact hKout q (hout q hq) t
          · refine hX.2 ⟨u.target, _⟩ ⟨r, hr, u.target, h1, h2, rfl⟩ t ⟨σ, ?_, hder⟩
            refine R.ok.lits R.loc hD hr h1 h2 ?_ ?_ hσ
            · intro q hq t ht
              exact (patch_in (D := D) hq t).mpr ((hKD q hq t).mp ht).2.2
            · intro q hq t
              rw [hKout q (hearly q hq) t]
              exact (patch_out (D := D) (upTo_out R.ok.nodup hD hq) t).symm
        · exact (hKaux _ _ h1 t).mpr ht
    intro p hp t ht
    have := (R.model _ (List.mem_map.mpr ⟨st, List.mem_of_getElem? hst, rfl⟩) p (hrel p hp) t).mp ht K hclosed
    exact ((hKD p hp t).mp this).2
  intro p hp t ht
  refine ⟨(main (fun _ _ => True) ⟨fun _ _ _ _ => trivial, fun _ _ _ _ => trivial⟩ p hp t ht).1, fun X hX => (main X hX p hp t ht).2⟩

/-- A model of the compiled program is closed under the rules. -/
theorem Run.closed (R : Run G E S arity rules strata facts ram ss sN J) {k : Nat} {D : List String} (hD : strata[k]? = some D) :
    (srcLayer G E rules D).Closed facts J J := by
  obtain ⟨s, st, hs, hst⟩ := R.comp.get hD
  have hrel : ∀ r ∈ D, r ∈ st.relations := fun r hr => (R.comp.rel k st hst r).mpr ((R.comp.at_iff hD).mpr (Or.inl hr))
  refine ⟨fun p hp t ht => (R.fix hst (hrel p hp) t).mpr (Or.inl ht), ?_⟩
  rintro e ⟨r, hr, p, hp, hpr, rfl⟩ t ⟨σ, hσ, hder⟩
  rw [patch_self] at hσ
  obtain ⟨o1, o2, o3⟩ := R.ok.rule k D hD r hr p hp hpr
  have hlay : ∀ q, UpTo strata (k + 1) q → ∀ t, J q t → Layout E arity q t := by
    intro q hq t ht
    obtain ⟨j, D', _, hD', hq'⟩ := mem_upTo.mp hq
    exact (R.sound j D' hD' q hq' t ht).1
  have hok : RuleOk (G.world J) E E.numBounded r.body (headVars r.head) := by
    refine o1.top ?_
    rintro a (ha | ha) t ht
    · exact hlay _ (R.ok.pos k D hD r hr _ hp hpr a ha) t ht
    · exact hlay _ ((upTo_mem hD).mpr (Or.inr (R.ok.neg k D hD r hr _ hp hpr a ha).1)) t ht
  obtain ⟨f, ⟨s1, s2, h3, h4⟩, h5⟩ := R.comp.fwd k D s st hD hs hst r hr p hp hpr
  refine (R.fix hst (hrel p hp) t).mpr (Or.inr ⟨_, h5, rfl, ?_⟩)
  exact (rule_exact (W := G.world J) R.exact R.orders R.search hok o2 o3 h3 ((R.solves hs).mono h4) t).mpr ⟨σ, hσ, hder⟩

/-- A model of the compiled program is a model of the program. -/
theorem Run.source (R : Run G E S arity rules strata facts ram ss sN J) : StratModel facts (strata.map (srcLayer G E rules)) J := by
  intro L hL p hp t
  obtain ⟨D, hD, rfl⟩ := List.mem_map.mp hL
  obtain ⟨k, hk⟩ := List.mem_iff_getElem?.mp hD
  exact ⟨fun h => (R.sound k D hk p hp t h).2, fun h => h J (R.closed hk)⟩

end Scallop.Plan
