import Verif.Proof.ExecSem
import Verif.Proof.Layers
import Verif.Proof.Strata
import Verif.Props.Iteration

/-!
# Executing strata computes their least interpretations
-/

namespace Scallop.Exec

open Scallop.Ram Scallop.Plan

variable {F T W : Type}

/-! ## What dataflows look at -/

theorem static_reads {own : List String} : ∀ {d : Ram.Dataflow F}, Static own d → ∀ {P N R : String → Prop}, (∀ r ∈ flowDeps d, r ∉ own → P r) → Reads P N R d := by
  intro d
  induction d with
  | leaf l =>
    intro hs P N R hP
    cases l <;> simp only [Static] at hs
    exact hP _ (by simp [flowDeps]) hs
  | un o d ih =>
    intro hs P N R hP
    cases o <;> simp only [Static] at hs
    all_goals exact ih hs hP
  | bin o d1 d2 _ _ => intro hs; cases o <;> simp [Static] at hs
  | project d e ih => exact fun hs P N R hP => ih hs hP

theorem stratified_reads {own : List String} : ∀ {d : Ram.Dataflow F}, Stratified own d → ∀ {P N : String → Prop}, (∀ r ∈ flowDeps d, P r) →
    (∀ r ∈ flowDeps d, r ∉ own → N r) → Reads P N N d := by
  intro d
  induction d with
  | leaf l =>
    intro hs P N hP hN
    cases l with
    | unit _ => trivial
    | untagged _ => trivial
    | rel r => exact hP r (by simp [flowDeps])
    | reduce a p g =>
      cases g with
      | none => exact ⟨hN p (by simp [flowDeps]) hs.1, by simp⟩
      | implicit => exact ⟨hN p (by simp [flowDeps]) hs.1, by simp⟩
      | join q => exact ⟨hN p (by simp [flowDeps]) hs.1, fun r hr => by cases hr; exact hN q (by simp [flowDeps]) (hs.2 q rfl)⟩
    | foreign _ _ => trivial
  | un o d ih =>
    intro hs P N hP hN
    cases o
    case joinIndexedVec r => exact ⟨hP r (by simp [flowDeps]), ih hs (fun r hr => hP r (by simp [flowDeps, hr])) (fun r hr => hN r (by simp [flowDeps, hr]))⟩
    all_goals exact ih hs hP hN
  | bin o d1 d2 ih1 ih2 =>
    intro hs P N hP hN
    have hP1 : ∀ r ∈ flowDeps d1, P r := fun r hr => hP r (by simp [flowDeps, hr])
    have hP2 : ∀ r ∈ flowDeps d2, P r := fun r hr => hP r (by simp [flowDeps, hr])
    have hN1 : ∀ r ∈ flowDeps d1, r ∉ own → N r := fun r hr => hN r (by simp [flowDeps, hr])
    have hN2 : ∀ r ∈ flowDeps d2, r ∉ own → N r := fun r hr => hN r (by simp [flowDeps, hr])
    cases o <;> simp only [Stratified] at hs
    · exact ⟨ih1 hs.1 hP1 hN1, ih2 hs.2 hP2 hN2⟩
    · exact ⟨ih1 hs.1.stratified hP1 hN1, ih2 hs.2.stratified hP2 hN2⟩
    · exact ⟨ih1 hs.1.stratified hP1 hN1, ih2 hs.2.stratified hP2 hN2⟩
    · exact ⟨ih1 hs.1.stratified hP1 hN1, ih2 hs.2.stratified hP2 hN2⟩
    · exact ⟨ih1 hs.1 hP1 hN1, static_reads hs.2 hN2⟩
    · exact ⟨ih1 hs.1 hP1 hN1, static_reads hs.2 hN2⟩
  | project d e ih => exact fun hs P N hP hN => ih hs hP hN

variable [LinearOrder (Val F)]

theorem ramLayer_mono {G : Setting F} (hG : G.Local) {st : Ram.Stratum F} (hs : ∀ u ∈ st.updates, Stratified st.relations u.flow) (J : Interp (Tup (Val F))) :
    (ramLayer G st).Mono J := by
  rintro d ⟨u, hu, rfl⟩ X Y hXY t
  refine den_mono hG (P := fun _ => True) (N := fun r => r ∉ st.relations) (R := fun r => r ∉ st.relations) ?_ ?_ ?_
    (stratified_reads (hs u hu) (fun _ _ => trivial) (fun _ _ h => h)) t
  · intro r _ t ht
    by_cases hr : r ∈ st.relations
    · exact (patch_in hr t).mpr (hXY r hr t ((patch_in hr t).mp ht))
    · exact (patch_out hr t).mpr ((patch_out hr t).mp ht)
  · intro r hr t ht
    exact (patch_out hr t).mpr ((patch_out hr t).mp ht)
  · intro r hr t
    exact (patch_out hr t).trans (patch_out hr t).symm

/-- The layers of a program. -/
def layers (c : Prov T W) (R : Runtime F T) (P : Program F) : List (Layer (Tup (Val F))) := P.strata.map (ramLayer (R.setting c))

theorem layers_layered {c : Prov T W} {R : Runtime F T} {P : Program F} (ok : P.Ok R) : Layered [] (layers c R P) := by
  refine layered_of_index ?_
  intro k L hL
  obtain ⟨st, hst, rfl⟩ := get_map hL
  have hmem := List.mem_of_getElem? hst
  refine ⟨?_, ?_, ramLayer_mono (setting_local c R) (fun u hu => (ok.flow st hmem u hu).1), ?_⟩
  · rintro d ⟨u, hu, rfl⟩
    exact (ok.target st hmem u hu).1
  · intro p hp
    refine ⟨by simp, ?_⟩
    intro j L' hj hL' hp'
    obtain ⟨st', hst', rfl⟩ := get_map hL'
    exact absurd (ok.once j k st' st p hst' hst hp' hp) (Nat.ne_of_lt hj)
  · rintro d ⟨u, hu, rfl⟩ J J' hJ t
    have hd : ∀ r ∈ flowDeps u.flow, ∀ t, J r t ↔ J' r t := by
      intro r hr
      obtain ⟨j, st', hj, hst', hr'⟩ := ok.reads k st u hst hu r hr
      exact hJ r (Or.inr ⟨j, ramLayer (R.setting c) st', hj, by simp only [layers, List.getElem?_map, hst', Option.map_some], hr'⟩)
    have := stratified_reads (ok.flow st hmem u hu).1 (P := fun r => r ∈ flowDeps u.flow) (N := fun r => r ∈ flowDeps u.flow) (fun _ h => h) (fun _ h _ => h)
    exact den_congr (setting_local c R) hd hd hd this t

/-! ## One stratum -/

theorem mapM_mem {α β : Type} {f : α → Option β} : ∀ {l : List α} {l' : List β}, l.mapM f = some l' →
    (∀ a ∈ l, ∃ b ∈ l', f a = some b) ∧ ∀ b ∈ l', ∃ a ∈ l, f a = some b
  | [], l', h => by simp at h; subst h; simp
  | a :: l, l', h => by
    rw [List.mapM_cons] at h
    simp only [Option.bind_eq_bind, Option.pure_def] at h
    obtain ⟨b, hb, h⟩ := Option.bind_eq_some_iff.mp h
    obtain ⟨bs, hbs, h⟩ := Option.bind_eq_some_iff.mp h
    cases h
    obtain ⟨h1, h2⟩ := mapM_mem hbs
    refine ⟨?_, ?_⟩
    · intro x hx
      rcases List.mem_cons.mp hx with rfl | hx
      · exact ⟨b, by simp, hb⟩
      · obtain ⟨y, hy, he⟩ := h1 x hx
        exact ⟨y, by simp [hy], he⟩
    · intro y hy
      rcases List.mem_cons.mp hy with rfl | hy
      · exact ⟨a, by simp, hb⟩
      · obtain ⟨x, hx, he⟩ := h2 y hy
        exact ⟨x, by simp [hx], he⟩

section
variable {c : Prov T W} {R : Runtime F T} {P : Program F} {st : Ram.Stratum F} {edb idb inp : Db F T} {J : Interp (Tup (Val F))}

omit [LinearOrder (Val F)] in
theorem mem_created {r : String} : r ∈ created P st idb ↔ r ∈ st.relations ∧ idb r = none ∧ (P.decl r).immutable = false := by
  unfold created dynRelas
  simp only [List.mem_filter, Bool.not_eq_true', Option.isNone_iff_eq_none, and_assoc]

omit [LinearOrder (Val F)] in
theorem inputs_created (h : stratumInputs P b st edb idb = some inp) {r : String} (hr : r ∈ created P st idb) : inp r = none := by
  obtain ⟨h1, h2, h3⟩ := mem_created.mp hr
  unfold stratumInputs at h
  split at h
  · cases h
    simp [h2, h3]
  · split at h
    · cases h
      have : r ∉ stratumDeps st := fun hd => by simp [stratumDeps, h1] at hd
      simp [this, h3]
    · cases h

/-- What `setUp` gives, relation by relation and update by update. -/
theorem setUp_spec {p} (hp : setUp c R P b st edb idb = some p) : ∃ inp, stratumInputs P b st edb idb = some inp ∧ p.input = inputOf inp ∧
    (p.edb = fun r => (edb r.1).map Coll.elems) ∧ (p.sched = fun r => (P.decl r.1).sched.getD R.sched) ∧ p.iterLimit = R.iterLimit ∧ p.stopAtGoal = R.stopAtGoal ∧
    p.earlyDiscard = R.earlyDiscard ∧
    (∀ u ∈ st.updates, u.target ∈ dynRelas st idb → ∃ (h : u.target ∈ created P st idb) (d : _), build c R inp (created P st idb) u.flow = some d ∧ (⟨u.target, h⟩, d) ∈ p.updates) ∧
    ∀ q ∈ p.updates, ∃ u ∈ st.updates, u.target = q.1.1 ∧ build c R inp (created P st idb) u.flow = some q.2 := by
  unfold setUp at hp
  obtain ⟨inp, hi, hp⟩ := Option.bind_eq_some_iff.mp hp
  obtain ⟨us, hus, rfl⟩ := Option.map_eq_some_iff.mp hp
  obtain ⟨h1, h2⟩ := mapM_mem hus
  refine ⟨inp, hi, rfl, rfl, rfl, rfl, rfl, rfl, ?_, ?_⟩
  · intro u hu ht
    obtain ⟨q, hq, he⟩ := h1 u (List.mem_filter.mpr ⟨hu, by simpa using ht⟩)
    split at he
    · rename_i hc
      obtain ⟨d, hd, rfl⟩ := Option.map_eq_some_iff.mp he
      exact ⟨hc, d, hd, hq⟩
    · cases he
  · intro q hq
    obtain ⟨u, hu, he⟩ := h2 q hq
    refine ⟨u, (List.mem_filter.mp hu).1, ?_⟩
    split at he
    · rename_i hc
      obtain ⟨d, hd, rfl⟩ := Option.map_eq_some_iff.mp he
      exact ⟨rfl, hd⟩
    · cases he

/-- Contents of the relations of a stratum: given ones for those that are computed, `J` for the others. -/
def ext {D : List String} (X : {r // r ∈ D} → Set (Tup (Val F))) (J : Interp (Tup (Val F))) : Interp (Tup (Val F)) := fun r t =>
  (∃ h : r ∈ D, t ∈ X ⟨r, h⟩) ∨ (r ∉ D ∧ J r t)

/-- The least fixed point of the iteration holds the contents of the model, if the inputs do. -/
theorem setUp_lfp [LinearOrder W] (hR : ∀ u ∈ st.updates, Discrete c R u.flow)
    (ht : ∀ u ∈ st.updates, u.target ∈ st.relations ∧ (P.decl u.target).immutable = false)
    (hs : ∀ u ∈ st.updates, Stratified st.relations u.flow ∧ WellSorted R.X u.flow ∧ ForeignOk R u.flow) {p}
    (hp : setUp c R P b st edb idb = some p) (hin : ∀ inp, stratumInputs P b st edb idb = some inp → InputsOk inp J)
    (hJ : ∀ r ∈ st.relations, ∀ t, J r t ↔ (ramLayer (R.setting c) st).lfp (edbFacts edb) J r t) (r : {r // r ∈ created P st idb}) (t) :
    t ∈ p.lfp c r ↔ J r.1 t := by
  obtain ⟨inp, hi, e1, e2, _, _, _, _, hu1, hu2⟩ := setUp_spec hp
  have hD : ∀ r ∈ created P st idb, r ∈ st.relations := fun r hr => (mem_created.mp hr).1
  have hmono := ramLayer_mono (setting_local c R) (fun u hu => (hs u hu).1) J
  have hclosed : (ramLayer (R.setting c) st).Closed (edbFacts edb) J J := by
    have h1 := Plan.lfp_closed (facts := edbFacts edb) hmono
    refine ⟨fun q hq t hf => (hJ q hq t).mpr (h1.1 q hq t hf), ?_⟩
    rintro d ⟨u, hu, rfl⟩ t hd
    refine (hJ _ (ht u hu).1 t).mpr (h1.2 _ ⟨u, hu, rfl⟩ t (hmono _ ⟨u, hu, rfl⟩ _ _ (fun q hq t hx => (hJ q hq t).mp hx) t hd))
  have hle : ∀ r t, t ∈ p.lfp c r → J r.1 t := by
    intro r t h
    refine h (fun r => {t | J r.1 t}) ⟨?_, ?_⟩
    · intro i facts hf t ht
      rw [e2] at hf
      obtain ⟨a, ha, rfl⟩ := Option.map_eq_some_iff.mp hf
      exact hclosed.1 i.1 (hD i.1 i.2) t ⟨a, ha, ht⟩
    · intro q hq t hd
      obtain ⟨u, hu, hut, hb⟩ := hu2 q hq
      rw [e1] at hd
      have h1 := (build_sem (hin inp hi) hD (fun r hr _ t => Iff.rfl) (hs u hu).1 (hs u hu).2.2 (hR u hu) hb t).mp hd
      have h3 := hclosed.2 _ ⟨u, hu, rfl⟩ t (by rw [patch_self]; exact h1)
      simp only at h3
      rw [hut] at h3
      exact h3
  refine ⟨hle r t, fun h => ?_⟩
  have hc := Scallop.lfp_closed c p
  have hsub : ∀ q t, ext (p.lfp c) J q t → J q t := by
    rintro q t (⟨h, hx⟩ | ⟨_, hx⟩)
    · exact hle _ t hx
    · exact hx
  have hinp : InputsOk inp (patch st.relations (ext (p.lfp c) J) J) := by
    intro q a ha
    have hq : q ∉ created P st idb := fun hq => by rw [inputs_created hi hq] at ha; cases ha
    obtain ⟨l, rfl, hl, hl'⟩ := hin inp hi q a ha
    refine ⟨l, rfl, hl, fun t => (hl' t).trans ?_⟩
    by_cases hqs : q ∈ st.relations
    · rw [patch_in hqs]
      exact ⟨fun h => Or.inr ⟨hq, h⟩, hsub q t⟩
    · rw [patch_out hqs]
  have hY := (hJ r.1 (hD r.1 r.2) t).mp h (ext (p.lfp c) J) ⟨?_, ?_⟩
  · rcases hY with ⟨_, h⟩ | ⟨h, _⟩
    · exact h
    · exact absurd r.2 h
  · intro q hq t hf
    by_cases hqc : q ∈ created P st idb
    · obtain ⟨a, ha, hta⟩ := hf
      exact Or.inl ⟨hqc, hc.1 ⟨q, hqc⟩ a.elems (by rw [e2]; simp [ha]) hta⟩
    · exact Or.inr ⟨hqc, hclosed.1 q hq t hf⟩
  · rintro d ⟨u, hu, rfl⟩ t hd
    by_cases hcr : u.target ∈ created P st idb
    · have hdyn : u.target ∈ dynRelas st idb := (List.mem_filter.mp hcr).1
      obtain ⟨hcr, d', hb, hmem⟩ := hu1 u hu hdyn
      have h1 := (build_sem hinp hD (X := p.lfp c) (fun q hq _ t => by
        rw [patch_in (hD q hq)]
        constructor
        · exact fun h => Or.inl ⟨hq, h⟩
        · rintro (⟨_, h⟩ | ⟨h, _⟩)
          · exact h
          · exact absurd hq h) (hs u hu).1 (hs u hu).2.2 (hR u hu) hb t).mpr hd
      have h2 := hc.2 _ hmem
      rw [e1] at h2
      exact Or.inl ⟨hcr, h2 h1⟩
    · refine Or.inr ⟨hcr, ?_⟩
      have h2 := hmono _ ⟨u, hu, rfl⟩ _ J (fun q _ t hx => hsub q t hx) t hd
      exact hclosed.2 _ ⟨u, hu, rfl⟩ t h2

theorem setUp_ok (hm : c.Uniform)
    (hs : ∀ u ∈ st.updates, Stratified st.relations u.flow ∧ WellSorted R.X u.flow ∧ ForeignOk R u.flow) {p}
    (hp : setUp c R P b st edb idb = some p) (hin : ∀ inp, stratumInputs P b st edb idb = some inp → InputsOk inp J) : p.Ok c := by
  obtain ⟨inp, hi, e1, _, _, _, _, _, _, hu2⟩ := setUp_spec hp
  have hD : ∀ r ∈ created P st idb, r ∈ st.relations := fun r hr => (mem_created.mp hr).1
  refine ⟨?_, ?_, ?_, ?_⟩
  · intro q hq
    obtain ⟨u, hu, _, hb⟩ := hu2 q hq
    exact build_wellSorted (hs u hu).2.1 hb
  · intro q hq
    obtain ⟨u, hu, _, hb⟩ := hu2 q hq
    exact build_stratified hD (hs u hu).1 hb
  · intro j
    rw [e1]
    cases j with
    | inr e => simp [inputOf, Sorted]
    | inl r =>
      simp only [inputOf]
      cases ha : inp r with
      | none => exact List.Pairwise.nil
      | some a =>
        obtain ⟨l, rfl, hl⟩ := hin inp hi r a ha
        exact hl.1
  · exact hm

/-- The results of a stratum hold the contents of the model. -/
theorem execStratum_spec [LinearOrder W] (hm : c.Uniform) (hR : P.Discrete c R) (ok : P.Ok R) (full : R.Full c P) (hst : st ∈ P.strata)
    (hin : ∀ inp, stratumInputs P b st edb idb = some inp → InputsOk inp J)
    (hJ : ∀ r ∈ st.relations, ∀ t, J r t ↔ (ramLayer (R.setting c) st).lfp (edbFacts edb) J r t) {fuel rs}
    (h : execStratum c R P b fuel st edb idb = .done rs) :
    (∀ q ∈ rs, ∃ l, q.2 = .sorted l ∧ Contents l (J q.1)) ∧
      ∀ r ∈ st.relations, idb r = none → (P.decl r).immutable = false → isOutput P b r = true → ∃ a, (r, a) ∈ rs := by
  unfold execStratum at h
  split at h
  · rename_i he
    cases h
    refine ⟨by simp, fun r hr hn _ _ => ?_⟩
    rw [List.isEmpty_iff] at he
    have : r ∈ dynRelas st idb := List.mem_filter.mpr ⟨hr, by simp [hn]⟩
    rw [he] at this
    simp at this
  · cases hp : setUp c R P b st edb idb with
    | none => rw [hp] at h; cases h
    | some p =>
      rw [hp] at h
      simp only [Run.ofOption, Run.bind] at h
      cases hrun : p.run c fuel with
      | outOfFuel => rw [hrun] at h; cases h
      | panic => rw [hrun] at h; cases h
      | done s =>
        rw [hrun] at h
        simp only at h
        have hfl := ok.flow st hst
        have hpok := setUp_ok hm hfl hp hin
        obtain ⟨_, _, _, _, e3, e4, e5, e6, _, _⟩ := setUp_spec hp
        have hrel : ∀ r ∈ created P st idb, r ∈ P.relations := fun r hr =>
          List.mem_flatMap.mpr ⟨st, hst, (mem_created.mp hr).1⟩
        have lf := c16_least_fixpoint c p hpok (by rw [e6]; exact full.keep) (by rw [e3]; exact fun i => full.sched i.1 (hrel i.1 i.2))
          (by rw [e4]; exact full.limit) (by rw [e5]; exact full.goal) fuel s hrun
        cases hres : stratumResult c P b s with
        | none => rw [hres] at h; cases h
        | some rs' =>
          rw [hres] at h
          cases h
          unfold stratumResult at hres
          obtain ⟨h1, h2⟩ := mapM_mem hres
          refine ⟨?_, ?_⟩
          · intro q hq
            obtain ⟨r, _, he⟩ := h2 q hq
            obtain ⟨l, hl, he⟩ := Option.bind_eq_some_iff.mp he
            obtain ⟨a, ha, rfl⟩ := Option.map_eq_some_iff.mp he
            obtain ⟨res, hr, hsrt, htup⟩ := lf r
            rw [hl] at hr
            cases hr
            unfold Coll.make at ha
            rw [ok.storage r.1 (hrel r.1 r.2)] at ha
            simp only [Bool.false_eq_true, if_false] at ha
            cases ha
            refine ⟨_, rfl, fromVec_sorted c _, fun t => ?_⟩
            rw [tuples_fromVec, htup]
            exact setUp_lfp (hR st hst) (ok.target st hst) hfl hp hin hJ r t
          · intro r hr hn him ho
            have hc : r ∈ created P st idb := mem_created.mpr ⟨hr, hn, him⟩
            obtain ⟨q, hq, he⟩ := h1 ⟨r, hc⟩ (List.mem_filter.mpr ⟨List.mem_attach _ _, ho⟩)
            obtain ⟨l, hl, he⟩ := Option.bind_eq_some_iff.mp he
            obtain ⟨a, ha, rfl⟩ := Option.map_eq_some_iff.mp he
            exact ⟨a, hq⟩

end

/-! ## All strata -/

section
variable {c : Prov T W} {R : Runtime F T} {P : Program F} {edb : Db F T} {J : Interp (Tup (Val F))}

/-- What is known before stratum `k`: what has been computed holds the contents of the model; what is an output, or still needed, has been
computed. -/
structure Known (P : Program F) (J : Interp (Tup (Val F))) (k : Nat) (idb : Db F T) : Prop where
  holds : ∀ r a, idb r = some a → ∃ l, a = .sorted l ∧ Contents l (J r)
  has : ∀ (j : Nat) st r, j < k → P.strata[j]? = some st → r ∈ st.relations → (P.decl r).immutable = false →
    ((P.decl r).hidden = false ∨ ∃ (m : Nat) (st' : Ram.Stratum F), k ≤ m ∧ P.strata[m]? = some st' ∧ r ∈ stratumDeps st') → (idb r).isSome

omit [LinearOrder (Val F)] in
theorem lifespan_ge {m : Nat} {st : Ram.Stratum F} {r : String} (hm : P.strata[m]? = some st) (hr : r ∈ stratumDeps st) :
    ∃ j, P.lifespan r = some j ∧ m ≤ j := by
  unfold Program.lifespan
  have hmem : (st, m) ∈ P.strata.zipIdx.filter (fun q => decide (r ∈ stratumDeps q.1)) := by
    refine List.mem_filter.mpr ⟨List.mem_zipIdx_iff_getElem?.mpr hm, by simpa using hr⟩
  have hp : (P.strata.zipIdx.filter (fun q => decide (r ∈ stratumDeps q.1))).Pairwise (fun a b => a.2 < b.2) := by
    refine List.Pairwise.filter _ ?_
    rw [← List.pairwise_map (f := Prod.snd), List.zipIdx_map_snd]
    exact List.pairwise_lt_range'
  generalize (P.strata.zipIdx.filter (fun q => decide (r ∈ stratumDeps q.1))) = l at hmem hp
  rcases List.eq_nil_or_concat l with rfl | ⟨l', x, rfl⟩
  · simp at hmem
  · refine ⟨x.2, by simp, ?_⟩
    rw [List.concat_eq_append] at hmem hp
    rcases List.mem_append.mp hmem with h | h
    · exact Nat.le_of_lt ((List.pairwise_append.mp hp).2.2 _ h x (by simp))
    · simp at h
      rw [← h]

omit [LinearOrder (Val F)] in
theorem extendDb_cases {idb : Db F T} {rs : List (String × Coll F T)} {r : String} {a} (h : extendDb idb rs r = some a) : (r, a) ∈ rs ∨ idb r = some a := by
  unfold extendDb at h
  split at h
  · rename_i b hb
    cases h
    obtain ⟨l1, l2, h1, _⟩ := List.lookup_eq_some_iff.mp hb
    exact Or.inl (by rw [h1]; simp)
  · exact Or.inr h

omit [LinearOrder (Val F)] in
theorem extendDb_some {idb : Db F T} {rs : List (String × Coll F T)} {r : String} (h : (idb r).isSome ∨ ∃ a, (r, a) ∈ rs) : (extendDb idb rs r).isSome := by
  unfold extendDb
  split
  · rfl
  · rename_i hn
    rcases h with h | ⟨a, ha⟩
    · exact h
    · have := List.lookup_eq_none_iff.mp hn (r, a) ha
      simp at this

/-- The inputs of a stratum hold the contents of the model. -/
theorem inputs_ok {idb inp : Db F T} (hk : Known P J k idb) (himm : ∀ r ∈ P.relations, (P.decl r).immutable = true → ∀ t, J r t ↔ edbFacts edb r t)
    (hedb : ∀ r a, edb r = some a → ∃ l, a = .sorted l ∧ Sorted l) {st : Ram.Stratum F} (hst : st ∈ P.strata)
    (hdep : ∀ r ∈ stratumDeps st, r ∈ P.relations)
    (h : stratumInputs P b st edb idb = some inp) : InputsOk inp J := by
  have hE : ∀ r ∈ P.relations, (P.decl r).immutable = true → ∀ a, edb r = some a → ∃ l, a = .sorted l ∧ Contents l (J r) := by
    intro r hr hi a ha
    obtain ⟨l, rfl, hl⟩ := hedb r a ha
    refine ⟨l, rfl, hl, fun t => ?_⟩
    rw [himm r hr hi t]
    constructor
    · exact fun ht => ⟨_, ha, ht⟩
    · rintro ⟨a, ha', ht⟩
      rw [ha] at ha'
      cases ha'
      exact ht
  intro r a ha
  unfold stratumInputs at h
  split at h
  · cases h
    simp only at ha
    split at ha
    · rename_i b hb
      cases ha
      exact hk.holds r _ hb
    · split at ha
      · rename_i hc
        simp only [Bool.and_eq_true, decide_eq_true_eq] at hc
        exact hE r hc.1 hc.2 a ha
      · cases ha
  · split at h
    · cases h
      simp only at ha
      split at ha
      · rename_i hd
        split at ha
        · rename_i hi
          exact hE r (hdep r hd) hi a ha
        · exact hk.holds r a ha
      · split at ha
        · rename_i hc
          simp only [Bool.and_eq_true, decide_eq_true_eq] at hc
          exact hE r (List.mem_flatMap.mpr ⟨st, hst, hc.1⟩) hc.2 a ha
        · cases ha
    · cases h

theorem execStrata_spec [LinearOrder W] (hm : c.Uniform) (hR : P.Discrete c R) (ok : P.Ok R) (full : R.Full c P)
    (hedb : ∀ r a, edb r = some a → ∃ l, a = .sorted l ∧ Sorted l)
    (himm : ∀ r ∈ P.relations, (P.decl r).immutable = true → ∀ t, J r t ↔ edbFacts edb r t)
    (hJ : StratModel (edbFacts edb) (P.strata.map (ramLayer (R.setting c))) J) {b fuel} :
    ∀ {sts : List (Ram.Stratum F)} {k : Nat} {idb idb' : Db F T}, (∀ (i : Nat), P.strata[k + i]? = sts[i]?) → Known P J k idb →
      execStrata c R P b fuel edb k sts idb = .done idb' → Known P J (k + sts.length) idb'
  | [], k, idb, idb', _, hk, h => by
    simp only [execStrata, Run.done.injEq] at h
    subst h
    exact hk
  | st :: rest, k, idb, idb', hsts, hk, h => by
    have hkst : P.strata[k]? = some st := by simpa using hsts 0
    have hst := List.mem_of_getElem? hkst
    rw [execStrata] at h
    cases hx : execStratum c R P b fuel st edb idb with
    | outOfFuel => rw [hx] at h; cases h
    | panic => rw [hx] at h; cases h
    | done rs =>
      rw [hx] at h
      simp only [Run.bind] at h
      have hdep : ∀ r ∈ stratumDeps st, r ∈ P.relations := by
        intro r hr
        obtain ⟨u, hu, hr'⟩ := List.mem_flatMap.mp (List.mem_filter.mp hr).1
        obtain ⟨j, st', _, hst', hr''⟩ := ok.reads k st u hkst hu r hr'
        exact List.mem_flatMap.mpr ⟨st', List.mem_of_getElem? hst', hr''⟩
      obtain ⟨h1, h2⟩ := execStratum_spec hm hR ok full hst (fun inp hi => inputs_ok hk himm hedb hst hdep hi)
        (fun r hr t => hJ _ (List.mem_map.mpr ⟨st, hst, rfl⟩) r hr t) hx
      have := execStrata_spec hm hR ok full hedb himm hJ (sts := rest) (k := k + 1)
        (fun i => by have := hsts (i + 1); simpa [Nat.add_assoc, Nat.add_comm 1 i] using this) ⟨?_, ?_⟩ h
      · rw [List.length_cons, Nat.add_comm rest.length 1, ← Nat.add_assoc]
        exact this
      · intro r a ha
        rcases extendDb_cases ha with h | h
        · exact h1 _ (List.mem_filter.mp h).1
        · exact hk.holds r a h
      · intro j st' r hj hst' hr him hout
        refine extendDb_some ?_
        by_cases hjk : j < k
        · refine Or.inl (hk.has j st' r hjk hst' hr him (hout.imp id ?_))
          rintro ⟨m, st'', hm, h⟩
          exact ⟨m, st'', by omega, h⟩
        · obtain rfl : j = k := by omega
          rw [hkst] at hst'
          cases hst'
          cases hn : idb r with
          | some a => exact Or.inl (by simp)
          | none =>
            have ho : isOutput P b r = true := by
              unfold isOutput
              rcases hout with h | ⟨m, st'', _, hm, hd⟩
              · simp [h]
              · have : P.readLater r = true := by
                  unfold Program.readLater
                  rw [List.any_eq_true]
                  exact ⟨st'', List.mem_of_getElem? hm, by simpa using hd⟩
                simp [this]
            obtain ⟨a, ha⟩ := h2 r hr hn him ho
            refine Or.inr ⟨a, List.mem_filter.mpr ⟨ha, ?_⟩⟩
            unfold kept
            split
            · rename_i hh
              rcases hout with h | ⟨m, st'', hm, hm', hd⟩
              · rw [h] at hh; cases hh
              · obtain ⟨i, hi, hle⟩ := lifespan_ge hm' hd
                rw [hi]
                simp only [decide_eq_true_eq]
                omega
            · rfl

omit [LinearOrder (Val F)] in
theorem edbFacts_tapAll (P : Program F) (edb : Db F T) : edbFacts (tapAll P edb) = edbFacts edb := by
  funext r t
  apply propext
  unfold edbFacts tapAll
  cases h : edb r with
  | some a => simp
  | none =>
    simp only
    split <;> simp [Coll.elems, tuples]

/-- Immutable relations hold their facts. -/
theorem model_immutable (ok : P.Ok R) {facts} (hJ : StratModel facts (P.strata.map (ramLayer (R.setting c))) J) :
    ∀ r ∈ P.relations, (P.decl r).immutable = true → ∀ t, J r t ↔ facts r t := by
  intro r hr hi t
  obtain ⟨st, hst, hr⟩ := List.mem_flatMap.mp hr
  rw [hJ _ (List.mem_map.mpr ⟨st, hst, rfl⟩) r hr t]
  constructor
  · intro h
    refine (h (fun r t => (P.decl r).immutable = true → facts r t) ⟨fun _ _ _ h _ => h, ?_⟩) hi
    rintro d ⟨u, hu, rfl⟩ t _ him
    simp only at him
    rw [(ok.target st hst u hu).2] at him
    cases him
  · exact fun h X hX => hX.1 r hr t h

theorem executeFrom_spec [LinearOrder W] (hm : c.Uniform) (hR : P.Discrete c R) (ok : P.Ok R) (full : R.Full c P)
    (hedb : ∀ r a, edb r = some a → ∃ l, a = .sorted l ∧ Sorted l)
    (hJ : StratModel (edbFacts edb) (P.strata.map (ramLayer (R.setting c))) J) {idb idb' : Db F T}
    (hk : ∀ r a, idb r = some a → ∃ l, a = .sorted l ∧ Contents l (J r)) {b fuel}
    (h : executeFrom c R P b fuel edb idb = .done idb') {r : String} (hr : r ∈ P.relations) (hv : (P.decl r).hidden = false) :
    ∃ l, idb' r = some (.sorted l) ∧ Contents l (J r) := by
  unfold executeFrom at h
  split at h
  · have hedb' : ∀ r a, tapAll P edb r = some a → ∃ l, a = .sorted l ∧ Sorted l := by
      intro r a ha
      unfold tapAll at ha
      split at ha
      · rename_i b hb
        cases ha
        exact hedb r _ hb
      · split at ha
        · cases ha
          exact ⟨[], rfl, List.Pairwise.nil⟩
        · cases ha
    have himm := model_immutable ok hJ
    cases hx : execStrata c R P b fuel (tapAll P edb) 0 P.strata idb with
    | outOfFuel => rw [hx] at h; cases h
    | panic => rw [hx] at h; cases h
    | done idb1 =>
      rw [hx] at h
      simp only [Run.bind, Run.done.injEq] at h
      subst h
      have hkn := execStrata_spec (edb := tapAll P edb) hm hR ok full hedb' (by rw [edbFacts_tapAll]; exact himm)
        (by rw [edbFacts_tapAll]; exact hJ) (sts := P.strata) (k := 0) (fun i => by simp) ⟨hk, fun j _ _ h => absurd h (by omega)⟩ hx
      unfold copyOutputs
      cases hi : idb1 r with
      | some a =>
        obtain ⟨l, rfl, hl⟩ := hkn.holds r a hi
        exact ⟨l, rfl, hl⟩
      | none =>
        have him : (P.decl r).immutable = true := by
          by_contra him
          obtain ⟨st, hst, hrs⟩ := List.mem_flatMap.mp hr
          obtain ⟨j, hj⟩ := List.mem_iff_getElem?.mp hst
          have hlt : j < P.strata.length := by
            rcases Nat.lt_or_ge j P.strata.length with h | h
            · exact h
            · rw [List.getElem?_eq_none h] at hj; cases hj
          have := hkn.has j st r (by omega) hj hrs (by simpa using him) (Or.inl hv)
          rw [hi] at this
          cases this
        simp only [hr, hv, decide_true, Bool.not_false, Bool.and_self, if_true]
        have hsome : ∃ a, tapAll P edb r = some a := by
          unfold tapAll
          split
          · exact ⟨_, rfl⟩
          · exact ⟨.sorted [], by simp [hr, him]⟩
        obtain ⟨a, ha⟩ := hsome
        obtain ⟨l, rfl, hl⟩ := hedb' r a ha
        refine ⟨l, ha, hl, fun t => ?_⟩
        rw [himm r hr him t, ← edbFacts_tapAll P edb]
        constructor
        · exact fun ht => ⟨_, ha, ht⟩
        · rintro ⟨a, ha', ht⟩
          rw [ha] at ha'
          cases ha'
          exact ht
  · cases h

end

end Scallop.Exec
