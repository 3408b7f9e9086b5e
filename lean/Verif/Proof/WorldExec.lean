import Verif.Proof.WorldBuild
import Verif.Proof.ExecRun
import Verif.Props.Worlds

/-!
# Executing strata in possible worlds
-/

namespace Scallop.Exec

open Scallop.Ram Scallop.Plan

variable {F T W : Type} [LinearOrder (Val F)]

/-! ## What execution keeps, for any condition on collections -/

section
variable {c : Prov T W} {R : Runtime F T} {P : Program F} {edb : Db F T}

/-- What is known before stratum `k`, for any condition on collections (see `Known`). -/
structure KnownC (C : String → Coll F T → Prop) (P : Program F) (k : Nat) (idb : Db F T) : Prop where
  holds : ∀ r a, idb r = some a → C r a
  has : ∀ (j : Nat) st r, j < k → P.strata[j]? = some st → r ∈ st.relations → (P.decl r).immutable = false →
    ((P.decl r).hidden = false ∨ ∃ (m : Nat) (st' : Ram.Stratum F), k ≤ m ∧ P.strata[m]? = some st' ∧ r ∈ stratumDeps st') → (idb r).isSome

omit [LinearOrder (Val F)] in
theorem inputs_cond {C : String → Coll F T → Prop} {idb inp : Db F T} (hk : ∀ r a, idb r = some a → C r a)
    (hE : ∀ r ∈ P.relations, (P.decl r).immutable = true → ∀ a, edb r = some a → C r a) {st : Ram.Stratum F} (hst : st ∈ P.strata)
    (hdep : ∀ r ∈ stratumDeps st, r ∈ P.relations) {b : Bool} (h : stratumInputs P b st edb idb = some inp) : ∀ r a, inp r = some a → C r a := by
  intro r a ha
  unfold stratumInputs at h
  split at h
  · cases h
    simp only at ha
    split at ha
    · rename_i b hb
      cases ha
      exact hk r _ hb
    · split at ha
      · rename_i hc
        simp only [Bool.and_eq_true, decide_eq_true_eq] at hc
        exact hE r hc.1 hc.2 a ha
      · cases ha
  · split at h
    · cases h
      simp only at ha
      split at ha
      · rename_i hd
        split at ha
        · rename_i hi
          exact hE r (hdep r hd) hi a ha
        · exact hk r a ha
      · split at ha
        · rename_i hc
          simp only [Bool.and_eq_true, decide_eq_true_eq] at hc
          exact hE r (List.mem_flatMap.mpr ⟨st, hst, hc.1⟩) hc.2 a ha
        · cases ha
    · cases h

/-- What a stratum that has been executed went through. -/
theorem execStratum_done [LinearOrder W] {b : Bool} {fuel} {st : Ram.Stratum F} {idb : Db F T} {rs} (h : execStratum c R P b fuel st edb idb = .done rs) :
    (dynRelas st idb = [] ∧ rs = []) ∨ ∃ p s, setUp c R P b st edb idb = some p ∧ p.run c fuel = .done s ∧ stratumResult c P b s = some rs := by
  unfold execStratum at h
  split at h
  · rename_i he
    cases h
    exact Or.inl ⟨List.isEmpty_iff.mp he, rfl⟩
  · cases hp : setUp c R P b st edb idb with
    | none => rw [hp] at h; cases h
    | some p =>
      rw [hp] at h
      simp only [Run.ofOption, Run.bind] at h
      cases hrun : p.run c fuel with
      | outOfFuel => rw [hrun] at h; cases h
      | panic => rw [hrun] at h; cases h
      | done s =>
        rw [hrun] at h
        simp only at h
        cases hres : stratumResult c P b s with
        | none => rw [hres] at h; cases h
        | some rs' =>
          rw [hres] at h
          cases h
          exact Or.inr ⟨p, s, rfl, hrun, hres⟩

theorem execStratum_outputs [LinearOrder W] {b : Bool} {fuel} {st : Ram.Stratum F} {idb : Db F T} {rs} (h : execStratum c R P b fuel st edb idb = .done rs) :
    ∀ r ∈ st.relations, idb r = none → (P.decl r).immutable = false → isOutput P b r = true → ∃ a, (r, a) ∈ rs := by
  intro r hr hn him ho
  rcases execStratum_done h with ⟨he, _⟩ | ⟨p, s, _, _, hres⟩
  · have : r ∈ dynRelas st idb := List.mem_filter.mpr ⟨hr, by simp [hn]⟩
    rw [he] at this
    simp at this
  · unfold stratumResult at hres
    obtain ⟨h1, _⟩ := mapM_mem hres
    have hc : r ∈ created P st idb := mem_created.mpr ⟨hr, hn, him⟩
    obtain ⟨q, hq, he⟩ := h1 ⟨r, hc⟩ (List.mem_filter.mpr ⟨List.mem_attach _ _, ho⟩)
    obtain ⟨l, hl, he⟩ := Option.bind_eq_some_iff.mp he
    obtain ⟨a, ha, rfl⟩ := Option.map_eq_some_iff.mp he
    exact ⟨a, hq⟩

theorem execStrata_cond [LinearOrder W] {C : String → Coll F T → Prop} {b : Bool} {fuel : Nat} {tr : List (Ram.Stratum F × Db F T)}
    (hstep : ∀ (k : Nat) st idb rs, P.strata[k]? = some st → (st, idb) ∈ tr → (∀ r a, idb r = some a → C r a) →
      execStratum c R P b fuel st edb idb = .done rs → ∀ q ∈ rs, C q.1 q.2) :
    ∀ {sts : List (Ram.Stratum F)} {k : Nat} {idb idb' : Db F T}, (∀ (i : Nat), P.strata[k + i]? = sts[i]?) →
      (∀ q ∈ execTrace c R P b fuel edb k sts idb, q ∈ tr) → KnownC C P k idb → execStrata c R P b fuel edb k sts idb = .done idb' → KnownC C P (k + sts.length) idb'
  | [], k, idb, idb', _, _, hk, h => by
    simp only [execStrata, Run.done.injEq] at h
    subst h
    exact hk
  | st :: rest, k, idb, idb', hsts, htr, hk, h => by
    have hkst : P.strata[k]? = some st := by simpa using hsts 0
    rw [execStrata] at h
    cases hx : execStratum c R P b fuel st edb idb with
    | outOfFuel => rw [hx] at h; cases h
    | panic => rw [hx] at h; cases h
    | done rs =>
      rw [hx] at h
      simp only [Run.bind] at h
      simp only [execTrace, hx] at htr
      have h1 := hstep k st idb rs hkst (htr _ (by simp)) hk.holds hx
      have h2 := execStratum_outputs hx
      have := execStrata_cond hstep (sts := rest) (k := k + 1)
        (fun i => by have := hsts (i + 1); simpa [Nat.add_assoc, Nat.add_comm 1 i] using this) (fun q hq => htr q (by simp [hq])) ⟨?_, ?_⟩ h
      · rw [List.length_cons, Nat.add_comm rest.length 1, ← Nat.add_assoc]
        exact this
      · intro r a ha
        rcases extendDb_cases ha with h | h
        · exact h1 _ (List.mem_filter.mp h).1
        · exact hk.holds r a h
      · intro j st' r hj hst' hr him hout
        refine extendDb_some ?_
        by_cases hjk : j < k
        · refine Or.inl (hk.has j st' r hjk hst' hr him (hout.imp id ?_))
          rintro ⟨m, st'', hm, h⟩
          exact ⟨m, st'', by omega, h⟩
        · obtain rfl : j = k := by omega
          rw [hkst] at hst'
          cases hst'
          cases hn : idb r with
          | some a => exact Or.inl (by simp)
          | none =>
            have ho : isOutput P b r = true := by
              unfold isOutput
              rcases hout with h | ⟨m, st'', _, hm, hd⟩
              · simp [h]
              · have : P.readLater r = true := by
                  unfold Program.readLater
                  rw [List.any_eq_true]
                  exact ⟨st'', List.mem_of_getElem? hm, by simpa using hd⟩
                simp [this]
            obtain ⟨a, ha⟩ := h2 r hr hn him ho
            refine Or.inr ⟨a, List.mem_filter.mpr ⟨ha, ?_⟩⟩
            unfold kept
            split
            · rename_i hh
              rcases hout with h | ⟨m, st'', hm, hm', hd⟩
              · rw [h] at hh; cases hh
              · obtain ⟨i, hi, hle⟩ := lifespan_ge hm' hd
                rw [hi]
                simp only [decide_eq_true_eq]
                omega
            · rfl

theorem executeFrom_cond [LinearOrder W] {C : String → Coll F T → Prop} {b : Bool} {fuel : Nat} {tr : List (Ram.Stratum F × Db F T)}
    (hstep : ∀ (k : Nat) st idb rs, P.strata[k]? = some st → (st, idb) ∈ tr → (∀ r a, idb r = some a → C r a) →
      execStratum c R P b fuel st (tapAll P edb) idb = .done rs → ∀ q ∈ rs, C q.1 q.2) {idb idb' : Db F T}
    (htr : ∀ q ∈ execTrace c R P b fuel (tapAll P edb) 0 P.strata idb, q ∈ tr)
    (hk : ∀ r a, idb r = some a → C r a) (himm : ∀ r ∈ P.relations, (P.decl r).immutable = true → ∀ a, tapAll P edb r = some a → C r a)
    (h : executeFrom c R P b fuel edb idb = .done idb') {r : String} (hr : r ∈ P.relations) (hv : (P.decl r).hidden = false) :
    ∃ a, idb' r = some a ∧ C r a := by
  unfold executeFrom at h
  split at h
  · cases hx : execStrata c R P b fuel (tapAll P edb) 0 P.strata idb with
    | outOfFuel => rw [hx] at h; cases h
    | panic => rw [hx] at h; cases h
    | done idb1 =>
      rw [hx] at h
      simp only [Run.bind, Run.done.injEq] at h
      subst h
      have hkn := execStrata_cond hstep (sts := P.strata) (k := 0) (fun i => by simp) htr ⟨hk, fun j _ _ h => absurd h (by omega)⟩ hx
      unfold copyOutputs
      cases hi : idb1 r with
      | some a => exact ⟨a, rfl, hkn.holds r a hi⟩
      | none =>
        have him : (P.decl r).immutable = true := by
          by_contra him
          obtain ⟨st, hst, hrs⟩ := List.mem_flatMap.mp hr
          obtain ⟨j, hj⟩ := List.mem_iff_getElem?.mp hst
          have hlt : j < P.strata.length := by
            rcases Nat.lt_or_ge j P.strata.length with h | h
            · exact h
            · rw [List.getElem?_eq_none h] at hj; cases hj
          have := hkn.has j st r (by omega) hj hrs (by simpa using him) (Or.inl hv)
          rw [hi] at this
          cases this
        simp only [hr, hv, decide_true, Bool.not_false, Bool.and_self, if_true]
        have hsome : ∃ a, tapAll P edb r = some a := by
          unfold tapAll
          split
          · exact ⟨_, rfl⟩
          · exact ⟨.sorted [], by simp [hr, him]⟩
        obtain ⟨a, ha⟩ := hsome
        exact ⟨a, ha, himm r hr him a ha⟩
  · cases h

end

/-! ## One stratum -/

section
variable {c : Prov T W} {R : Runtime F T} {P : Program F} {st : Ram.Stratum F} {edb idb inp : Db F T} {J : Interp (Tup (Val F))} {v Q : T → Prop}
  {K : String → String → GroupBy → Prop} {red redB : Aggregates F}

theorem withRed_local {G : Setting F} (h : ({G with red := red} : Setting F).Local) : (G.withRed red).Local := h

theorem InputsIn.full (hi : InputsIn v inp J) {L : Interp (Tup (Val F))} (ht : ∀ r a, inp r = some a → AllTags Q a.elems ∧ ∀ t ∈ tuples a.elems, L r t) :
    ∀ r x, inp r = some x → ∃ l, x = .sorted l ∧ Sorted l ∧ AllTags Q l ∧ (∀ t, t ∈ worldOf v l ↔ J r t) ∧ ∀ t ∈ tuples l, L r t := by
  intro r x hx
  obtain ⟨l, rfl, h1, h2⟩ := hi r x hx
  exact ⟨l, rfl, h1, (ht r _ hx).1, h2, (ht r _ hx).2⟩

/-- The least fixed point in the world is within the model, if the rules are monotone and the inputs are within. -/
theorem setUp_lfp_world_sub
    (ht : ∀ u ∈ st.updates, u.target ∈ st.relations ∧ (P.decl u.target).immutable = false)
    (hs : ∀ u ∈ st.updates, Stratified st.relations u.flow ∧ WellSorted R.X u.flow ∧ ForeignOk R u.flow) (hq : ∀ u ∈ st.updates, KeepsWith K u.flow)
    {b : Bool} {p} (hp : setUp c R P b st edb idb = some p) {J' : Interp (Tup (Val F))} (hin : ∀ inp, stratumInputs P b st edb idb = some inp → InputsIn v inp J')
    (hred : ∀ inp, stratumInputs P b st edb idb = some inp → ∀ a p g, K a p g → ∀ agg bs, R.aggs a = some agg → reduceBatches c agg inp p g = some bs →
      ∀ t, t ∈ worldOf v bs.flatten ↔ red J' a p g t)
    (hle : ∀ u ∈ st.updates, ∀ t, Den (((R.settingIn v).withRed red).world J') u.flow t → Den (((R.settingIn v).withRed red).world J) u.flow t)
    (hJJ : ∀ r ∈ created P st idb, ∀ t, J' r t ↔ J r t)
    (hclosed : (ramLayer ((R.settingIn v).withRed red) st).Closed (edbIn v edb) J J) (r : {r // r ∈ created P st idb}) (t)
    (h : t ∈ (p.inWorld v).lfp unitProv r) : J r.1 t := by
  obtain ⟨inp, hi, e1, e2, _, _, _, _, hu1, hu2⟩ := setUp_spec hp
  have hD : ∀ r ∈ created P st idb, r ∈ st.relations := fun r hr => (mem_created.mp hr).1
  refine h (fun r => {t | J r.1 t}) ⟨?_, ?_⟩
  · intro i facts hf t ht
    simp only [Stratum.inWorld, e2, Option.map_map, Option.map_eq_some_iff, Function.comp] at hf
    obtain ⟨a, ha, rfl⟩ := hf
    rw [tuples_inWorld] at ht
    exact hclosed.1 i.1 (hD i.1 i.2) t ⟨a, ha, ht⟩
  · intro q hq' t hd
    obtain ⟨u, hu, hut, hb⟩ := hu2 q hq'
    simp only [Stratum.inWorld, e1] at hd
    have h1 := (build_sem_world (hin inp hi) hD (fun r hr _ t => (hJJ r hr t).symm) (hred inp hi) (hs u hu).1 (hs u hu).2.2 (hq u hu) hb t).mp hd
    have h3 := hclosed.2 _ ⟨u, hu, rfl⟩ t (by rw [patch_self]; exact hle u hu t h1)
    simp only at h3
    rw [hut] at h3
    exact h3

theorem model_closed {G : Setting F} (hG : G.Local) {facts : Interp (Tup (Val F))} (ht : ∀ u ∈ st.updates, u.target ∈ st.relations ∧ (P.decl u.target).immutable = false)
    (hs : ∀ u ∈ st.updates, Stratified st.relations u.flow)
    (hJ : ∀ r ∈ st.relations, ∀ t, J r t ↔ (ramLayer G st).lfp facts J r t) : (ramLayer G st).Closed facts J J := by
  have hmono := ramLayer_mono hG hs J
  have h1 := Plan.lfp_closed (facts := facts) hmono
  refine ⟨fun q hq t hf => (hJ q hq t).mpr (h1.1 q hq t hf), ?_⟩
  rintro d ⟨u, hu, rfl⟩ t hd
  exact (hJ _ (ht u hu).1 t).mpr (h1.2 _ ⟨u, hu, rfl⟩ t (hmono _ ⟨u, hu, rfl⟩ _ _ (fun q hq t hx => (hJ q hq t).mp hx) t hd))

/-- The least fixed point in the world holds the contents of the model, if the inputs do. -/
theorem setUp_lfp_world
    (ht : ∀ u ∈ st.updates, u.target ∈ st.relations ∧ (P.decl u.target).immutable = false)
    (hs : ∀ u ∈ st.updates, Stratified st.relations u.flow ∧ WellSorted R.X u.flow ∧ ForeignOk R u.flow) (hq : ∀ u ∈ st.updates, KeepsWith K u.flow)
    {b : Bool} {p} (hp : setUp c R P b st edb idb = some p) (hin : ∀ inp, stratumInputs P b st edb idb = some inp → InputsIn v inp J)
    {L : Interp (Tup (Val F))}
    (htg : ∀ inp, stratumInputs P b st edb idb = some inp → ∀ r a, inp r = some a → AllTags Q a.elems ∧ ∀ t ∈ tuples a.elems, L r t) (hloc : ((R.settingIn v).withRed red).Local)
    (hred : RedExact c R Q v L K red)
    (hJ : ∀ r ∈ st.relations, ∀ t, J r t ↔ (ramLayer ((R.settingIn v).withRed red) st).lfp (edbIn v edb) J r t) (r : {r // r ∈ created P st idb}) (t) :
    t ∈ (p.inWorld v).lfp unitProv r ↔ J r.1 t := by
  have hclosed := model_closed hloc ht (fun u hu => (hs u hu).1) hJ
  have hle : ∀ r t, t ∈ (p.inWorld v).lfp unitProv r → J r.1 t :=
    fun r t h => setUp_lfp_world_sub ht hs hq hp hin
      (fun inp hi a p g hk agg bs h1 h2 => (hred a p g hk inp J ((hin inp hi).full (htg inp hi)) agg bs h1 h2).2) (fun _ _ _ h => h) (fun _ _ _ => Iff.rfl) hclosed r t h
  obtain ⟨inp, hi, e1, e2, _, _, _, _, hu1, hu2⟩ := setUp_spec hp
  have hD : ∀ r ∈ created P st idb, r ∈ st.relations := fun r hr => (mem_created.mp hr).1
  have hmono := ramLayer_mono hloc (fun u hu => (hs u hu).1) J
  refine ⟨hle r t, fun h => ?_⟩
  have hc := Scallop.lfp_closed unitProv (p.inWorld v)
  have hsub : ∀ q t, ext ((p.inWorld v).lfp unitProv) J q t → J q t := by
    rintro q t (⟨h, hx⟩ | ⟨_, hx⟩)
    · exact hle _ t hx
    · exact hx
  have hinp : InputsIn v inp (patch st.relations (ext ((p.inWorld v).lfp unitProv) J) J) := by
    intro q a ha
    have hq : q ∉ created P st idb := fun hq => by rw [inputs_created hi hq] at ha; cases ha
    obtain ⟨l, rfl, hl, hl'⟩ := hin inp hi q a ha
    refine ⟨l, rfl, hl, fun t => (hl' t).trans ?_⟩
    by_cases hqs : q ∈ st.relations
    · rw [patch_in hqs]
      exact ⟨fun h => Or.inr ⟨hq, h⟩, hsub q t⟩
    · rw [patch_out hqs]
  have hY := (hJ r.1 (hD r.1 r.2) t).mp h (ext ((p.inWorld v).lfp unitProv) J) ⟨?_, ?_⟩
  · rcases hY with ⟨_, h⟩ | ⟨h, _⟩
    · exact h
    · exact absurd r.2 h
  · intro q hq t hf
    by_cases hqc : q ∈ created P st idb
    · obtain ⟨a, ha, hta⟩ := hf
      refine Or.inl ⟨hqc, hc.1 ⟨q, hqc⟩ (inWorld v a.elems) ?_ (by rw [tuples_inWorld]; exact hta)⟩
      simp [Stratum.inWorld, e2, ha]
    · exact Or.inr ⟨hqc, hclosed.1 q hq t hf⟩
  · rintro d ⟨u, hu, rfl⟩ t hd
    by_cases hcr : u.target ∈ created P st idb
    · have hdyn : u.target ∈ dynRelas st idb := (List.mem_filter.mp hcr).1
      obtain ⟨hcr, d', hb, hmem⟩ := hu1 u hu hdyn
      have h1 := (build_sem_world hinp hD (X := (p.inWorld v).lfp unitProv) (fun q hq _ t => by
        rw [patch_in (hD q hq)]
        constructor
        · exact fun h => Or.inl ⟨hq, h⟩
        · rintro (⟨_, h⟩ | ⟨h, _⟩)
          · exact h
          · exact absurd hq h)
        (fun a p g hk agg bs h1 h2 => (hred a p g hk inp _ (hinp.full (htg inp hi)) agg bs h1 h2).2) (hs u hu).1 (hs u hu).2.2 (hq u hu) hb t).mpr hd
      have h2 := hc.2 _ hmem
      have e : (p.inWorld v).input = fun j => inWorld v (inputOf inp j) := by simp only [Stratum.inWorld, e1]
      rw [e] at h2
      exact Or.inl ⟨hcr, h2 h1⟩
    · refine Or.inr ⟨hcr, ?_⟩
      have h2 := hmono _ ⟨u, hu, rfl⟩ _ J (fun q _ t hx => hsub q t hx) t hd
      exact hclosed.2 _ ⟨u, hu, rfl⟩ t h2

/-- The conditions of the theory of strata. -/
theorem setUp_ok_lists (hm : c.Uniform)
    (hs : ∀ u ∈ st.updates, Stratified st.relations u.flow ∧ WellSorted R.X u.flow ∧ ForeignOk R u.flow) {b : Bool} {p}
    (hp : setUp c R P b st edb idb = some p) (hin : ∀ inp, stratumInputs P b st edb idb = some inp → Lists inp) : p.Ok c := by
  obtain ⟨inp, hi, _⟩ := setUp_spec hp
  refine setUp_ok (J := fun r t => ∃ a, inp r = some a ∧ t ∈ tuples a.elems) hm hs hp (fun inp' hi' => ?_)
  rw [hi] at hi'
  cases hi'
  intro r a ha
  obtain ⟨l, rfl, hl⟩ := hin inp hi r a ha
  exact ⟨l, rfl, hl, fun t => ⟨fun h => ⟨_, ha, h⟩, fun ⟨a', h1, h2⟩ => by rw [ha] at h1; cases h1; exact h2⟩⟩

theorem Program.Plain.with (pl : P.Plain R edb) : P.PlainWith (fun _ _ _ _ => False) (fun _ _ _ _ _ => False) R edb :=
  ⟨by
    obtain ⟨L, h1, h2⟩ := pl.sharp
    exact ⟨L, ⟨h1.facts, h1.rules⟩, fun st hst u hu => ⟨(pl.tags st hst u hu).keeps, h2 st hst u hu⟩⟩, pl.lfp⟩

theorem setUp_plain (hkt : ∀ st ∈ P.strata, ∀ u ∈ st.updates, KeepsWith K u.flow) (hlfp : ∀ r ∈ P.relations, (P.decl r).sched.getD R.sched = .lfp)
    (hst : st ∈ P.strata) {b : Bool} {p} (hp : setUp c R P b st edb idb = some p)
    (hsh : ∀ u ∈ p.updates, u.2.sharp p.input) : p.Plain := by
  obtain ⟨inp, hi, _, _, e3, _, _, _, _, hu2⟩ := setUp_spec hp
  refine ⟨fun q hq => ?_, hsh, fun i => ?_⟩
  · obtain ⟨u, hu, _, hb⟩ := hu2 q hq
    exact build_keepsTags (hkt st hst u hu) hb
  · rw [e3]
    exact hlfp i.1 (List.mem_flatMap.mpr ⟨st, hst, (mem_created.mp i.2).1⟩)

theorem setUp_sharp {L : Interp (Tup (Val F))} (hs : ∀ u ∈ st.updates, Sharp (((R.settingIn (fun _ => True)).withRed redB).world L) u.flow) {b : Bool} {p}
    (hp : setUp c R P b st edb idb = some p) (hin : ∀ inp, stratumInputs P b st edb idb = some inp → Lists inp ∧ Bounded inp L) :
    ∀ u ∈ p.updates, u.2.sharp p.input := by
  obtain ⟨inp, hi, e1, _, _, _, _, _, _, hu2⟩ := setUp_spec hp
  intro q hq
  obtain ⟨u, hu, _, hb⟩ := hu2 q hq
  rw [e1]
  exact build_sharp (hin inp hi).1 (hin inp hi).2 rfl (hs u hu) hb

/-- The least fixed point is within the bound. -/
theorem setUp_lfp_bound {L : Interp (Tup (Val F))} (hf : ∀ u ∈ st.updates, ForeignOk R u.flow) (hq : ∀ u ∈ st.updates, KeepsWith K u.flow)
    (hred : RedBound c R K redB) (hr : ∀ u ∈ st.updates, ∀ t, Den (((R.settingIn (fun _ => True)).withRed redB).world L) (positive u.flow) t → L u.target t) (he : Bounded edb L) {b : Bool} {p}
    (hp : setUp c R P b st edb idb = some p) (hin : ∀ inp, stratumInputs P b st edb idb = some inp → Lists inp ∧ Bounded inp L)
    (r : {r // r ∈ created P st idb}) : ∀ t ∈ p.lfp c r, L r.1 t := by
  obtain ⟨inp, hi, e1, e2, _, _, _, _, _, hu2⟩ := setUp_spec hp
  intro t ht
  refine ht (fun q => {t | L q.1 t}) ⟨?_, ?_⟩
  · intro q facts hfa t ht
    rw [e2] at hfa
    obtain ⟨a, ha, rfl⟩ := Option.map_eq_some_iff.mp hfa
    exact he _ a ha t ht
  · intro q hq' t ht
    obtain ⟨u, hu, hut, hb⟩ := hu2 q hq'
    rw [e1] at ht
    have := hr u hu t (build_sem_bound (hin inp hi).1 (hin inp hi).2 (fun _ _ _ h => h)
      (fun a p g hk agg bs h1 h2 => hred a p g hk inp L (hin inp hi).1 (hin inp hi).2 agg bs h1 h2) (hf u hu) (hq u hu) hb t ht)
    rw [Set.mem_setOf_eq, ← hut]
    exact this

theorem setUp_noMinus (hn : P.NoMinus) (hst : st ∈ P.strata) {b : Bool} {p} (hp : setUp c R P b st edb idb = some p) : ∀ u ∈ p.updates, u.2.noMinus := by
  obtain ⟨inp, hi, _, _, _, _, _, _, _, hu2⟩ := setUp_spec hp
  intro q hq
  obtain ⟨u, hu, _, hb⟩ := hu2 q hq
  exact build_noMinus (hn st hst u hu) hb

theorem fromVec_allTags (hc : c.ExactAt Q v) {l : List (Elem (Tup (Val F)) T)} (h : AllTags Q l) : AllTags Q (fromVec c l) := by
  rw [allTags_iff] at h ⊢
  exact (fromVec_sound hc.notIn l).trans h

/-- Contents of a collection in the world, with tags in `Q` and tuples in `L`. -/
def HoldsIn (v Q : T → Prop) (J L : Interp (Tup (Val F))) (r : String) (a : Coll F T) : Prop :=
  ∃ l, a = .sorted l ∧ Sorted l ∧ AllTags Q l ∧ (∀ t, t ∈ worldOf v l ↔ J r t) ∧ ∀ t ∈ tuples l, L r t

theorem execStratum_world [LinearOrder W] (hm : c.Uniform) (hc : c.ExactAt Q v) (ok : P.Ok R)
    (hkt : ∀ st ∈ P.strata, ∀ u ∈ st.updates, KeepsWith K u.flow) (hlfp : ∀ r ∈ P.relations, (P.decl r).sched.getD R.sched = .lfp)
    (hloc : ((R.settingIn v).withRed red).Local) {L : Interp (Tup (Val F))} (hred : RedExact c R Q v L K red) (hredB : RedBound c R K redB)
    (hL : P.BoundWith redB R edb₀ L) (hsh : ∀ st ∈ P.strata, ∀ u ∈ st.updates, Sharp (((R.settingIn (fun _ => True)).withRed redB).world L) u.flow)
    (hR : R.TagsIn Q)
    (hneg : (c.NegSoundAt v ∧ c.NegExactAt Q v) ∨ P.NoMinus) (hkeep : R.earlyDiscard = true → ∀ t, c.discard t = true → ¬ v t)
    (hlim : R.iterLimit = none) (hgoal : R.stopAtGoal = false) (hst : st ∈ P.strata)
    (hedb : ∀ r a, edb r = some a → AllTags Q a.elems) (hedbL : Bounded edb L) {b : Bool}
    (hin : ∀ inp, stratumInputs P b st edb idb = some inp → ∀ r a, inp r = some a → HoldsIn v Q J L r a)
    (hJ : ∀ r ∈ st.relations, ∀ t, J r t ↔ (ramLayer ((R.settingIn v).withRed red) st).lfp (edbIn v edb) J r t)
    (hq : (c.ExactAt (fun _ => True) v ∧ c.LinearAt v) ∨ ∀ p, setUp c R P b st edb idb = some p → ∀ s, p.Reached c s → ∀ i, (s.rel i).noGallop c)
    {fuel rs} (h : execStratum c R P b fuel st edb idb = .done rs) : ∀ q ∈ rs, HoldsIn v Q J L q.1 q.2 := by
  rcases execStratum_done h with ⟨_, rfl⟩ | ⟨p, s, hp, hrun, hres⟩
  · simp
  have hfl := ok.flow st hst
  have hlists : ∀ inp, stratumInputs P b st edb idb = some inp → Lists inp := by
    intro inp hi r a ha
    obtain ⟨l, h1, h2, _⟩ := hin inp hi r a ha
    exact ⟨l, h1, h2⟩
  have hworld : ∀ inp, stratumInputs P b st edb idb = some inp → InputsIn v inp J := by
    intro inp hi r a ha
    obtain ⟨l, h1, h2, _, h3, _⟩ := hin inp hi r a ha
    exact ⟨l, h1, h2, h3⟩
  have hbound : ∀ inp, stratumInputs P b st edb idb = some inp → Lists inp ∧ Bounded inp L := by
    refine fun inp hi => ⟨hlists inp hi, fun r a ha => ?_⟩
    obtain ⟨l, rfl, _, _, _, h⟩ := hin inp hi r a ha
    exact h
  obtain ⟨inp, hi, e1, e2, _, e4, e5, e6, _, hu2⟩ := setUp_spec hp
  have htg : ∀ inp, stratumInputs P b st edb idb = some inp → ∀ r a, inp r = some a → AllTags Q a.elems ∧ ∀ t ∈ tuples a.elems, L r t := by
    intro inp hi r a ha
    obtain ⟨l, rfl, _, h, _, h'⟩ := hin inp hi r a ha
    exact ⟨h, h'⟩
  have hpi : p.InputsIn Q := by
    intro q hq
    obtain ⟨u, hu, _, hb⟩ := hu2 q hq
    rw [e1]
    exact build_readsOnly (hlists inp hi) (fun r a ha => (htg inp hi r a ha).1) hR
      (fun a p g hk agg bs h1 h2 => (hred a p g hk inp J ((hworld inp hi).full (htg inp hi)) agg bs h1 h2).1) (hkt st hst u hu) hb
  have hw := c81_worlds_partial c hc p (setUp_ok_lists hm hfl hp hlists) (setUp_plain hkt hlfp hst hp (setUp_sharp (hsh st hst) hp hbound))
    (by unfold Stratum.keepsIn; rw [e6]; exact hkeep) hpi
    (by
      intro i facts hf
      rw [e2] at hf
      obtain ⟨a, ha, rfl⟩ := Option.map_eq_some_iff.mp hf
      exact hedb i.1 a ha)
    (fun u hu => hneg.imp id (fun hn => setUp_noMinus hn hst hp u hu)) (by rw [e4]; exact hlim) (by rw [e5]; exact hgoal)
    (hq.imp id (fun h => h p hp)) fuel s hrun
  unfold stratumResult at hres
  obtain ⟨_, h2⟩ := mapM_mem hres
  intro q hq
  obtain ⟨r, _, he⟩ := h2 q hq
  obtain ⟨l, hl, he⟩ := Option.bind_eq_some_iff.mp he
  obtain ⟨a, ha, rfl⟩ := Option.map_eq_some_iff.mp he
  obtain ⟨res, hr, hsrt, htag, hwo⟩ := hw r
  rw [hl] at hr
  cases hr
  have hrel : r.1 ∈ P.relations := List.mem_flatMap.mpr ⟨st, hst, (mem_created.mp r.2).1⟩
  unfold Coll.make at ha
  rw [ok.storage r.1 hrel] at ha
  simp only [Bool.false_eq_true, if_false] at ha
  cases ha
  refine ⟨_, rfl, fromVec_sorted c _, fromVec_allTags hc htag, fun t => ?_, fun t ht => ?_⟩
  · have he : worldOf v (fromVec c l) = worldOf v l := Set.Subset.antisymm (fromVec_sound hc.add l) (fromVec_exact hc l htag)
    rw [he, hwo]
    exact setUp_lfp_world (ok.target st hst) hfl (hkt st hst) hp hworld htg hloc hred hJ r t
  · rw [tuples_fromVec] at ht
    exact setUp_lfp_bound (fun u hu => (hfl u hu).2.2) (hkt st hst) hredB (hL.rules st hst) hedbL hp hbound r t
      ((c16_sound c p (setUp_ok_lists hm hfl hp hlists) fuel s hrun r l hl).2 ht)

/-- Contents of a collection in the world are within the interpretation. -/
def WithinIn (v : T → Prop) (J : Interp (Tup (Val F))) (r : String) (a : Coll F T) : Prop :=
  ∃ l, a = .sorted l ∧ Sorted l ∧ ∀ t, t ∈ worldOf v l → J r t

omit [LinearOrder (Val F)] in
theorem noMinus_reads : ∀ {d : Ram.Dataflow F}, NoMinus d → KeepsTags d → Reads (fun _ => True) (fun _ => False) (fun _ => False) d := by
  intro d
  induction d with
  | leaf l => intro _ h; cases l <;> first | trivial | exact h.elim
  | un o d ih =>
    intro h1 h2
    cases o <;> simp only [KeepsTags] at h2
    case joinIndexedVec r => exact ⟨trivial, ih h1 h2⟩
    all_goals exact ih h1 h2
  | bin o d1 d2 ih1 ih2 =>
    intro h1 h2
    cases o <;> simp only [NoMinus] at h1
    all_goals exact ⟨ih1 h1.1 h2.1, ih2 h1.2 h2.2⟩
  | project d e ih => exact fun h1 h2 => ih h1 h2

theorem execStratum_world_sound [LinearOrder W] (hm : c.Uniform) (hc : c.SoundAt v) (ok : P.Ok R) (pl : P.Plain R edb₀) (hn : P.NoMinus) (hst : st ∈ P.strata) {b : Bool}
    (hin : ∀ inp, stratumInputs P b st edb idb = some inp → ∀ r a, inp r = some a → WithinIn v J r a)
    (hJ : ∀ r ∈ st.relations, ∀ t, J r t ↔ (ramLayer (R.settingIn v) st).lfp (edbIn v edb) J r t)
    {fuel rs} (h : execStratum c R P b fuel st edb idb = .done rs) : ∀ q ∈ rs, WithinIn v J q.1 q.2 := by
  rcases execStratum_done h with ⟨_, rfl⟩ | ⟨p, s, hp, hrun, hres⟩
  · simp
  have hfl := ok.flow st hst
  have hlists : ∀ inp, stratumInputs P b st edb idb = some inp → Lists inp := by
    intro inp hi r a ha
    obtain ⟨l, h1, h2, _⟩ := hin inp hi r a ha
    exact ⟨l, h1, h2⟩
  obtain ⟨inp, hi, _⟩ := setUp_spec hp
  unfold stratumResult at hres
  obtain ⟨_, h2⟩ := mapM_mem hres
  intro q hq
  obtain ⟨r, _, he⟩ := h2 q hq
  obtain ⟨l, hl, he⟩ := Option.bind_eq_some_iff.mp he
  obtain ⟨a, ha, rfl⟩ := Option.map_eq_some_iff.mp he
  obtain ⟨hsrt, hwo⟩ := c81_sound c hc p (setUp_ok_lists hm hfl hp hlists) (setUp_plain (K := fun _ _ _ => False) (fun st hst u hu => (pl.tags st hst u hu).keeps) pl.lfp hst hp (fun u hu => (setUp_noMinus hn hst hp u hu).sharp)) (fun u hu => .inr (setUp_noMinus hn hst hp u hu)) fuel s hrun r l hl
  have hrel : r.1 ∈ P.relations := List.mem_flatMap.mpr ⟨st, hst, (mem_created.mp r.2).1⟩
  unfold Coll.make at ha
  rw [ok.storage r.1 hrel] at ha
  simp only [Bool.false_eq_true, if_false] at ha
  cases ha
  refine ⟨_, rfl, fromVec_sorted c _, fun t ht => ?_⟩
  have h3 := hwo (fromVec_sound hc.add l ht)
  refine setUp_lfp_world_sub (J := J) (J' := fun r t => (∃ a, inp r = some a ∧ t ∈ worldOf v a.elems) ∨ inp r = none ∧ J r t)
    (ok.target st hst) hfl (K := fun _ _ _ => False) (fun u hu => (pl.tags st hst u hu).keeps) hp ?_ (fun _ _ _ _ _ h => h.elim) ?_ ?_ (model_closed (settingIn_local v R) (ok.target st hst) (fun u hu => (hfl u hu).1) hJ) r t h3
  · intro inp' hi'
    rw [hi] at hi'
    cases hi'
    intro r a ha
    obtain ⟨l, rfl, hl, _⟩ := hin inp hi r a ha
    refine ⟨l, rfl, hl, fun t => ⟨fun h => .inl ⟨_, ha, h⟩, ?_⟩⟩
    rintro (⟨a', h1, h2⟩ | ⟨h1, _⟩)
    · rw [ha] at h1; cases h1; exact h2
    · rw [ha] at h1; cases h1
  · intro u hu t
    refine den_mono (settingIn_local v R) (fun q _ t h => ?_) (fun _ h => h.elim) (fun _ h => h.elim) (noMinus_reads (hn st hst u hu) (pl.tags st hst u hu)) t
    rcases h with ⟨a, h1, h2⟩ | ⟨_, h⟩
    · obtain ⟨l, rfl, _, h⟩ := hin inp hi q a h1
      exact h t h2
    · exact h
  · intro q hq t
    have := inputs_created hi hq
    simp [this]

end

/-! ## Programs -/

section
variable {c : Prov T W} {R : Runtime F T} {P : Program F} {edb : Db F T} {J : Interp (Tup (Val F))} {v Q : T → Prop}

omit [LinearOrder (Val F)] in
theorem edbIn_tapAll (P : Program F) (edb : Db F T) : edbIn v (tapAll P edb) = edbIn v edb := by
  funext r t
  apply propext
  unfold edbIn tapAll
  cases h : edb r with
  | some a => simp
  | none =>
    simp only
    split <;> simp [Coll.elems, worldOf]

/-- Immutable relations hold their facts. -/
theorem model_immutable_gen (ok : P.Ok R) {G : Setting F} {facts} (hJ : StratModel facts (P.strata.map (ramLayer G)) J) :
    ∀ r ∈ P.relations, (P.decl r).immutable = true → ∀ t, J r t ↔ facts r t := by
  intro r hr hi t
  obtain ⟨st, hst, hr⟩ := List.mem_flatMap.mp hr
  rw [hJ _ (List.mem_map.mpr ⟨st, hst, rfl⟩) r hr t]
  constructor
  · intro h
    refine (h (fun r t => (P.decl r).immutable = true → facts r t) ⟨fun _ _ _ h _ => h, ?_⟩) hi
    rintro d ⟨u, hu, rfl⟩ t _ him
    simp only at him
    rw [(ok.target st hst u hu).2] at him
    cases him
  · exact fun h X hX => hX.1 r hr t h

theorem deps_relations (ok : P.Ok R) {k : Nat} {st : Ram.Stratum F} (hkst : P.strata[k]? = some st) : ∀ r ∈ stratumDeps st, r ∈ P.relations := by
  intro r hr
  obtain ⟨u, hu, hr'⟩ := List.mem_flatMap.mp (List.mem_filter.mp hr).1
  obtain ⟨j, st', _, hst', hr''⟩ := ok.reads k st u hkst hu r hr'
  exact List.mem_flatMap.mpr ⟨st', List.mem_of_getElem? hst', hr''⟩

theorem layers_layered_gen {G : Setting F} (hG : G.Local) (ok : P.Ok R) : Layered [] (P.strata.map (ramLayer G)) := by
  refine layered_of_index ?_
  intro k L hL
  obtain ⟨st, hst, rfl⟩ := get_map hL
  have hmem := List.mem_of_getElem? hst
  refine ⟨?_, ?_, ramLayer_mono hG (fun u hu => (ok.flow st hmem u hu).1), ?_⟩
  · rintro d ⟨u, hu, rfl⟩
    exact (ok.target st hmem u hu).1
  · intro p hp
    refine ⟨by simp, ?_⟩
    intro j L' hj hL' hp'
    obtain ⟨st', hst', rfl⟩ := get_map hL'
    exact absurd (ok.once j k st' st p hst' hst hp' hp) (Nat.ne_of_lt hj)
  · rintro d ⟨u, hu, rfl⟩ J J' hJ t
    have hd : ∀ r ∈ flowDeps u.flow, ∀ t, J r t ↔ J' r t := by
      intro r hr
      obtain ⟨j, st', hj, hst', hr'⟩ := ok.reads k st u hst hu r hr
      exact hJ r (Or.inr ⟨j, ramLayer G st', hj, by simp only [List.getElem?_map, hst', Option.map_some], hr'⟩)
    have := stratified_reads (ok.flow st hmem u hu).1 (P := fun r => r ∈ flowDeps u.flow) (N := fun r => r ∈ flowDeps u.flow) (fun _ h => h) (fun _ h _ => h)
    exact den_congr hG hd hd hd this t

omit [LinearOrder (Val F)] in
theorem tapAll_cond {C : String → Coll F T → Prop} (hC : ∀ r a, edb r = some a → C r a) (hn : ∀ r, edb r = none → C r (.sorted [])) :
    ∀ r a, tapAll P edb r = some a → C r a := by
  intro r a ha
  unfold tapAll at ha
  split at ha
  · rename_i b hb
    cases ha
    exact hC r _ hb
  · rename_i hb
    split at ha
    · cases ha; exact hn r hb
    · cases ha

theorem executeFrom_worldWith [LinearOrder W] {K : Interp (Tup (Val F)) → String → String → GroupBy → Prop} {red redB : Aggregates F} (hm : c.Uniform) (hc : c.ExactAt Q v) (ok : P.Ok R)
    (pl : P.PlainWith K redB R edb) (hloc : ((R.settingIn v).withRed red).Local) (hred : ∀ L, RedExact c R Q v L (K L) red) (hredB : ∀ L, RedBound c R (K L) redB) (hR : R.TagsIn Q)
    (hneg : (c.NegSoundAt v ∧ c.NegExactAt Q v) ∨ P.NoMinus) (hkeep : R.earlyDiscard = true → ∀ t, c.discard t = true → ¬ v t)
    (hlim : R.iterLimit = none) (hgoal : R.stopAtGoal = false)
    (hedb : ∀ r a, edb r = some a → ∃ l, a = .sorted l ∧ Sorted l ∧ AllTags Q l) {b : Bool} {fuel : Nat}
    (hq : (c.ExactAt (fun _ => True) v ∧ c.LinearAt v) ∨ QuietRun c R P b fuel edb)
    (hJ : StratModel (edbIn v edb) (P.strata.map (ramLayer ((R.settingIn v).withRed red))) J) {idb : Db F T}
    (h : executeFrom c R P b fuel edb (fun _ => none) = .done idb) {r : String} (hr : r ∈ P.relations) (hv : (P.decl r).hidden = false) :
    ∃ l, idb r = some (.sorted l) ∧ Sorted l ∧ AllTags Q l ∧ ∀ t, t ∈ worldOf v l ↔ J r t := by
  obtain ⟨L, hL, hfl⟩ := pl.flows
  have htapL : Bounded (tapAll P edb) L :=
    tapAll_cond (C := fun r a => ∀ t ∈ tuples a.elems, L r t)
      (fun r a ha t ht => hL.facts r t ⟨a, ha, ht.imp fun e he => ⟨he.1, he.2, trivial⟩⟩) (fun _ _ t ht => by simp [Coll.elems, tuples] at ht)
  have htap : ∀ r a, tapAll P edb r = some a → ∃ l, a = .sorted l ∧ Sorted l ∧ AllTags Q l :=
    tapAll_cond hedb (fun _ _ => ⟨[], rfl, List.Pairwise.nil, by simp [AllTags]⟩)
  have himm : ∀ r ∈ P.relations, (P.decl r).immutable = true → ∀ a, tapAll P edb r = some a → HoldsIn v Q J L r a := by
    intro r hr hi a ha
    obtain ⟨l, rfl, h1, h2⟩ := htap r a ha
    refine ⟨l, rfl, h1, h2, fun t => ?_, htapL r _ ha⟩
    rw [model_immutable_gen ok hJ r hr hi t, ← edbIn_tapAll P edb]
    exact ⟨fun h => ⟨_, ha, h⟩, fun ⟨a', h1, h2⟩ => by rw [ha] at h1; cases h1; exact h2⟩
  obtain ⟨a, ha, l, rfl, h3, h4, h5, _⟩ := executeFrom_cond (C := HoldsIn v Q J L) (tr := execTrace c R P b fuel (tapAll P edb) 0 P.strata (fun _ => none))
    (by
      intro k st idb rs hk htr hidb hx
      have hst := List.mem_of_getElem? hk
      refine execStratum_world hm hc ok (fun st hst u hu => (hfl st hst u hu).1) pl.lfp hloc (hred L) (hredB L) hL (fun st hst u hu => (hfl st hst u hu).2) hR hneg hkeep hlim hgoal hst ?_ htapL (fun inp hi => inputs_cond hidb himm hst (deps_relations ok hk) hi) ?_ ?_ hx
      · intro r a ha
        obtain ⟨l, rfl, _, h⟩ := htap r a ha
        exact h
      · rw [edbIn_tapAll]
        exact fun r hr t => hJ _ (List.mem_map.mpr ⟨st, hst, rfl⟩) r hr t
      · exact hq.imp id (fun h p hp => h _ htr p hp))
    (fun _ h => h) (fun _ _ h => by cases h) himm h hr hv
  exact ⟨l, ha, h3, h4, h5⟩

theorem executeFrom_world [LinearOrder W] (hm : c.Uniform) (hc : c.ExactAt Q v) (ok : P.Ok R) (pl : P.Plain R edb) (hR : R.TagsIn Q)
    (hneg : (c.NegSoundAt v ∧ c.NegExactAt Q v) ∨ P.NoMinus) (hkeep : R.earlyDiscard = true → ∀ t, c.discard t = true → ¬ v t)
    (hlim : R.iterLimit = none) (hgoal : R.stopAtGoal = false)
    (hedb : ∀ r a, edb r = some a → ∃ l, a = .sorted l ∧ Sorted l ∧ AllTags Q l) {b : Bool} {fuel : Nat}
    (hq : (c.ExactAt (fun _ => True) v ∧ c.LinearAt v) ∨ QuietRun c R P b fuel edb)
    (hJ : StratModel (edbIn v edb) (P.strata.map (ramLayer (R.settingIn v))) J) {idb : Db F T}
    (h : executeFrom c R P b fuel edb (fun _ => none) = .done idb) {r : String} (hr : r ∈ P.relations) (hv : (P.decl r).hidden = false) :
    ∃ l, idb r = some (.sorted l) ∧ Sorted l ∧ AllTags Q l ∧ ∀ t, t ∈ worldOf v l ↔ J r t :=
  executeFrom_worldWith (red := fun _ _ _ _ _ => False) hm hc ok pl.with (settingIn_local v R) (fun _ _ _ _ h => h.elim) (fun _ _ _ _ h => h.elim) hR hneg hkeep hlim hgoal hedb
    hq hJ h hr hv

theorem executeFrom_world_sound [LinearOrder W] (hm : c.Uniform) (hc : c.SoundAt v) (ok : P.Ok R) (pl : P.Plain R edb) (hn : P.NoMinus)
    (hedb : ∀ r a, edb r = some a → ∃ l, a = .sorted l ∧ Sorted l) {b : Bool} {fuel : Nat}
    (hJ : StratModel (edbIn v edb) (P.strata.map (ramLayer (R.settingIn v))) J) {idb : Db F T}
    (h : executeFrom c R P b fuel edb (fun _ => none) = .done idb) {r : String} (hr : r ∈ P.relations) (hv : (P.decl r).hidden = false) :
    ∃ l, idb r = some (.sorted l) ∧ Sorted l ∧ ∀ t, t ∈ worldOf v l → J r t := by
  have htap : ∀ r a, tapAll P edb r = some a → ∃ l, a = .sorted l ∧ Sorted l :=
    tapAll_cond hedb (fun _ _ => ⟨[], rfl, List.Pairwise.nil⟩)
  have himm : ∀ r ∈ P.relations, (P.decl r).immutable = true → ∀ a, tapAll P edb r = some a → WithinIn v J r a := by
    intro r hr hi a ha
    obtain ⟨l, rfl, h1⟩ := htap r a ha
    refine ⟨l, rfl, h1, fun t => ?_⟩
    rw [model_immutable_gen ok hJ r hr hi t, ← edbIn_tapAll P edb]
    exact fun h => ⟨_, ha, h⟩
  obtain ⟨a, ha, l, rfl, h3⟩ := executeFrom_cond (C := WithinIn v J) (tr := execTrace c R P b fuel (tapAll P edb) 0 P.strata (fun _ => none))
    (by
      intro k st idb rs hk htr hidb hx
      have hst := List.mem_of_getElem? hk
      refine execStratum_world_sound hm hc ok pl hn hst (fun inp hi => inputs_cond hidb himm hst (deps_relations ok hk) hi) ?_ hx
      rw [edbIn_tapAll]
      exact fun r hr t => hJ _ (List.mem_map.mpr ⟨st, hst, rfl⟩) r hr t)
    (fun _ h => h) (fun _ _ h => by cases h) himm h hr hv
  exact ⟨l, ha, h3⟩

end

/-! ## Checking that scans do not gallop, in concrete executions -/

section
variable [LinearOrder W]

/-- Whether no scan gallops in the loop from a state on. -/
def quietLoop {V ι κ : Type*} [LinearOrder V] [Fintype ι] [DecidableEq ι] (c : Prov T W) (p : Scallop.Stratum V T ι κ) : Nat → IterState V T ι → Bool
  | 0, _ => false
  | fuel + 1, s =>
    decide (∀ i, ∀ b ∈ (if (s.rel i).recent.isEmpty then (s.rel i).stable else (mergeIntoStable c (s.rel i).recent (s.rel i).stable.reverse).reverse),
      (condense c (s.rel i).toAdd.reverse).length ≤ 4 * b.length ∨ b.length ≤ 1) &&
    match needToIterate c p s with
    | none => true
    | some (_, false) => true
    | some (s', true) =>
      match iterBody c p s' with
      | none => true
      | some s'' => quietLoop c p fuel s''

theorem quietLoop_reached {V ι κ : Type*} [LinearOrder V] [Fintype ι] [DecidableEq ι] {c : Prov T W} {p : Scallop.Stratum V T ι κ} {fuel : Nat}
    (h : quietLoop c p fuel (p.init c) = true) {s : IterState V T ι} (hs : p.Reached c s) (i : ι) : (s.rel i).noGallop c := by
  have key : ∃ f, quietLoop c p f s = true := by
    induction hs with
    | init => exact ⟨_, h⟩
    | step _ h1 h2 ih =>
      obtain ⟨f, hf⟩ := ih
      cases f with
      | zero => cases hf
      | succ f =>
        simp only [quietLoop, h1, h2, Bool.and_eq_true] at hf
        exact ⟨f, hf.2⟩
  obtain ⟨f, hf⟩ := key
  cases f with
  | zero => cases hf
  | succ f =>
    simp only [quietLoop, Bool.and_eq_true, decide_eq_true_eq] at hf
    exact hf.1 i

/-- Whether no scan gallops in an execution. -/
def quietRun (c : Prov T W) (R : Runtime F T) (P : Program F) (incremental : Bool) (fuel : Nat) (edb : Db F T) : Bool :=
  (execTrace c R P incremental fuel (tapAll P edb) 0 P.strata (fun _ => none)).all fun q =>
    match setUp c R P incremental q.1 (tapAll P edb) q.2 with
    | none => true
    | some p => quietLoop c p fuel (p.init c)

theorem quietRun_spec {c : Prov T W} {R : Runtime F T} {P : Program F} {b : Bool} {fuel : Nat} {edb : Db F T} (h : quietRun c R P b fuel edb = true) :
    QuietRun c R P b fuel edb := by
  intro q hq p hp s hs i
  have := List.all_eq_true.mp h q hq
  rw [hp] at this
  exact quietLoop_reached this hs i

end

end Scallop.Exec
