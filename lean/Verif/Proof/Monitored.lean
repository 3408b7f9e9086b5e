import Verif.Spec.Monitored

/-!
# Lemmas for C119
-/

namespace Scallop

section
variable {V T W ι κ : Type*} [LinearOrder V] [LinearOrder W] [Fintype ι] [DecidableEq ι]

theorem needToIterateM_eq (c : Prov T W) (p : Stratum V T ι κ) (s : IterState V T ι) :
    needToIterate c p s = (needToIterateM c p s).map (fun x => (x.1, x.2.1)) := by
  unfold needToIterate needToIterateM
  cases hc : changedAll c p.sched s.rel with
  | none => rfl
  | some q =>
    obtain ⟨rel, ch⟩ := q
    simp only
    split
    · split
      · cases changedAll c p.sched rel <;> rfl
      · split
        · cases changedAll c p.sched rel <;> rfl
        · rfl
    · split <;> rfl

theorem runLoopM_eq (c : Prov T W) (p : Stratum V T ι κ) : ∀ (fuel : Nat) (s : IterState V T ι), (runLoopM c p fuel s).1 = runLoop c p fuel s
  | 0, _ => rfl
  | fuel + 1, s => by
    unfold runLoopM runLoop
    rw [needToIterateM_eq]
    cases h : needToIterateM c p s with
    | none => rfl
    | some q =>
      obtain ⟨s', b, es⟩ := q
      cases b with
      | false => rfl
      | true =>
        simp only [Option.map_some]
        cases iterBody c p s' with
        | none => rfl
        | some s'' => exact runLoopM_eq c p fuel s''

theorem runLoopE_eq (c : Prov T W) (p : Stratum V T ι κ) (ents : IterState V T ι → List (ι × List (Tup V))) (h : ∀ s, ents s = []) :
    ∀ (fuel : Nat) (s : IterState V T ι), runLoopE c p ents fuel s = runLoop c p fuel s
  | 0, _ => rfl
  | fuel + 1, s => by
    unfold runLoopE runLoop
    cases needToIterate c p s with
    | none => rfl
    | some q =>
      obtain ⟨s', b⟩ := q
      cases b with
      | false => rfl
      | true =>
        simp only
        have : iterBodyE c p ents s' = iterBody c p s' := by
          simp only [iterBodyE, h, drainEntities]
          cases iterBody c p s' <;> rfl
        rw [this]
        cases iterBody c p s' with
        | none => rfl
        | some s'' => exact runLoopE_eq c p ents h fuel s''

theorem needToIterateM_go {c : Prov T W} {p : Stratum V T ι κ} {s s' : IterState V T ι} {es} (h : needToIterateM c p s = some (s', true, es)) :
    s'.num = s.num ∧ es = [] := by
  unfold needToIterateM at h
  cases hc : changedAll c p.sched s.rel with
  | none => rw [hc] at h; cases h
  | some q =>
    obtain ⟨rel, ch⟩ := q
    rw [hc] at h
    simp only at h
    split at h
    · split at h
      · cases hc2 : changedAll c p.sched rel <;> rw [hc2] at h <;> simp at h
      · split at h
        · cases hc2 : changedAll c p.sched rel <;> rw [hc2] at h <;> simp at h
        · simp at h; exact ⟨by rw [← h.1], h.2⟩
    · split at h
      · simp at h; exact ⟨by rw [← h.1], h.2⟩
      · simp at h

theorem needToIterateM_stop {c : Prov T W} {p : Stratum V T ι κ} {s s' : IterState V T ι} {es} (h : needToIterateM c p s = some (s', false, es)) :
    s'.num = s.num ∧ ∃ e, es = [e] ∧ Reason c p s' e := by
  unfold needToIterateM at h
  cases hc : changedAll c p.sched s.rel with
  | none => rw [hc] at h; cases h
  | some q =>
    obtain ⟨rel, ch⟩ := q
    rw [hc] at h
    simp only at h
    split at h
    · split at h
      · rename_i hl
        cases hc2 : changedAll c p.sched rel <;> rw [hc2] at h <;> simp at h
        refine ⟨by rw [← h.1], .limit, h.2.symm, ?_⟩
        cases hn : p.iterLimit with
        | none => rw [hn] at hl; simp at hl
        | some n =>
          rw [hn] at hl
          simp at hl
          exact ⟨n, hn, by rw [← h.1]; exact hl⟩
      · split at h
        · rename_i hg
          cases hc2 : changedAll c p.sched rel <;> rw [hc2] at h <;> simp at h
          refine ⟨by rw [← h.1], .goal, h.2.symm, ?_⟩
          simp only [Bool.and_eq_true, goalReached, Bool.not_eq_true', List.isEmpty_eq_false_iff] at hg
          exact ⟨hg.1, hg.2.1⟩
        · simp at h
    · split at h
      · simp at h
      · rename_i hz _
        simp at h
        simp only [Bool.or_eq_true, beq_iff_eq, not_or, Bool.not_eq_true] at hz
        refine ⟨by rw [← h.1], .converging, h.2.symm, by rw [← h.1]; exact Nat.pos_of_ne_zero hz.2, s.rel, ?_⟩
        rw [hc, ← h.1, hz.1]

theorem runLoopM_events (c : Prov T W) (p : Stratum V T ι κ) : ∀ (fuel : Nat) (s s' : IterState V T ι) (es : List LoopEvent),
    runLoopM c p fuel s = (.done s', es) → s.num ≤ s'.num ∧ ∃ e, es = (List.range' s.num (s'.num - s.num)).map .iteration ++ [e] ∧ Reason c p s' e
  | 0, s, s', es, h => by simp [runLoopM] at h
  | fuel + 1, s, s', es, h => by
    unfold runLoopM at h
    cases hn : needToIterateM c p s with
    | none => rw [hn] at h; simp at h
    | some q =>
      obtain ⟨s1, b, es1⟩ := q
      rw [hn] at h
      cases b with
      | false =>
        simp at h
        obtain ⟨rfl, rfl⟩ := h
        obtain ⟨h1, e, h2, h3⟩ := needToIterateM_stop hn
        refine ⟨by omega, e, ?_, h3⟩
        rw [h1]; simp [h2]
      | true =>
        obtain ⟨h1, rfl⟩ := needToIterateM_go hn
        simp only [List.nil_append] at h
        cases hb : iterBody c p s1 with
        | none => rw [hb] at h; simp at h
        | some s2 =>
          rw [hb] at h
          simp only [Prod.mk.injEq] at h
          have hnum : s2.num = s1.num + 1 := by
            unfold iterBody at hb
            obtain ⟨r, _, rfl⟩ := Option.map_eq_some_iff.mp hb
            rfl
          obtain ⟨i1, e, i2, i3⟩ := runLoopM_events c p fuel s2 s' (runLoopM c p fuel s2).2 (Prod.ext h.1 rfl)
          refine ⟨by omega, e, ?_, i3⟩
          rw [← h.2, i2, hnum, h1]
          obtain ⟨k, hk⟩ : ∃ k, s'.num - s.num = k + 1 := ⟨s'.num - s.num - 1, by omega⟩
          have hk2 : s'.num - (s.num + 1) = k := by omega
          rw [hk, hk2, List.range'_succ]
          simp

end

namespace Exec

open Scallop.Ram

variable {F T W I O : Type}

theorem hasOutputs_of_used {P : Program F} (h : AllUsed P) {st} (hst : st ∈ P.strata) : hasOutputs P st = true := by
  obtain ⟨r, hr, hv | ⟨st', hs, hd⟩⟩ := h st hst
  · exact List.any_eq_true.mpr ⟨r, hr, by simp [hv]⟩
  · refine List.any_eq_true.mpr ⟨r, hr, ?_⟩
    have : P.readLater r = true := List.any_eq_true.mpr ⟨st', hs, by simpa using hd⟩
    simp [this]

variable [LinearOrder (Val F)]

theorem setUpM_plain (c : Prov T W) (R : Runtime F T) (P : Program F) (inc : Bool) (st : Ram.Stratum F) (edb idb : Db F T) :
    setUpM c R P inc st edb idb = setUp c R P.plain inc st edb idb := rfl

theorem setUpM_eq (c : Prov T W) (R : Runtime F T) (P : Program F) (hP : NoSchedulers P) (inc : Bool) (st : Ram.Stratum F) (hst : st ∈ P.strata) (edb idb : Db F T) :
    setUpM c R P inc st edb idb = setUp c R P inc st edb idb := by
  have : (fun _ => R.sched : {r // r ∈ created P st idb} → Scheduler) = fun r => (P.decl r.1).sched.getD R.sched := by
    funext r
    have hr : r.1 ∈ P.relations := by
      have h1 := r.2
      simp only [created, dynRelas, List.mem_filter] at h1
      exact List.mem_flatMap.mpr ⟨st, hst, h1.1.1⟩
    rw [hP r.1 hr]
    rfl
  unfold setUpM setUp
  rw [this]

variable [LinearOrder W]

theorem execStratumM_eq (c : Prov T W) (R : Runtime F T) (P : Program F) (hP : NoSchedulers P) (inc : Bool) (hu : inc = true ∨ AllUsed P) (fuel : Nat)
    (st : Ram.Stratum F) (hst : st ∈ P.strata) (edb idb : Db F T) :
    execStratumM c R P inc fuel st edb idb = execStratum c R P inc fuel st edb idb := by
  unfold execStratumM execStratum
  split
  · rfl
  · rw [if_neg]
    · rw [setUpM_eq c R P hP inc st hst]
      congr 1
      funext p
      rw [show (p.runM c fuel).1 = p.run c fuel from runLoopM_eq c p fuel _]
      cases p.run c fuel <;> rfl
    · rcases hu with rfl | hu
      · simp
      · simp [hasOutputs_of_used hu hst]

theorem execStrataM_eq (c : Prov T W) (R : Runtime F T) (P : Program F) (hP : NoSchedulers P) (inc : Bool) (hu : inc = true ∨ AllUsed P) (fuel : Nat) (edb : Db F T) :
    ∀ (sts : List (Ram.Stratum F)) (i : Nat) (idb : Db F T), (∀ st ∈ sts, st ∈ P.strata) →
      execStrataM c R P inc fuel edb i sts idb = execStrata c R P inc fuel edb i sts idb
  | [], _, _, _ => rfl
  | st :: sts, i, idb, h => by
    unfold execStrataM execStrata
    rw [execStratumM_eq c R P hP inc hu fuel st (h st (by simp))]
    congr 1
    funext rs
    exact execStrataM_eq c R P hP inc hu fuel edb sts (i + 1) _ (fun st' hs => h st' (by simp [hs]))

theorem strataResultsM_eq (c : Prov T W) (R : Runtime F T) (P : Program F) (hP : NoSchedulers P) (inc : Bool) (hu : inc = true ∨ AllUsed P) (fuel : Nat) (edb idb : Db F T) :
    strataResultsM c R P inc fuel edb idb = Ctx.strataResults c R P inc fuel edb idb := by
  unfold strataResultsM Ctx.strataResults
  split
  · exact execStrataM_eq c R P hP inc hu fuel edb _ _ _ (fun _ h => h)
  · rfl

theorem execStratumM_plain (c : Prov T W) (R : Runtime F T) (P : Program F) (inc : Bool) (fuel : Nat) (st : Ram.Stratum F) (edb idb : Db F T) :
    execStratumM c R P inc fuel st edb idb = execStratumM c R P.plain inc fuel st edb idb := by
  unfold execStratumM
  by_cases h1 : (dynRelas st idb).isEmpty = true
  · rw [if_pos h1, if_pos h1]
  · rw [if_neg h1, if_neg h1]
    by_cases h2 : (!inc && !(created P st idb).isEmpty && !hasOutputs P st) = true
    · rw [if_pos h2, if_pos (show (!inc && !(created P.plain st idb).isEmpty && !hasOutputs P.plain st) = true from h2)]
    · rw [if_neg h2, if_neg (show ¬ (!inc && !(created P.plain st idb).isEmpty && !hasOutputs P.plain st) = true from h2)]
      have hA : setUpM c R P inc st edb idb = setUpM c R P.plain inc st edb idb := rfl
      have hC : ∀ (D : List String) (s : IterState (Val F) T {r // r ∈ D}), stratumResult c P inc s = stratumResult c P.plain inc s := fun D s => rfl
      have hB : ∀ p : Stratum (Val F) T {r // r ∈ created P st idb} (Key F T), p.runM c fuel = Stratum.runM (ι := {r // r ∈ created P.plain st idb}) c p fuel := fun p => rfl
      refine (congrArg (fun o => (Run.ofOption o).bind _) hA).trans ?_
      refine congrArg (fun f => (Run.ofOption (setUpM c R P.plain inc st edb idb)).bind f) ?_
      funext p
      rw [← show p.runM c fuel = Stratum.runM (ι := {r // r ∈ created P.plain st idb}) c p fuel from hB p]
      cases (p.runM c fuel).1 with
      | outOfFuel => rfl
      | panic => rfl
      | done s => exact congrArg Run.ofOption (hC _ s)

/-- Relations that are recovered or not empty are recovered in the same way with a monitor. -/
theorem recoverM_eq {F T I O : Type} (b : Boundary F T I O) (d : Bool) (x : IRel F T O) (h : x.recovered = true ∨ x.internal.elems ≠ []) :
    (x.recoverM b d).1 = x.recover b d := by
  unfold IRel.recoverM IRel.recover
  cases hr : x.recovered with
  | true => simp
  | false =>
    have : x.internal.elems.isEmpty = false := by
      rcases h with h | h
      · rw [hr] at h; cases h
      · simpa using h
    simp [this]
    cases d <;> cases x.internal <;> rfl

end Exec

end Scallop
