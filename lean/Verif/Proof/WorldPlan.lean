import Verif.Proof.CompileOk
import Verif.Spec.WorldExec

/-!
# The dataflows of plans keep tags, and what they subtract has each tuple once
-/

namespace Scallop.Plan

open Scallop.Back Scallop.Ram Scallop.Exec

variable {F : Type}

/-- What is required of a dataflow. -/
structure Tame (W : World F) (d : Dataflow F) : Prop where
  tags : KeepsTags d
  sharp : Sharp W d

/-- The same for the dataflows of the relations asked for. -/
def St.Tame (W : World F) (s : St F) : Prop := ∀ n d, (n, d) ∈ s.temps ∨ (n, d) ∈ s.negs → Plan.Tame W d

/-- The relations asked for hold at most what can be derived for them without subtraction. -/
structure Supported (W : World F) (s : St F) : Prop where
  temps : ∀ n d, (n, d) ∈ s.temps → ∀ t, W.I n t → Den W (positive d) t
  negs : ∀ n d, (n, d) ∈ s.negs → ∀ t, W.I n t → Den W (positive d) t
  perms : ∀ p π, (p, π) ∈ s.perms → ∀ t, W.I (permName p π) t → ∃ u e, W.I p u ∧ permExpr π = some e ∧ e.eval W.X u = .ok t

theorem Supported.mono {W : World F} {s s' : St F} (h : St.Le s s') (hs : Supported W s') : Supported W s :=
  ⟨fun n d hd => hs.temps n d (h.1 _ hd), fun n d hd => hs.negs n d (h.2 _ hd), fun p π hp => hs.perms p π (h.3 _ hp)⟩

/-- The tuples that can be derived without subtraction are of the form of the goal. -/
def Shaped (W : World F) (d : Dataflow F) (g : VTuple) : Prop := ∀ t, Den W (positive d) t → ∃ σ, Rep g σ t

theorem Shaped.project {W : World F} {d : Dataflow F} {g g'} {e : Expr F} (h : Shaped W d g) (he : projection g g' = some e) : Shaped W (.project d e) g' := by
  rintro t ⟨u, hu, hev⟩
  obtain ⟨σ, hr⟩ := h u hu
  rw [eval_projection hr he] at hev
  cases hev
  exact ⟨σ, Rep.evalV σ g'⟩

theorem Shaped.createTemp {W : World F} {s : St F} {d : Dataflow F} {g} (h : Shaped W d g) (hs : Supported W (createTemp s d).2) :
    Shaped W (createTemp s d).1 g := fun t ht => h t (hs.temps _ d (by simp [Plan.createTemp]) t ht)

theorem Shaped.createNeg {W : World F} {s : St F} {d : Dataflow F} {g} (h : Shaped W d g) (hs : Supported W (createNeg s d).2) :
    Shaped W (createNeg s d).1 g := fun t ht => h t (hs.negs _ d (by simp [Plan.createNeg]) t ht)

theorem Shaped.process {W : World F} {p : DProp} {s : St F} {d : Dataflow F} {g} (h : Shaped W d g) (hs : Supported W (process p s d).2) :
    Shaped W (process p s d).1 g := by
  unfold Plan.process at hs ⊢
  split at hs
  · rename_i h1
    rw [if_pos h1]
    split at hs
    · rename_i h2
      rw [if_pos h2]
      exact h.createNeg hs
    · rename_i h2
      rw [if_neg h2]
      split at hs
      · rename_i h3
        rw [if_pos h3]
        exact h
      · rename_i h3
        rw [if_neg h3]
        exact h.createTemp hs
  · rename_i h1
    rw [if_neg h1]
    exact h

/-- The result of a translation. -/
structure TameOut (W : World F) (goal : VTuple) (r : Dataflow F × St F) : Prop where
  tame : Tame W r.1
  st : r.2.Tame W
  shaped : Supported W r.2 → Shaped W r.1 goal

section
variable {W : World F} {E : Plan.Env F} {goal : VTuple}

theorem rel_tame (r : String) : Tame W (.leaf (.rel r)) := ⟨trivial, trivial⟩

theorem createTemp_st {s : St F} {d : Dataflow F} (hs : s.Tame W) (hd : Tame W d) : (createTemp s d).2.Tame W := by
  intro n d' h
  simp only [createTemp, List.mem_append, List.mem_singleton, Prod.mk.injEq] at h
  rcases h with (h | ⟨_, rfl⟩) | h
  · exact hs n d' (Or.inl h)
  · exact hd
  · exact hs n d' (Or.inr h)

theorem createNeg_st {s : St F} {d : Dataflow F} (hs : s.Tame W) (hd : Tame W d) : (createNeg s d).2.Tame W := by
  intro n d' h
  simp only [createNeg, List.mem_append, List.mem_singleton, Prod.mk.injEq] at h
  rcases h with h | h | ⟨_, rfl⟩
  · exact hs n d' (Or.inl h)
  · exact hs n d' (Or.inr h)
  · exact hd

theorem process_tame {s : St F} {d : Dataflow F} {p : DProp} (hs : s.Tame W) (hd : Tame W d) (h : Supported W (process p s d).2 → Shaped W d goal) :
    TameOut W goal (process p s d) := by
  refine ⟨?_, ?_, fun hs => (h hs).process hs⟩ <;>
  · rw [process]
    split
    · split
      · first | exact rel_tame _ | exact createNeg_st hs hd
      · split
        · first | exact ⟨hd.tags, hd.sharp⟩ | exact hs
        · first | exact rel_tame _ | exact createTemp_st hs hd
    · first | exact hd | exact hs

/-- Atoms without constants. -/
theorem groundNoConst_tame (hX : W.X.ExactFloats) {a : Atom String F} {p : DProp} {s : St F} {r} (hv : ∀ t ∈ a.args, t.const? = none) (hflat : FlatRel W a)
    (hm : matchesArgs goal a.args = true → (atomVars a).Nodup) (hs : s.Tame W) (h : groundNoConst goal a p s = some r) :
    TameOut W goal r ∧ Static [] r.1 := by
  unfold groundNoConst at h
  by_cases hma : matchesArgs goal a.args = true
  · rw [if_pos hma] at h
    cases h
    refine ⟨⟨rel_tame _, hs, fun _ => ?_⟩, by simp [Static]⟩
    obtain ⟨vs, rfl, hargs⟩ := matchesArgs_eq hma
    have hn : vs.Nodup := by
      have := hm hma
      rwa [atomVars, hargs, filterMap_vars] at this
    intro t ht
    obtain ⟨ws, hl, rfl⟩ := hflat t ht
    obtain ⟨σ, hσ⟩ := exists_asg hn (ws := ws) (by rw [hl, hargs]; simp)
    refine ⟨σ, ?_⟩
    rw [← hσ, ← evalV_vals]
    exact Rep.evalV σ _
  · rw [if_neg hma] at h
    simp only [Option.bind_eq_some_iff] at h
    obtain ⟨⟨π, v'⟩, hp, e, he, f, hf, h⟩ := h
    have hc := groundFilter_corr hX hv hflat hp he hf
    have hsh : Shaped W (.project (filtered f a) e) goal := by
      intro t ht
      have hpos : positive (.project (filtered f a) e) = .project (filtered f a) e := by cases f <;> rfl
      rw [hpos] at ht
      obtain ⟨σ, _, hr⟩ := hc.sound t ht
      exact ⟨σ, hr⟩
    cases f with
    | some c =>
      simp only [filtered] at h hsh
      have hd : Tame W (.project (.un (.filter c) (.leaf (.rel a.predicate))) e) := ⟨trivial, trivial⟩
      split at h
      · simp only [Option.some.injEq] at h
        split at h
        · subst h
          exact ⟨⟨rel_tame _, createNeg_st hs hd, fun hs => hsh.createNeg hs⟩, by simp [Static, createNeg]⟩
        · subst h
          exact ⟨⟨rel_tame _, createTemp_st hs hd, fun hs => hsh.createTemp hs⟩, by simp [Static, createTemp]⟩
      · cases h
        exact ⟨⟨hd, hs, fun _ => hsh⟩, by simp [Static]⟩
    | none =>
      simp only [filtered] at h hsh
      split at h
      · cases h
        refine ⟨⟨rel_tame _, hs, fun hs => ?_⟩, by simp [Static]⟩
        intro t ht
        obtain ⟨u, e', h1, h2, h3⟩ := hs.perms a.predicate π (by simp) t ht
        rw [he] at h2
        cases h2
        exact hsh t ⟨u, h1, h3⟩
      · cases h
        exact ⟨⟨⟨trivial, trivial⟩, hs, fun _ => hsh⟩, by simp [Static]⟩

theorem Shaped.select {d : Dataflow F} {g : VTuple} (h : Shaped W d g) (o : Un F) (ho : ∀ t, Den W (.un o (positive d)) t → Den W (positive d) t) :
    Shaped W (.un o d) g := fun t ht => h t (ho t ht)

/-- Atoms. -/
theorem groundFlow_tame (hX : W.X.ExactFloats) {a : Atom String F} {p : DProp} {s : St F} {r need dup} (hfit : Fits W E (.ground a) need dup)
    (hdup : dup = false → (leaves goal).Nodup) (hs : s.Tame W) (h : groundFlow E goal a p s = some r) : TameOut W goal r := by
  obtain ⟨hflat, hc, hd, hst⟩ := hfit
  unfold groundFlow at h
  by_cases h0 : a.args.isEmpty = true
  · rw [if_pos h0] at h
    have h0' : a.args = [] := by simpa using h0
    have base : Shaped W (.leaf (.rel a.predicate)) (.tup []) := by
      intro t ht
      obtain ⟨vs, hl, rfl⟩ := hflat t ht
      rw [h0'] at hl
      have : vs = [] := by simpa using hl
      subst this
      exact ⟨fun _ => .bool true, Rep.evalV (fun _ => .bool true) (.tup [])⟩
    split at h
    · rename_i hm
      cases h
      refine ⟨rel_tame _, hs, fun _ => ?_⟩
      obtain ⟨vs, rfl, h2⟩ := matchesArgs_eq hm
      rw [h0'] at h2
      have : vs = [] := by simpa using h2.symm
      subst this
      exact base
    · simp only [Option.map_eq_some_iff] at h
      obtain ⟨e, he, rfl⟩ := h
      exact ⟨⟨trivial, trivial⟩, hs, fun _ => base.project he⟩
  · rw [if_neg h0] at h
    by_cases h1 : a.args.any (fun t => t.const?.isSome) = true
    · rw [if_pos h1] at h
      simp only [Option.bind_eq_some_iff] at h
      obtain ⟨st, hst', h⟩ := h
      split at h
      · rename_i h2
        simp only [Bool.and_eq_true, Bool.not_eq_true'] at h2
        simp only [groundStatic, Option.bind_eq_some_iff, Option.map_eq_some_iff] at h
        obtain ⟨r1, h1, es, _, f, _, e, he, rfl⟩ := h
        have hcn : (constArgsFrom 0 a.args).Nodup := constArgs_nodup (hst (by rw [hst', h2.1])) hc
        obtain ⟨m, n⟩ := groundNoConst_tame hX (subAtom_vars a) (subAtom_flat hflat) (fun _ => by rw [subAtom_atomVars]; exact hcn) hs h1
        exact process_tame m.st ⟨m.tame.tags, m.tame.sharp⟩
          (fun hs => ((m.shaped (hs.mono (process_le _ _ _))).select (.filter f) (fun _ h => h.1)).project he)
      · simp only [groundDynamic, Option.bind_eq_some_iff, Option.map_eq_some_iff] at h
        obtain ⟨r1, h1, e, he, rfl⟩ := h
        obtain ⟨m, n⟩ := groundNoConst_tame hX (subAtom_vars a) (subAtom_flat hflat) (by
          intro hm
          obtain ⟨vs, h2, h3⟩ := matchesArgs_eq hm
          simp only [Tup.tup.injEq] at h2
          cases vs with
          | nil => simp at h2
          | cons n vs =>
          cases vs with
          | nil => simp at h2
          | cons x vs =>
          cases vs with
          | cons _ _ => simp at h2
          | nil =>
            simp only [List.map_cons, List.map_nil, List.cons.injEq, and_true] at h2
            have e1 : (constsFrom 0 a.args).map (fun q => constVar q.1) = [n] := by
              have := congrArg leaves h2.1; rwa [leaves_single] at this
            have e2 : atomVars a = [x] := by
              have := congrArg leaves h2.2; rwa [leaves_single] at this
            rw [atomVars, h3, filterMap_vars]
            simp only [List.nodup_cons, List.mem_singleton, List.not_mem_nil, not_false_iff, List.nodup_nil, and_true]
            intro e
            have : n ∈ (constsFrom 0 a.args).map (fun q => constVar q.1) := by rw [e1]; simp
            obtain ⟨q, _, hq⟩ := List.mem_map.mp this
            exact hc q.1 (by rw [hq, e2, e]; simp)) hs h1
        exact process_tame m.st ⟨m.tame.tags, m.tame.sharp⟩
          (fun hs => ((m.shaped (hs.mono (process_le _ _ _))).select (.find _) (fun _ h => h.1)).project he)
    · rw [if_neg h1] at h
      have hv : ∀ t ∈ a.args, t.const? = none := by
        intro t ht
        simp only [List.any_eq_true, not_exists, not_and, Bool.not_eq_true] at h1
        simpa using h1 t ht
      refine (groundNoConst_tame hX hv hflat ?_ hs h).1
      intro hm
      cases dup with
      | true => exact hd rfl hv
      | false =>
        obtain ⟨vs, rfl, h2⟩ := matchesArgs_eq hm
        have := hdup rfl
        rw [leaves_vals] at this
        rw [atomVars, h2, filterMap_vars]
        exact this

/-- A negated atom all of whose variables are asked for. -/
theorem groundFlow_injects (hX : W.X.ExactFloats) {a : Atom String F} {p : DProp} {s : St F} {r} (hflat : FlatRel W a) (hp : p.needSorted = true)
    (hin : p.inPlace = false) (hg : ∀ x ∈ atomVars a, x ∈ leaves goal) (h : groundFlow E goal a p s = some r) : Injects W r.1 := by
  have hproc : ∀ s' (d : Dataflow F), Injects W (process p s' d).1 := by
    intro s' d
    simp only [process, hp, hin, if_true]
    split <;> simp [createNeg, createTemp, Injects]
  unfold groundFlow at h
  by_cases h0 : a.args.isEmpty = true
  · rw [if_pos h0] at h
    have h0' : a.args = [] := by simpa using h0
    split at h
    · cases h
      trivial
    · simp only [Option.map_eq_some_iff] at h
      obtain ⟨e, he, rfl⟩ := h
      refine ⟨trivial, fun t t' u ht ht' _ _ => ?_⟩
      obtain ⟨vs, hl, rfl⟩ := hflat t ht
      obtain ⟨vs', hl', rfl⟩ := hflat t' ht'
      rw [h0'] at hl hl'
      have e1 : vs = [] := by simpa using hl
      have e2 : vs' = [] := by simpa using hl'
      rw [e1, e2]
  · rw [if_neg h0] at h
    by_cases h1 : a.args.any (fun t => t.const?.isSome) = true
    · rw [if_pos h1] at h
      simp only [Option.bind_eq_some_iff] at h
      obtain ⟨st, hst', h⟩ := h
      split at h
      · simp only [groundStatic, Option.bind_eq_some_iff, Option.map_eq_some_iff] at h
        obtain ⟨r1, h1, es, _, f, _, e, he, rfl⟩ := h
        exact hproc _ _
      · simp only [groundDynamic, Option.bind_eq_some_iff, Option.map_eq_some_iff] at h
        obtain ⟨r1, h1, e, he, rfl⟩ := h
        exact hproc _ _
    · rw [if_neg h1] at h
      have hv : ∀ t ∈ a.args, t.const? = none := by
        intro t ht
        simp only [List.any_eq_true, not_exists, not_and, Bool.not_eq_true] at h1
        simpa using h1 t ht
      unfold groundNoConst at h
      split at h
      · cases h
        trivial
      · simp only [Option.bind_eq_some_iff] at h
        obtain ⟨⟨π, v'⟩, hπ, e, he, f, hf, h⟩ := h
        have key : ∀ t, Den W (filtered f a) t → ∃ σ : Asg F, t = flat (a.args.map (Term.val σ)) := by
          intro t ht
          have h2 : W.I a.predicate t ∧ ∀ c, f = some c → c.eval W.X t = .ok (.val (.bool true)) := by
            cases f with
            | none => exact ⟨ht, by simp⟩
            | some c => exact ⟨ht.1, fun c' hc' => by cases hc'; exact ht.2⟩
          obtain ⟨vs, hl, rfl⟩ := hflat t h2.1
          obtain ⟨σ, hσ⟩ := (atomFilter_iff hX hv hf hl).mp h2.2
          exact ⟨σ, by rw [hσ]⟩
        have hinj : ∀ t t' u, Den W (filtered f a) t → Den W (filtered f a) t' → e.eval W.X t = .ok u → e.eval W.X t' = .ok u → t = t' := by
          intro t t' u ht ht' hu hu'
          obtain ⟨σ, rfl⟩ := key t ht
          obtain ⟨τ, rfl⟩ := key t' ht'
          obtain ⟨u1, e1, hr⟩ := permutation_rep (X := W.X) σ hπ he
          obtain ⟨u2, e2, hr'⟩ := permutation_rep (X := W.X) τ hπ he
          rw [hu] at e1
          cases e1
          rw [hu'] at e2
          cases e2
          rw [atom_args_congr]
          intro x hx
          obtain ⟨b, hb⟩ := Option.isSome_iff_exists.mp ((accessorOf_isSome _ _).mpr (hg x hx))
          have h3 := hr.acc x b hb
          rw [hr'.acc x b hb] at h3
          simpa using h3.symm
        cases f with
        | some c =>
          simp only at h
          split at h
          · simp only [Option.some.injEq] at h
            subst h
            split <;> simp [createNeg, createTemp, Injects]
          · cases h
            exact ⟨trivial, hinj⟩
        | none =>
          simp only at h
          split at h
          · cases h
            trivial
          · cases h
            exact ⟨trivial, hinj⟩

/-! ## Operators -/

theorem Shaped.product {d1 d2 : Dataflow F} {g1 g2 : VTuple} (h1 : Shaped W d1 g1) (h2 : Shaped W d2 g2) (hd : ∀ x ∈ leaves g2, x ∉ leaves g1) :
    Shaped W (.bin .product d1 d2) (.tup [g1, g2]) := by
  rintro t ⟨u, v, hu, hv, rfl⟩
  obtain ⟨σ, hr⟩ := h1 u hu
  obtain ⟨τ, hr'⟩ := h2 v hv
  exact ⟨merge (leaves g1) σ τ, Rep.pair (hr.congr (fun x hx => (merge_left hx).symm))
    (hr'.congr (fun x hx => (merge_right (fun h => absurd h (hd x hx))).symm))⟩

theorem Shaped.intersect {d1 d2 : Dataflow F} {g : VTuple} (h1 : Shaped W d1 g) : Shaped W (.bin .intersect d1 d2) g := fun t ht => h1 t ht.1

theorem Shaped.join {d1 d2 : Dataflow F} {k g1 g2 : VTuple} (h1 : Shaped W d1 (.tup [k, g1])) (h2 : Shaped W d2 (.tup [k, g2]))
    (hn1 : (leaves (.tup [k, g1])).Nodup) (hn2 : (leaves (.tup [k, g2])).Nodup) (hd : ∀ x ∈ leaves g2, x ∉ leaves k ∧ x ∉ leaves g1) :
    Shaped W (.bin .join d1 d2) (.tup [k, g1, g2]) := by
  rintro t ⟨kt, u, v, ⟨x, hu, hx0, hx1⟩, ⟨y, hv, hy0, hy1⟩, rfl⟩
  obtain ⟨σ, hr⟩ := h1 _ hu
  obtain ⟨τ, hr'⟩ := h2 _ hv
  have e1 := hr.exact hn1
  have e2 := hr'.exact hn2
  simp only [evalV, evalVs] at e1 e2
  subst e1 e2
  have ek1 : kt = evalV σ k := (Option.some.inj hx0).symm
  obtain rfl : evalV σ g1 = u := Option.some.inj hx1
  obtain rfl : evalV τ g2 = v := Option.some.inj hy1
  refine ⟨merge (leaves k ++ leaves g1) σ τ, ?_⟩
  rw [ek1]
  exact Rep.triple ((Rep.evalV σ k).congr (fun x hx => (merge_left (List.mem_append_left _ hx)).symm))
    ((Rep.evalV σ g1).congr (fun x hx => (merge_left (List.mem_append_right _ hx)).symm))
    ((Rep.evalV τ g2).congr (fun x hx => (merge_right (fun h => by
      rcases List.mem_append.mp h with h | h
      · exact absurd h (hd x hx).1
      · exact absurd h (hd x hx).2)).symm))

theorem Shaped.minus {d1 d2 : Dataflow F} {g : VTuple} (h1 : Shaped W d1 g) : Shaped W (.bin .difference d1 d2) g ∧ Shaped W (.bin .antijoin d1 d2) g :=
  ⟨h1, h1⟩

/-! ## Plans -/

/-- Plans without aggregates and foreign predicates, in which the variables of a negated atom are bound by what it is subtracted from. -/
def CoveredPlan : Plan F → Prop
  | .unit | .ground _ => True
  | .project _ d _ | .filter _ d _ => CoveredPlan d
  | .join d1 d2 => CoveredPlan d1 ∧ CoveredPlan d2
  | .antijoin d1 d2 => CoveredPlan d1 ∧ ∃ a, d2 = .ground a ∧ ∀ x ∈ atomVars a, x ∈ d1.bounded
  | .reduce _ | .fpGround _ _ | .fpConstraint _ _ _ | .fpJoin _ _ _ => False

/-- What holds of the translation of a plan. -/
def GoodTame (W : World F) (E : Plan.Env F) (d : Plan F) (need : String → Prop) (dup : Bool) : Prop :=
  ∀ goal p s r s', p.inPlace = false → (dup = false → (leaves goal).Nodup) → (∀ x ∈ leaves goal, x ∈ d.bounded) →
    (∀ x ∈ d.bounded, need x → x ∈ leaves goal) → s.Tame W → toRam E d goal p s = some (r, s') → TameOut W goal (r, s')

theorem unit_tame {need dup} : GoodTame W E .unit need dup := by
  intro goal p s r s' _ _ _ _ hs h
  simp only [toRam, Option.map_eq_some_iff, Prod.mk.injEq] at h
  obtain ⟨t, ht, rfl, rfl⟩ := h
  refine ⟨⟨trivial, trivial⟩, hs, fun _ => ?_⟩
  rintro u rfl
  refine ⟨fun _ => .bool true, ?_⟩
  rw [(unitValue_evalV (fun _ => .bool true) ht).1]
  exact Rep.evalV _ _

theorem filter_tame (hO : E.Orders) {b d cs need dup} (hf : Fits W E (.filter b d cs) need dup)
    (ih : GoodTame W E d (fun x => (need x ∧ x ∈ b) ∨ ∃ c ∈ cs, x ∈ c.vars) (dup || !decide (cs.flatMap (fun c => uniq c.vars)).Nodup)) :
    GoodTame W E (.filter b d cs) need dup := by
  obtain ⟨h1, h2, h3, h4⟩ := hf
  intro goal p s r s' hp hdup hsub hneed hst h
  simp only [toRam, Option.bind_eq_some_iff, Option.map_eq_some_iff] at h
  obtain ⟨⟨r1, s1⟩, hr1, f, hfe, e, he, h⟩ := h
  have hperm : (cs.flatMap (fun c => E.sortOrder (uniq c.vars))).Perm (cs.flatMap (fun c => uniq c.vars)) :=
    flatMap_perm (fun c => hO.sort _)
  have hmem : ∀ x, x ∈ cs.flatMap (fun c => E.sortOrder (uniq c.vars)) ↔ ∃ c ∈ cs, x ∈ c.vars := by
    intro x
    rw [hperm.mem_iff, List.mem_flatMap]
    simp only [mem_uniq]
  have m := ih _ p s r1 s1 hp (by
      intro hd
      simp only [Bool.or_eq_false_iff, Bool.not_eq_false', decide_eq_true_eq] at hd
      exact nodup_expand (hdup hd.1) (hperm.nodup_iff.mpr hd.2)) (by
      intro x hx
      rcases mem_expand.mp hx with hx | hx
      · exact h1 x (hsub x hx)
      · obtain ⟨c, hc, hx⟩ := (hmem x).mp hx
        exact h2 c hc x hx) (by
      rintro x hx (hn | hn)
      · exact mem_expand.mpr (Or.inl (hneed x hn.2 hn.1))
      · exact mem_expand.mpr (Or.inr ((hmem x).mpr hn))) hst hr1
  rw [← h]
  exact process_tame m.st ⟨m.tame.tags, m.tame.sharp⟩
    (fun hs => ((m.shaped (hs.mono (process_le _ _ _))).select (.filter f) (fun _ h => h.1)).project he)

theorem project_tame (hO : E.Orders) {b d as need dup} (hf : Fits W E (.project b d as) need dup)
    (ih : GoodTame W E d (fun x => need x ∨ ∃ a ∈ as, need a.1 ∧ x ∈ a.2.vars) dup) : GoodTame W E (.project b d as) need dup := by
  obtain ⟨hb, hl, hn, hdef, hfit⟩ := hf
  intro goal p s r s' hp hdup hsub hneed hst h
  simp only [toRam] at h
  rw [projectFlow] at h
  simp only at h
  split at h
  · rename_i h0
    have h0' : ∀ x ∈ leaves goal, x ∈ d.bounded := by
      intro x hx
      simp only [List.isEmpty_iff, List.filter_eq_nil_iff, decide_eq_true_eq, not_not] at h0
      exact h0 x (mem_vars.mpr hx)
    have hno : ∀ a ∈ as, ¬ need a.1 := fun a ha hna =>
      (hl a ha).1 (h0' a.1 (hneed a.1 ((hb a.1).mpr (Or.inr ⟨a, ha, rfl⟩)) hna))
    exact ih goal p s r s' hp hdup h0' (by
      rintro x hx (hx' | ⟨a, ha, hna, _⟩)
      · exact hneed x ((hb x).mpr (Or.inl hx)) hx'
      · exact absurd hna (hno a ha)) hst h
  · split at h
    · cases h
    · rename_i h0 h1
      rw [Option.bind_eq_some_iff] at h
      obtain ⟨⟨r1, s1⟩, hr1, h⟩ := h
      simp only [Option.map_eq_some_iff] at h
      obtain ⟨e, he, h⟩ := h
      generalize hg : fromVars (E.hashOrder ((vars goal).filter (fun v => decide (v ∈ d.bounded))) ++
        (as.filter (fun a => decide (a.1 ∈ (vars goal).filter (fun v => decide (v ∉ d.bounded))))).flatMap (fun a => a.2.vars)) false = subGoal at hr1 he
      have hgm : ∀ x, x ∈ leaves subGoal ↔ (x ∈ leaves goal ∧ x ∈ d.bounded) ∨
          ∃ a ∈ as, a.1 ∈ leaves goal ∧ a.1 ∉ d.bounded ∧ x ∈ a.2.vars := by
        intro x
        rw [← hg, mem_fromVars, List.mem_append, (hO.hash _).mem_iff, List.mem_filter, mem_vars, decide_eq_true_eq, List.mem_flatMap]
        simp only [List.mem_filter, mem_vars, decide_eq_true_eq, and_assoc]
      have hgb : ∀ x ∈ leaves subGoal, x ∈ d.bounded := by
        intro x hx
        rcases (hgm x).mp hx with h | ⟨a, ha, _, _, hx⟩
        · exact h.2
        · exact (hl a ha).2 x hx
      rw [projectFlow] at hr1
      simp only at hr1
      rw [if_pos (by
        simp only [List.isEmpty_iff, List.filter_eq_nil_iff, decide_eq_true_eq, not_not]
        exact fun x hx => hgb x (mem_vars.mp hx))] at hr1
      have m := ih subGoal _ s r1 s1 (by exact hp) (fun _ => by rw [← hg]; exact nodup_fromVars _ _) hgb (by
        rintro x hx (hx' | ⟨a, ha, hna, hxa⟩)
        · exact (hgm x).mpr (Or.inl ⟨hneed x ((hb x).mpr (Or.inl hx)) hx', hx⟩)
        · exact (hgm x).mpr (Or.inr ⟨a, ha, hneed a.1 ((hb a.1).mpr (Or.inr ⟨a, ha, rfl⟩)) hna, (hl a ha).1, hxa⟩)) hst hr1
      rw [← h]
      refine process_tame m.st ⟨m.tame.tags, m.tame.sharp⟩ (fun hs => ?_)
      have hsh := m.shaped (hs.mono (process_le _ _ _))
      have hlook : ∀ x v, lastLookup x (as.filter (fun a => decide (a.1 ∈ (vars goal).filter (fun v => decide (v ∉ d.bounded))))) = some v →
          (x, v) ∈ as := fun x v h => (List.mem_filter.mp (lastLookup_mem h)).1
      rintro t' ⟨t, ht, hev⟩
      obtain ⟨σ, hr⟩ := hsh t ht
      have hd := projectionAssigns_defined hr he hev
      refine ⟨withAssigns W.X d.bounded as σ, ?_⟩
      have := eval_projectionAssigns (X := W.X) (σ' := withAssigns W.X d.bounded as σ) hr (fun x hx => by rw [withAssigns, if_pos (hgb x hx)]) he (by
        intro x hx hxs
        obtain ⟨a, v, h2, h3⟩ := hd x hx hxs
        refine ⟨a, h2, ?_⟩
        have hm := hlook x a h2
        rw [h3, withAssigns, if_neg (hl _ hm).1, lastLookup_of_mem hn hm]
        simp only [h3])
      rw [this] at hev
      cases hev
      exact Rep.evalV _ _

theorem join_tame (hX : W.X.ExactFloats) (hO : E.Orders) (hE : ∀ r, E.indexed r = false) {d1 d2 : Plan F} {need dup}
    (hf : Fits W E (.join d1 d2) need dup)
    (ih1 : GoodTame W E d1 (fun x => need x ∨ x ∈ joinVars d1 d2) false) (ih2 : GoodTame W E d2 (fun x => need x ∨ x ∈ joinVars d1 d2) false) :
    GoodTame W E (.join d1 d2) need dup := by
  obtain ⟨hsame, hf1, hf2⟩ := hf
  have le2 := toRam_good hX hO hf2
  intro goal p s r s' hp hdup hsub hneed hst h
  have hneed1 : ∀ x ∈ d1.bounded, need x → x ∈ leaves goal := fun x hx => hneed x (List.mem_append.mpr (Or.inl hx))
  have hneed2 : ∀ x ∈ d2.bounded, need x → x ∈ leaves goal := fun x hx => hneed x (List.mem_append.mpr (Or.inr hx))
  simp only [toRam] at h
  by_cases hj : (joinVars d1 d2).isEmpty = true
  · rw [if_pos hj] at h
    have hj' : joinVars d1 d2 = [] := by simpa using hj
    simp only [Option.bind_eq_some_iff, Option.map_eq_some_iff] at h
    obtain ⟨⟨r1, s1⟩, hr1, ⟨r2, s2⟩, hr2, e, he, h⟩ := h
    obtain ⟨hn1, hm1⟩ := subTuple_spec hO (goal := goal) hf1
    obtain ⟨hn2, hm2⟩ := subTuple_spec hO (goal := goal) hf2
    have q2 : ∀ x ∈ d2.bounded, need x ∨ x ∈ joinVars d1 d2 → x ∈ leaves (subTuple E goal d2) := by
      rintro x hx (hx' | hx')
      · exact (hm2 x).mpr ⟨hx, hneed2 x hx hx'⟩
      · rw [hj'] at hx'; cases hx'
    have m1 := ih1 _ _ s r1 s1 (by exact hp) (fun _ => hn1) (fun x hx => ((hm1 x).mp hx).1) (by
      rintro x hx (hx' | hx')
      · exact (hm1 x).mpr ⟨hx, hneed1 x hx hx'⟩
      · rw [hj'] at hx'; cases hx') hst hr1
    have hle2 := (le2 _ _ s1 r2 s2 (fun _ => hn2) (fun x hx => ((hm2 x).mp hx).1) q2 hr2).1
    have m2 := ih2 _ _ s1 r2 s2 (by exact hp) (fun _ => hn2) (fun x hx => ((hm2 x).mp hx).1) q2 m1.st hr2
    rw [← h]
    refine process_tame m2.st ⟨⟨m1.tame.tags, m2.tame.tags⟩, ⟨m1.tame.sharp, m2.tame.sharp⟩⟩ (fun hs => Shaped.project ?_ he)
    have hs2 := hs.mono (process_le _ _ _)
    refine (m1.shaped (hs2.mono hle2)).product (m2.shaped hs2) (fun x hx hx' => ?_)
    have : x ∈ joinVars d1 d2 := mem_joinVars.mpr ⟨((hm1 x).mp hx').1, ((hm2 x).mp hx).1⟩
    rw [hj'] at this
    cases this
  · rw [if_neg hj] at h
    by_cases hss : sameSet d1.bounded d2.bounded = true
    · rw [if_pos hss] at h
      have hss' := sameSet_iff.mp hss
      have hd : d1.directAtom.isSome ∨ d2.directAtom.isSome := by
        rcases hsame hss with h | h
        · rw [h] at hj; simp at hj
        · exact h
      obtain ⟨hn, hm⟩ := commonGoal_spec hO (goal := goal) hf1 hf2 hss' hd
      simp only [Option.bind_eq_some_iff] at h
      obtain ⟨⟨r1, s1⟩, hr1, ⟨r2, s2⟩, hr2, h⟩ := h
      have m1 := ih1 _ _ s r1 s1 (by exact hp) (fun _ => hn) (fun x hx => (hm x).mp hx) (fun x hx _ => (hm x).mpr hx) hst hr1
      have m2 := ih2 _ _ s1 r2 s2 (by exact hp) (fun _ => hn) (fun x hx => (hss' x).mp ((hm x).mp hx))
        (fun x hx _ => (hm x).mpr ((hss' x).mpr hx)) m1.st hr2
      have hle2 := (le2 _ _ s1 r2 s2 (fun _ => hn) (fun x hx => (hss' x).mp ((hm x).mp hx)) (fun x hx _ => (hm x).mpr ((hss' x).mpr hx)) hr2).1
      have base : Supported W s2 → Shaped W (.bin .intersect r1 r2) (commonGoal E goal d1 d2) := fun hs2 => (m1.shaped (hs2.mono hle2)).intersect
      have tm : Tame W (.bin .intersect r1 r2) := ⟨⟨m1.tame.tags, m2.tame.tags⟩, ⟨m1.tame.sharp, m2.tame.sharp⟩⟩
      split at h
      · rename_i hg
        simp only [Option.some.injEq, Prod.mk.injEq] at h
        obtain ⟨rfl, rfl⟩ := h
        refine ⟨tm, m2.st, fun hs => ?_⟩
        have := base hs
        rwa [hg] at this
      · simp only [Option.map_eq_some_iff] at h
        obtain ⟨e, he, h⟩ := h
        rw [← h]
        exact process_tame m2.st ⟨tm.tags, tm.sharp⟩ (fun hs => (base (hs.mono (process_le _ _ _))).project he)
    · rw [if_neg hss] at h
      simp only [Option.bind_eq_some_iff, Option.map_eq_some_iff] at h
      obtain ⟨⟨r1, s1⟩, hr1, ⟨r2, s2⟩, hr2, e, he, h⟩ := h
      obtain ⟨hnk, hk⟩ := key_spec hO (d1 := d1) (d2 := d2)
      obtain ⟨hn1, hm1⟩ := joinGoal_spec hO (joint := joinVars d1 d2) (goal := goal) (d := d1)
      obtain ⟨hn2, hm2⟩ := joinGoal_spec hO (joint := joinVars d1 d2) (goal := goal) (d := d2)
      have hp1 := nodup_pair hnk hn1 (fun x hx hx' => ((hm1 x).mp hx').2.2 ((hk x).mp hx))
      have hp2 := nodup_pair hnk hn2 (fun x hx hx' => ((hm2 x).mp hx').2.2 ((hk x).mp hx))
      have a2 : ∀ x ∈ leaves (.tup [fromVars (E.sortOrder (joinVars d1 d2)) true, joinGoal E (joinVars d1 d2) goal d2]), x ∈ d2.bounded := by
        intro x hx
        rcases mem_pair.mp hx with hx | hx
        · exact (mem_joinVars.mp ((hk x).mp hx)).2
        · exact ((hm2 x).mp hx).2.1
      have b2 : ∀ x ∈ d2.bounded, need x ∨ x ∈ joinVars d1 d2 →
          x ∈ leaves (.tup [fromVars (E.sortOrder (joinVars d1 d2)) true, joinGoal E (joinVars d1 d2) goal d2]) := by
        rintro x hx hx'
        by_cases hxj : x ∈ joinVars d1 d2
        · exact mem_pair.mpr (Or.inl ((hk x).mpr hxj))
        · rcases hx' with hx' | hx'
          · exact mem_pair.mpr (Or.inr ((hm2 x).mpr ⟨hneed2 x hx hx', hx, hxj⟩))
          · exact absurd hx' hxj
      have m1 := ih1 _ _ s r1 s1 (by exact hp) (fun _ => hp1) (by
        intro x hx
        rcases mem_pair.mp hx with hx | hx
        · exact (mem_joinVars.mp ((hk x).mp hx)).1
        · exact ((hm1 x).mp hx).2.1) (by
        rintro x hx hx'
        by_cases hxj : x ∈ joinVars d1 d2
        · exact mem_pair.mpr (Or.inl ((hk x).mpr hxj))
        · rcases hx' with hx' | hx'
          · exact mem_pair.mpr (Or.inr ((hm1 x).mpr ⟨hneed1 x hx hx', hx, hxj⟩))
          · exact absurd hx' hxj) hst hr1
      have m2 := ih2 _ _ s1 r2 s2 (by exact hp) (fun _ => hp2) a2 b2 m1.st hr2
      have hle2 := (le2 _ _ s1 r2 s2 (fun _ => hp2) a2 b2 hr2).1
      rw [← h]
      split
      · rename_i rel hrel
        simp only [indexedVec?] at hrel
        split at hrel
        · rw [hE] at hrel
          simp at hrel
        · cases hrel
      · refine process_tame m2.st ⟨⟨m1.tame.tags, m2.tame.tags⟩, ⟨m1.tame.sharp, m2.tame.sharp⟩⟩ (fun hs => Shaped.project ?_ he)
        have hs2 := hs.mono (process_le _ _ _)
        refine (m1.shaped (hs2.mono hle2)).join (m2.shaped hs2) hp1 hp2 (fun x hx => ⟨fun hx' => ?_, fun hx' => ?_⟩)
        · exact ((hm2 x).mp hx).2.2 ((hk x).mp hx')
        · exact ((hm2 x).mp hx).2.2 (mem_joinVars.mpr ⟨((hm1 x).mp hx').2.1, ((hm2 x).mp hx).2.1⟩)

theorem antijoin_tame (hX : W.X.ExactFloats) (hO : E.Orders) {d1 : Plan F} {a : Atom String F} {need dup}
    (hf : Fits W E (.antijoin d1 (.ground a)) need dup) (hcov : ∀ x ∈ atomVars a, x ∈ d1.bounded)
    (ih1 : GoodTame W E d1 (fun x => need x ∨ x ∈ joinVars d1 (.ground a)) false) :
    GoodTame W E (.antijoin d1 (.ground a)) need dup := by
  obtain ⟨hsame, hf1, hf2⟩ := hf
  have le2 := toRam_good hX hO hf2
  intro goal p s r s' hp hdup hsub hneed hst h
  simp only [toRam] at h
  by_cases hss : sameSet d1.bounded (Plan.bounded (.ground a)) = true
  · rw [if_pos hss] at h
    have hss' := sameSet_iff.mp hss
    obtain ⟨hn, hm⟩ := commonGoal_spec hO (goal := goal) hf1 hf2 hss' (hsame hss)
    simp only [Option.bind_eq_some_iff] at h
    obtain ⟨⟨r1, s1⟩, hr1, ⟨r2, s2⟩, hr2, h⟩ := h
    have m1 := ih1 _ _ s r1 s1 (by exact hp) (fun _ => hn) (fun x hx => (hm x).mp hx) (fun x hx _ => (hm x).mpr hx) hst hr1
    have m2 := groundFlow_tame hX hf2 (fun _ => hn) m1.st hr2
    have hi := groundFlow_injects hX hf2.1 rfl (by exact hp) (fun x hx => (hm x).mpr (hcov x hx)) hr2
    have hle2 := (le2 _ _ s1 r2 s2 (fun _ => hn) (fun x hx => (hss' x).mp ((hm x).mp hx)) (fun x hx _ => (hm x).mpr ((hss' x).mpr hx)) hr2).1
    have base : Supported W s2 → Shaped W (.bin .difference r1 r2) (commonGoal E goal d1 (.ground a)) := fun hs2 =>
      (m1.shaped (hs2.mono hle2)).minus.1
    have tm : Tame W (.bin .difference r1 r2) := ⟨⟨m1.tame.tags, m2.tame.tags⟩, ⟨m1.tame.sharp, hi⟩⟩
    split at h
    · rename_i hg
      simp only [Option.some.injEq, Prod.mk.injEq] at h
      obtain ⟨rfl, rfl⟩ := h
      refine ⟨tm, m2.st, fun hs => ?_⟩
      have := base hs
      rwa [hg] at this
    · simp only [Option.map_eq_some_iff] at h
      obtain ⟨e, he, h⟩ := h
      rw [← h]
      exact process_tame m2.st ⟨tm.tags, tm.sharp⟩ (fun hs => (base (hs.mono (process_le _ _ _))).project he)
  · rw [if_neg hss] at h
    simp only [Option.bind_eq_some_iff, Option.map_eq_some_iff] at h
    obtain ⟨⟨r1, s1⟩, hr1, ⟨r2, s2⟩, hr2, e, he, h⟩ := h
    obtain ⟨hnk, hk⟩ := key_spec hO (d1 := d1) (d2 := .ground a)
    obtain ⟨hn1, hm1⟩ := joinGoal_spec hO (joint := joinVars d1 (.ground a)) (goal := goal) (d := d1)
    have hp1 := nodup_pair hnk hn1 (fun x hx hx' => ((hm1 x).mp hx').2.2 ((hk x).mp hx))
    have m1 := ih1 _ _ s r1 s1 (by exact hp) (fun _ => hp1) (by
      intro x hx
      rcases mem_pair.mp hx with hx | hx
      · exact (mem_joinVars.mp ((hk x).mp hx)).1
      · exact ((hm1 x).mp hx).2.1) (by
      rintro x hx hx'
      by_cases hxj : x ∈ joinVars d1 (.ground a)
      · exact mem_pair.mpr (Or.inl ((hk x).mpr hxj))
      · rcases hx' with hx' | hx'
        · exact mem_pair.mpr (Or.inr ((hm1 x).mpr ⟨hneed x hx hx', hx, hxj⟩))
        · exact absurd hx' hxj) hst hr1
    have m2 := groundFlow_tame hX hf2 (fun _ => hnk) m1.st hr2
    have hi := groundFlow_injects hX hf2.1 rfl (by exact hp)
      (fun x hx => (hk x).mpr (mem_joinVars.mpr ⟨hcov x hx, hx⟩)) hr2
    have hle2 := (le2 _ _ s1 r2 s2 (fun _ => hnk) (fun x hx => (mem_joinVars.mp ((hk x).mp hx)).2) (fun x _ hx' => (hk x).mpr hx') hr2).1
    rw [← h]
    refine process_tame m2.st ⟨⟨m1.tame.tags, m2.tame.tags⟩, ⟨m1.tame.sharp, hi⟩⟩ (fun hs => Shaped.project ?_ he)
    exact (m1.shaped ((hs.mono (process_le _ _ _)).mono hle2)).minus.2

theorem toRam_tame (hX : W.X.ExactFloats) (hO : E.Orders) (hE : ∀ r, E.indexed r = false) :
    ∀ {d : Plan F} {need dup}, Fits W E d need dup → CoveredPlan d → GoodTame W E d need dup
  | .unit, _, _, _, _ => unit_tame
  | .ground _, _, _, hf, _ => fun _ _ _ _ _ _ hdup _ _ hs h => groundFlow_tame hX hf hdup hs h
  | .project _ _ _, _, _, hf, hc => project_tame hO hf (toRam_tame hX hO hE hf.2.2.2.2 hc)
  | .filter _ _ _, _, _, hf, hc => filter_tame hO hf (toRam_tame hX hO hE hf.2.2.2 hc)
  | .join _ _, _, _, hf, hc => join_tame hX hO hE hf (toRam_tame hX hO hE hf.2.1 hc.1) (toRam_tame hX hO hE hf.2.2 hc.2)
  | .antijoin _ d2, _, _, hf, hc => by
    obtain ⟨h1, a, rfl, ha⟩ := hc
    exact antijoin_tame hX hO hf ha (toRam_tame hX hO hE hf.2.1 h1)
  | .reduce _, _, _, _, hc => hc.elim
  | .fpGround _ _, _, _, _, hc => hc.elim
  | .fpConstraint _ _ _, _, _, _, hc => hc.elim
  | .fpJoin _ _ _, _, _, _, hc => hc.elim

end

end Scallop.Plan
