import Verif.Proof.Names

/-!
# What the translation of a program consists of
-/

namespace Scallop.Plan

open Scallop.Back Scallop.Ram

variable {F : Type} {E : Env F} {S : Search} {rules : List (SRule F)}

/-- Conditions on a rule for the way its relations are looked at. -/
structure RuleLooks (E : Env F) (A B : String → Prop) (r : SRule F) : Prop where
  nofp : ∀ a ∈ posOf r.body, E.numBounded a.predicate = none
  noff : Lit.ff ∉ r.body
  reads : RuleReads A B B r.body

/-- The rule was translated in the course of reaching a state. -/
def Done (E : Env F) (S : Search) (r : SRule F) (f : Dataflow F) (s' : St F) : Prop :=
  ∃ s1 s2, ruleFlow E S r.head r.body r.inPlace s1 = some (f, s2) ∧ St.Le s2 s'

theorem Done.mono {r : SRule F} {f : Dataflow F} {s s' : St F} (h : Done E S r f s) (hs : St.Le s s') : Done E S r f s' := by
  obtain ⟨s1, s2, h1, h2⟩ := h
  exact ⟨s1, s2, h1, h2.trans hs⟩

theorem rulesFlow_spec (hS : S.Lawful) {A B : String → Prop} {lo : Nat} : ∀ {rs : List (SRule F)} {s : St F} {us s'}, (∀ r ∈ rs, RuleLooks E A B r) → Inv A B B lo s →
    rulesFlow E S rs s = some (us, s') →
    St.Le s s' ∧ Inv A B B lo s' ∧ (∀ r ∈ rs, ∀ p, headPred r.head = some p → ∃ f, Done E S r f s' ∧ (⟨p, f⟩ : Update F) ∈ us) ∧
      ∀ u ∈ us, Reads (RdP A s') (RdN B s') B u.flow ∧ ∃ r ∈ rs, headPred r.head = some u.target ∧ Done E S r u.flow s'
  | [], s, us, s', _, hs, h => by
    simp only [rulesFlow, Option.some.injEq, Prod.mk.injEq] at h
    obtain ⟨rfl, rfl⟩ := h
    exact ⟨St.Le.refl _, hs, by simp, by simp⟩
  | r :: rs, s, us, s', hr, hs, h => by
    simp only [rulesFlow, Option.bind_eq_some_iff, Option.map_eq_some_iff] at h
    obtain ⟨p, hp, ⟨f, s1⟩, hf, ⟨us1, s2⟩, h1, h⟩ := h
    simp only [Prod.mk.injEq] at h
    obtain ⟨rfl, rfl⟩ := h
    have hl := hr r (by simp)
    have m := ruleFlow_out hS hl.nofp hl.noff hl.reads hs hf
    obtain ⟨a1, a2, a3, a4⟩ := rulesFlow_spec hS (fun r h => hr r (by simp [h])) m.inv h1
    have hd : Done E S r f s2 := ⟨s, s1, hf, a1⟩
    refine ⟨m.le.trans a1, a2, ?_, ?_⟩
    · intro r' hr' p' hp'
      rcases List.mem_cons.mp hr' with rfl | hr'
      · rw [hp] at hp'
        cases hp'
        exact ⟨f, hd, by simp⟩
      · obtain ⟨f', h3, h4⟩ := a3 r' hr' p' hp'
        exact ⟨f', h3, by simp [h4]⟩
    · intro u hu
      rcases List.mem_cons.mp hu with rfl | hu
      · exact ⟨reads_mono a1 m.reads, r, by simp, hp, hd⟩
      · obtain ⟨h3, r', h4, h5⟩ := a4 u hu
        exact ⟨h3, r', by simp [h4], h5⟩

/-- What a stratum is translated to, before permuted copies and negative dataflows are added. -/
structure StratumRes (E : Env F) (S : Search) (rules : List (SRule F)) (D : List String) (A B : String → Prop) (lo : Nat) (st : Ram.Stratum F)
    (s' : St F) : Prop where
  relations : st.relations = D ++ s'.temps.map Prod.fst
  fwd : ∀ r ∈ rules, ∀ p ∈ D, headPred r.head = some p → ∃ f, Done E S r f s' ∧ (⟨p, f⟩ : Update F) ∈ st.updates
  bwd : ∀ u ∈ st.updates, (∃ r ∈ rules, u.target ∈ D ∧ headPred r.head = some u.target ∧ Done E S r u.flow s') ∨ (u.target, u.flow) ∈ s'.temps
  temps : ∀ n d, (n, d) ∈ s'.temps → (⟨n, d⟩ : Update F) ∈ st.updates
  reads : ∀ u ∈ st.updates, Reads (RdP A s') (RdN B s') B u.flow
  inv : Inv A B B lo s'

theorem Inv.fresh {A B R : String → Prop} {lo : Nat} {s : St F} (h : Inv A B R lo s) : Inv A B R s.next { s with temps := [] } :=
  ⟨Nat.le_refl _, by simp, by simp, fun n d hd => ⟨(h.negs n d hd).1, (h.negs n d hd).2.reads, (h.negs n d hd).2.some⟩, h.nnodup, h.perms⟩

theorem stratumFlow_spec (hS : S.Lawful) {A B : String → Prop} {lo : Nat} {D : List String} {s : St F} {st s'}
    (hr : ∀ r ∈ rules, ∀ p ∈ D, headPred r.head = some p → RuleLooks E A B r) (hs : Inv A B B lo s) (h : stratumFlow E S rules D s = some (st, s')) :
    StratumRes E S rules D A B s.next st s' ∧ (∀ q ∈ s.negs, q ∈ s'.negs) ∧ ∀ q ∈ s.perms, q ∈ s'.perms := by
  simp only [stratumFlow, Option.map_eq_some_iff, Prod.mk.injEq] at h
  obtain ⟨⟨us, s2⟩, h1, rfl, rfl⟩ := h
  obtain ⟨a1, a2, a3, a4⟩ := rulesFlow_spec hS (by
    intro r hr'
    obtain ⟨p, hp, hr'⟩ := List.mem_flatMap.mp hr'
    simp only [rulesOf, List.mem_filter, decide_eq_true_eq] at hr'
    exact hr r hr'.1 p hp hr'.2) hs.fresh h1
  refine ⟨⟨rfl, ?_, ?_, ?_, ?_, a2⟩, a1.negs, a1.perms⟩
  · intro r hr' p hp hpr
    obtain ⟨f, h2, h3⟩ := a3 r (List.mem_flatMap.mpr ⟨p, hp, by simp [rulesOf, hr', hpr]⟩) p hpr
    exact ⟨f, h2, List.mem_append.mpr (Or.inr h3)⟩
  · intro u hu
    rcases List.mem_append.mp hu with hu | hu
    · obtain ⟨q, hq, rfl⟩ := List.mem_map.mp hu
      exact Or.inr hq
    · obtain ⟨_, r, h2, h3, h4⟩ := a4 u hu
      obtain ⟨p, hp, h5⟩ := List.mem_flatMap.mp h2
      simp only [rulesOf, List.mem_filter, decide_eq_true_eq] at h5
      rw [h3] at h5
      have := Option.some.inj h5.2
      subst this
      exact Or.inl ⟨r, h5.1, hp, h3, h4⟩
  · intro n d hd
    exact List.mem_append.mpr (Or.inl (List.mem_map.mpr ⟨_, hd, rfl⟩))
  · intro u hu
    rcases List.mem_append.mp hu with hu | hu
    · obtain ⟨q, hq, rfl⟩ := List.mem_map.mp hu
      exact (a2.temps q.1 q.2 hq).2
    · exact (a4 u hu).1

/-- What the strata are translated to; `ss` are the states after each of the strata, with the value of the counter before it. -/
structure StrataRes (E : Env F) (S : Search) (rules : List (SRule F)) (pre : List String) (strata : List (List String)) (s0 : St F)
    (sts : List (Ram.Stratum F)) (ss : List (Nat × St F)) (sN : St F) : Prop where
  len1 : sts.length = strata.length
  len2 : ss.length = strata.length
  each : ∀ (k : Nat) D st s, strata[k]? = some D → sts[k]? = some st → ss[k]? = some s →
    StratumRes E S rules D (fun q => q ∈ pre ++ (strata.take (k + 1)).flatten) (fun q => q ∈ pre ++ (strata.take k).flatten) s.1 st s.2
  start : ∀ s ∈ ss, s0.next ≤ s.1
  next : ∀ (j k : Nat) (s s' : Nat × St F), j < k → ss[j]? = some s → ss[k]? = some s' → s.2.next ≤ s'.1
  last : ∀ s ∈ ss, (∀ q ∈ s.2.negs, q ∈ sN.negs) ∧ ∀ q ∈ s.2.perms, q ∈ sN.perms
  first : (∀ q ∈ s0.negs, q ∈ sN.negs) ∧ ∀ q ∈ s0.perms, q ∈ sN.perms
  inv : ∃ lo, Inv (fun q => q ∈ pre ++ strata.flatten) (fun q => q ∈ pre ++ strata.flatten) (fun q => q ∈ pre ++ strata.flatten) lo sN

theorem strataFlow_spec (hS : S.Lawful) : ∀ {strata : List (List String)} {pre : List String} {s : St F} {sts sN},
    (∀ (k : Nat) D, strata[k]? = some D → ∀ r ∈ rules, ∀ p ∈ D, headPred r.head = some p →
      RuleLooks E (fun q => q ∈ pre ++ (strata.take (k + 1)).flatten) (fun q => q ∈ pre ++ (strata.take k).flatten) r) →
    (∃ lo, Inv (fun q => q ∈ pre) (fun q => q ∈ pre) (fun q => q ∈ pre) lo s) → strataFlow E S rules strata s = some (sts, sN) →
    ∃ ss, StrataRes E S rules pre strata s sts ss sN
  | [], pre, s, sts, sN, _, hs, h => by
    simp only [strataFlow, Option.some.injEq, Prod.mk.injEq] at h
    obtain ⟨rfl, rfl⟩ := h
    refine ⟨[], ⟨rfl, rfl, by simp, by simp, by simp, by simp, ⟨fun _ h => h, fun _ h => h⟩, ?_⟩⟩
    simpa using hs
  | D :: rest, pre, s, sts, sN, hr, ⟨lo, hs⟩, h => by
    simp only [strataFlow, Option.bind_eq_some_iff, Option.map_eq_some_iff, Prod.mk.injEq] at h
    obtain ⟨⟨st, s1⟩, h1, ⟨sts', s2⟩, h2, rfl, rfl⟩ := h
    have hA : ∀ q, q ∈ pre → q ∈ pre ++ ((D :: rest).take 1).flatten := fun q hq => List.mem_append.mpr (Or.inl hq)
    have hB : ∀ q, q ∈ pre → q ∈ pre ++ ((D :: rest).take 0).flatten := fun q hq => List.mem_append.mpr (Or.inl hq)
    obtain ⟨b1, b2, b3⟩ := stratumFlow_spec hS (hr 0 D rfl) (hs.mono hA hB hB) h1
    have hpre : ∀ k, (pre ++ D) ++ (rest.take k).flatten = pre ++ ((D :: rest).take (k + 1)).flatten := by
      intro k
      simp
    obtain ⟨ss, c⟩ := strataFlow_spec (strata := rest) (pre := pre ++ D) hS (by
      intro k D' hk
      rw [hpre, hpre]
      exact hr (k + 1) D' (by simpa using hk)) ⟨s.next, b1.inv.mono (by simp) (by simp; exact fun _ h => Or.inl h) (by simp; exact fun _ h => Or.inl h)⟩ h2
    refine ⟨(s.next, s1) :: ss, ⟨by simp [c.len1], by simp [c.len2], ?_, ?_, ?_, ?_, ?_, ?_⟩⟩
    · intro k D' st' s' hk h3 h4
      cases k with
      | zero =>
        simp only [List.getElem?_cons_zero, Option.some.injEq] at hk h3 h4
        subst hk h3 h4
        exact b1
      | succ k =>
        simp only [List.getElem?_cons_succ] at hk h3 h4
        have := c.each k D' st' s' hk h3 h4
        rw [hpre, hpre] at this
        exact this
    · intro s' hs'
      rcases List.mem_cons.mp hs' with rfl | hs'
      · exact Nat.le_refl _
      · exact Nat.le_trans b1.inv.low (c.start s' hs')
    · intro j k sj sk hjk hj hk
      cases k with
      | zero => exact absurd hjk (Nat.not_lt_zero _)
      | succ k =>
        simp only [List.getElem?_cons_succ] at hk
        cases j with
        | zero =>
          simp only [List.getElem?_cons_zero, Option.some.injEq] at hj
          subst hj
          exact c.start sk (List.mem_of_getElem? hk)
        | succ j =>
          simp only [List.getElem?_cons_succ] at hj
          exact c.next j k sj sk (Nat.lt_of_succ_lt_succ hjk) hj hk
    · intro s' hs'
      rcases List.mem_cons.mp hs' with rfl | hs'
      · exact c.first
      · exact c.last s' hs'
    · exact ⟨fun q hq => c.first.1 q (b2 q hq), fun q hq => c.first.2 q (b3 q hq)⟩
    · obtain ⟨lo', hi⟩ := c.inv
      have e : (pre ++ D) ++ rest.flatten = pre ++ (D :: rest).flatten := by simp
      rw [e] at hi
      exact ⟨lo', hi⟩

/-! ## Permuted copies -/

theorem mapM_both {α β : Type} {f : α → Option β} : ∀ {l : List α} {r}, l.mapM f = some r → (∀ a ∈ l, ∃ b ∈ r, f a = some b) ∧ ∀ b ∈ r, ∃ a ∈ l, f a = some b
  | [], r, h => by
    simp only [List.mapM_nil, Option.pure_def, Option.some.injEq] at h
    subst h
    simp
  | a :: l, r, h => by
    simp only [List.mapM_cons, Option.bind_eq_bind, Option.bind_eq_some_iff, Option.pure_def, Option.some.injEq] at h
    obtain ⟨b, hb, r', hr', rfl⟩ := h
    obtain ⟨h1, h2⟩ := mapM_both hr'
    refine ⟨?_, ?_⟩
    · intro x hx
      rcases List.mem_cons.mp hx with rfl | hx
      · exact ⟨b, by simp, hb⟩
      · obtain ⟨y, hy, e⟩ := h1 x hx
        exact ⟨y, by simp [hy], e⟩
    · intro y hy
      rcases List.mem_cons.mp hy with rfl | hy
      · exact ⟨a, by simp, hb⟩
      · obtain ⟨x, hx, e⟩ := h2 y hy
        exact ⟨x, by simp [hx], e⟩

theorem mapM_get {α β : Type} {f : α → Option β} : ∀ {l : List α} {r}, l.mapM f = some r → r.length = l.length ∧ ∀ (k : Nat) a, l[k]? = some a → ∃ b, r[k]? = some b ∧ f a = some b
  | [], r, h => by
    simp only [List.mapM_nil, Option.pure_def, Option.some.injEq] at h
    subst h
    simp
  | a :: l, r, h => by
    simp only [List.mapM_cons, Option.bind_eq_bind, Option.bind_eq_some_iff, Option.pure_def, Option.some.injEq] at h
    obtain ⟨b, hb, r', hr', rfl⟩ := h
    obtain ⟨h1, h2⟩ := mapM_get hr'
    refine ⟨by simp [h1], ?_⟩
    intro k x hx
    cases k with
    | zero =>
      simp only [List.getElem?_cons_zero, Option.some.injEq] at hx
      subst hx
      exact ⟨b, rfl, hb⟩
    | succ k =>
      simp only [List.getElem?_cons_succ] at hx
      exact h2 k x hx

theorem addPerms_spec {perms : List (String × Perm)} {st st' : Ram.Stratum F} (h : addPerms perms st = some st') :
    (∀ r, r ∈ st'.relations ↔ r ∈ st.relations ∨ ∃ p ∈ st.relations, ∃ π, (p, π) ∈ perms ∧ r = permName p π) ∧
    ∀ u, u ∈ st'.updates ↔ u ∈ st.updates ∨ ∃ p ∈ st.relations, ∃ π e, (p, π) ∈ perms ∧ permExpr π = some e ∧
      u = ⟨permName p π, .project (.leaf (.rel p)) e⟩ := by
  simp only [addPerms, Option.map_eq_some_iff] at h
  obtain ⟨us, h, rfl⟩ := h
  obtain ⟨h1, h2⟩ := mapM_both h
  have hmem : ∀ p π, (p, π) ∈ st.relations.flatMap (fun p => (permsOf perms p).map (fun π => (p, π))) ↔ p ∈ st.relations ∧ (p, π) ∈ perms := by
    intro p π
    simp only [List.mem_flatMap, List.mem_map, Prod.mk.injEq, permsOf, List.mem_dedup, List.mem_filter, decide_eq_true_eq, Prod.exists]
    constructor
    · rintro ⟨q, hq, ρ, ⟨a, b, ⟨h1, h2⟩, rfl⟩, rfl, rfl⟩
      subst h2
      exact ⟨hq, h1⟩
    · rintro ⟨hp, hπ⟩
      exact ⟨p, hp, π, ⟨p, π, ⟨hπ, rfl⟩, rfl⟩, rfl, rfl⟩
  have hus : ∀ u, u ∈ us ↔ ∃ p ∈ st.relations, ∃ π e, (p, π) ∈ perms ∧ permExpr π = some e ∧ u = ⟨permName p π, .project (.leaf (.rel p)) e⟩ := by
    intro u
    constructor
    · intro hu
      obtain ⟨⟨p, π⟩, hp, e⟩ := h2 u hu
      simp only [permUpdate, Option.map_eq_some_iff] at e
      obtain ⟨e, he, rfl⟩ := e
      obtain ⟨h3, h4⟩ := (hmem p π).mp hp
      exact ⟨p, h3, π, e, h4, he, rfl⟩
    · rintro ⟨p, hp, π, e, hπ, he, rfl⟩
      obtain ⟨u, hu, e'⟩ := h1 (p, π) ((hmem p π).mpr ⟨hp, hπ⟩)
      simp only [permUpdate, Option.map_eq_some_iff] at e'
      obtain ⟨e2, he2, rfl⟩ := e'
      rw [he] at he2
      cases he2
      exact hu
  refine ⟨?_, ?_⟩
  · intro r
    simp only [List.mem_append, List.mem_map]
    constructor
    · rintro (h | ⟨u, hu, rfl⟩)
      · exact Or.inl h
      · obtain ⟨p, hp, π, e, hπ, _, rfl⟩ := (hus u).mp hu
        exact Or.inr ⟨p, hp, π, hπ, rfl⟩
    · rintro (h | ⟨p, hp, π, hπ, rfl⟩)
      · exact Or.inl h
      · obtain ⟨u, hu, e⟩ := h1 (p, π) ((hmem p π).mpr ⟨hp, hπ⟩)
        refine Or.inr ⟨u, hu, ?_⟩
        simp only [permUpdate, Option.map_eq_some_iff] at e
        obtain ⟨e, he, rfl⟩ := e
        rfl
  · intro u
    simp only [List.mem_append, hus]

/-! ## Negative dataflows -/

/-- The sources of the dataflow are among the given relations and those of the strata up to the `k`-th. -/
def Cov (acc : List String) (sts : List (Ram.Stratum F)) (k : Nat) (d : Dataflow F) : Prop :=
  ∀ r ∈ flowSources d, r ∈ acc ∨ ∃ j st, j ≤ k ∧ sts[j]? = some st ∧ r ∈ st.relations

theorem placeNegs_spec : ∀ {sts : List (Ram.Stratum F)} {acc : List String} {negs : List (String × Dataflow F)},
    (placeNegs acc negs sts).length = sts.length ∧ ∀ (k : Nat) st, sts[k]? = some st → ∃ st', (placeNegs acc negs sts)[k]? = some st' ∧
      (∀ r, r ∈ st'.relations ↔ r ∈ st.relations ∨ ∃ d, (r, d) ∈ negs ∧ Cov acc sts k d ∧ ∀ j, j < k → ¬ Cov acc sts j d) ∧
      (∀ u, u ∈ st'.updates ↔ u ∈ st.updates ∨ ((u.target, u.flow) ∈ negs ∧ Cov acc sts k u.flow ∧ ∀ j, j < k → ¬ Cov acc sts j u.flow))
  | [], acc, negs => by simp [placeNegs]
  | st :: sts, acc, negs => by
    have h0 : ∀ d : Dataflow F, ((flowSources d).all (fun r => decide (r ∈ acc ++ st.relations)) = true) ↔ Cov acc (st :: sts) 0 d := by
      intro d
      simp only [List.all_eq_true, decide_eq_true_eq, List.mem_append, Cov]
      constructor
      · intro h r hr
        rcases h r hr with h | h
        · exact Or.inl h
        · exact Or.inr ⟨0, st, Nat.le_refl _, rfl, h⟩
      · intro h r hr
        rcases h r hr with h | ⟨j, st', hj, h1, h2⟩
        · exact Or.inl h
        · have : j = 0 := Nat.le_zero.mp hj
          subst this
          simp only [List.getElem?_cons_zero, Option.some.injEq] at h1
          subst h1
          exact Or.inr h2
    have hS : ∀ (k : Nat) (d : Dataflow F), Cov (acc ++ st.relations) sts k d ↔ Cov acc (st :: sts) (k + 1) d := by
      intro k d
      simp only [Cov, List.mem_append]
      refine forall_congr' fun r => imp_congr_right fun _ => ?_
      constructor
      · rintro ((h | h) | ⟨j, st', hj, h1, h2⟩)
        · exact Or.inl h
        · exact Or.inr ⟨0, st, Nat.zero_le _, rfl, h⟩
        · exact Or.inr ⟨j + 1, st', Nat.succ_le_succ hj, by simpa using h1, h2⟩
      · rintro (h | ⟨j, st', hj, h1, h2⟩)
        · exact Or.inl (Or.inl h)
        · cases j with
          | zero =>
            simp only [List.getElem?_cons_zero, Option.some.injEq] at h1
            subst h1
            exact Or.inl (Or.inr h2)
          | succ j => exact Or.inr ⟨j, st', Nat.le_of_succ_le_succ hj, by simpa using h1, h2⟩
    have hlater : ∀ n d, (n, d) ∈ negs.filter (fun n => !((flowSources n.2).all (fun r => decide (r ∈ acc ++ st.relations)))) ↔
        (n, d) ∈ negs ∧ ¬ Cov acc (st :: sts) 0 d := by
      intro n d
      rw [List.mem_filter, ← h0 d]
      simp
    obtain ⟨l1, l2⟩ := placeNegs_spec (sts := sts) (acc := acc ++ st.relations)
      (negs := negs.filter (fun n => !((flowSources n.2).all (fun r => decide (r ∈ acc ++ st.relations)))))
    refine ⟨by simp only [placeNegs, List.length_cons, l1], ?_⟩
    intro k st0 hk
    cases k with
    | zero =>
      simp only [List.getElem?_cons_zero, Option.some.injEq] at hk
      subst hk
      refine ⟨_, rfl, ?_, ?_⟩
      · intro r
        simp only [List.mem_append, List.mem_map, List.mem_filter, Prod.exists]
        constructor
        · rintro (h | ⟨n, d, ⟨h1, h2⟩, rfl⟩)
          · exact Or.inl h
          · exact Or.inr ⟨d, h1, (h0 d).mp (by simpa using h2), fun j hj => absurd hj (Nat.not_lt_zero _)⟩
        · rintro (h | ⟨d, h1, h2, _⟩)
          · exact Or.inl h
          · exact Or.inr ⟨r, d, ⟨h1, by simpa using (h0 d).mpr h2⟩, rfl⟩
      · intro u
        simp only [List.mem_append, List.mem_map, List.mem_filter, Prod.exists]
        constructor
        · rintro (h | ⟨n, d, ⟨h1, h2⟩, rfl⟩)
          · exact Or.inl h
          · exact Or.inr ⟨h1, (h0 d).mp (by simpa using h2), fun j hj => absurd hj (Nat.not_lt_zero _)⟩
        · rintro (h | ⟨h1, h2, _⟩)
          · exact Or.inl h
          · exact Or.inr ⟨u.target, u.flow, ⟨h1, by simpa using (h0 u.flow).mpr h2⟩, rfl⟩
    | succ k =>
      simp only [List.getElem?_cons_succ] at hk
      obtain ⟨st', h1, h2, h3⟩ := l2 k st0 hk
      have hiff : ∀ n d, ((n, d) ∈ negs.filter (fun n => !((flowSources n.2).all (fun r => decide (r ∈ acc ++ st.relations)))) ∧
          Cov (acc ++ st.relations) sts k d ∧ ∀ j, j < k → ¬ Cov (acc ++ st.relations) sts j d) ↔
          ((n, d) ∈ negs ∧ Cov acc (st :: sts) (k + 1) d ∧ ∀ j, j < k + 1 → ¬ Cov acc (st :: sts) j d) := by
        intro n d
        rw [hlater, hS]
        constructor
        · rintro ⟨⟨a1, a2⟩, a3, a4⟩
          refine ⟨a1, a3, fun j hj => ?_⟩
          cases j with
          | zero => exact a2
          | succ j => exact fun h => a4 j (Nat.lt_of_succ_lt_succ hj) ((hS j d).mpr h)
        · rintro ⟨a1, a3, a4⟩
          exact ⟨⟨a1, a4 0 (Nat.succ_pos _)⟩, a3, fun j hj h => a4 (j + 1) (Nat.succ_lt_succ hj) ((hS j d).mp h)⟩
      refine ⟨st', by simpa [placeNegs] using h1, ?_, ?_⟩
      · intro r
        rw [h2 r]
        exact or_congr Iff.rfl (exists_congr fun d => hiff r d)
      · intro u
        rw [h3 u, hiff]

end Scallop.Plan
