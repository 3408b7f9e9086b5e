import Verif.Proof.CompileOk
import Verif.Spec.EndToEnd

/-!
# Compiled programs meet the conditions of their execution: rules and strata
-/

namespace Scallop.Plan

open Scallop.Back Scallop.Ram Scallop.Exec

variable {F T W : Type}

/-! ## The plans of rules -/

section
variable {Q : String → Prop} {M : Prop}

theorem reduces_neat : ∀ (rs : List Reduce) (d : Plan F), Neat Q M false d → (∀ r ∈ rs, Q r.aggregator) →
    Neat Q M false (rs.foldl (fun d r => Plan.join d (.reduce r)) d)
  | [], _, hd, _ => hd
  | r :: rs, d, hd, h => by
    rw [List.foldl_cons]
    exact reduces_neat rs _ ⟨hd, h r (by simp)⟩ (fun r hr => h r (by simp [hr]))

theorem Built.neat {c : Ctx F} (hpos : ∀ a ∈ c.pos, (∀ t ∈ a.args, t.const? = none) → (atomVars a).Nodup) (hred : ∀ r ∈ c.reduces, Q r.aggregator)
    {R as cs d} (h : Built c R as cs d) : (∀ a ∈ R, a ∈ c.pos) ∧ Neat Q M false d := by
  induction h with
  | unit h _ => exact ⟨fun a ha => h.subset ha, trivial⟩
  | ground h _ => exact ⟨fun a ha => h.subset (by simp [ha]), hpos _ (h.subset (by simp))⟩
  | @reduces R r rs h e =>
    exact ⟨fun a ha => h.subset ha, reduces_neat rs _ (hred r (by simp [e])) (fun r hr => hred r (by simp [e, hr]))⟩
  | join _ ih => exact ⟨fun a ha => ih.1 a (by simp [ha]), ih.2, hpos _ (ih.1 _ (by simp))⟩
  | project _ _ ih => exact ih
  | filter _ _ ih => exact ih

theorem antis_neat : ∀ (ns : List (Atom String F)) (d : Plan F), Neat Q M true d → (ns ≠ [] → M) →
    Neat Q M true (ns.foldl (fun d a => Plan.antijoin d (.ground a)) d)
  | [], _, hd, _ => hd
  | a :: ns, d, hd, h => by
    rw [List.foldl_cons]
    exact antis_neat ns _ ⟨rfl, h (by simp), hd, a, rfl⟩ (fun _ => h (by simp))

theorem queryPlan_neat {S : Search} (hS : S.Lawful) {nb : String → Option Nat} {body : List (Lit String F Reduce)}
    (h1 : ∀ a ∈ posOf body, nb a.predicate = none) (h2 : Lit.ff ∉ body)
    (hpos : ∀ a ∈ posOf body, (∀ t ∈ a.args, t.const? = none) → (atomVars a).Nodup) (hred : ∀ r ∈ reducesOf body, Q r.aggregator)
    (hneg : negOf body ≠ [] → M) {c d} (hc : Ctx.fromRule nb body = some c) (hd : queryPlan S c = some d) : Neat Q M true d := by
  obtain ⟨c', e, hc'⟩ := fromRule_spec h1 h2
  rw [hc] at e
  cases e
  obtain ⟨order, e1, hperm⟩ := atomOrder_spec hS (n := c.pos.length) (beam := 5) (by decide)
  obtain ⟨p1, d1, rest, e2, p2, d2, e3, hb, hx⟩ := built_of_order hc'.fps hperm
  simp only [queryPlan, e1, Option.bind_some, queryPlanOf, e2, e3, Option.map_some, Option.some.injEq] at hd
  subst hd
  have hap : ∀ d, Neat Q M true d → Neat Q M true (applyNew c d) := by
    intro d hd
    rw [applyNew]
    split
    · exact hd
    · exact hd
  refine hap _ (antis_neat _ _ (hb.neat ?_ ?_).2.weaken ?_)
  · rw [hc'.pos]; exact hpos
  · rw [hc'.reduces]; exact hred
  · rw [hc'.neg]; exact hneg

end

/-! ## Where relations are -/

theorem reads_deps {P N R : String → Prop} {d : Dataflow F} (h : Reads P N R d) : ∀ r ∈ flowDeps d, P r ∨ N r ∨ R r := by
  induction d generalizing P N with
  | leaf l =>
    cases l with
    | reduce a p g =>
      intro r hr
      cases g with
      | join q =>
        simp only [flowDeps, List.mem_cons, List.not_mem_nil, or_false] at hr
        rcases hr with rfl | rfl
        · exact Or.inr (Or.inr h.1)
        · exact Or.inr (Or.inr (h.2 _ rfl))
      | _ =>
        simp only [flowDeps, List.mem_cons, List.not_mem_nil, or_false] at hr
        subst hr
        exact Or.inr (Or.inr h.1)
    | rel q =>
      intro r hr
      simp only [flowDeps, List.mem_cons, List.not_mem_nil, or_false] at hr
      subst hr
      exact Or.inl h
    | _ => simp [flowDeps]
  | un o d ih =>
    intro r hr
    cases o with
    | joinIndexedVec q =>
      simp only [flowDeps, List.mem_cons] at hr
      rcases hr with rfl | hr
      · exact Or.inl h.1
      · exact ih h.2 r hr
    | _ => exact ih h r hr
  | bin o d1 d2 ih1 ih2 =>
    intro r hr
    simp only [flowDeps, List.mem_append] at hr
    cases o <;> simp only [Reads] at h <;> rcases hr with hr | hr
    all_goals first
      | exact ih1 h.1 r hr
      | exact ih2 h.2 r hr
      | (rcases ih2 h.2 r hr with h | h | h
         · exact Or.inr (Or.inl h)
         · exact Or.inl h
         · exact Or.inr (Or.inr h))
  | project d e ih => exact ih h

theorem static_own {P N R : String → Prop} {own : List String} : ∀ {d : Dataflow F}, Static [] d → Reads P N R d → (∀ r, P r → r ∉ own) → Static own d := by
  intro d
  induction d with
  | leaf l => intro h hr hP; cases l <;> simp only [Static] at h; exact hP _ hr
  | un o d ih => intro h hr hP; cases o <;> simp only [Static] at h <;> exact ih h hr hP
  | bin o d1 d2 _ _ => intro h; cases o <;> simp [Static] at h
  | project d e ih => exact fun h hr hP => ih h hr hP

theorem stratified_own {P N R : String → Prop} {own : List String} : ∀ {d : Dataflow F}, Stratified [] d → Reads P N R d → (∀ r, N r → r ∉ own) →
    (∀ r, R r → r ∉ own) → Stratified own d := by
  intro d
  induction d with
  | leaf l =>
    intro h hr hN hR
    cases l with
    | reduce a p g => exact ⟨hR _ hr.1, fun r hg => hR _ (hr.2 r hg)⟩
    | _ => trivial
  | un o d ih =>
    intro h hr hN hR
    cases o with
    | joinIndexedVec q => exact ih h hr.2 hN hR
    | _ => exact ih h hr hN hR
  | bin o d1 d2 ih1 ih2 =>
    intro h hr hN hR
    cases o with
    | union => exact ⟨ih1 h.1 hr.1 hN hR, ih2 h.2 hr.2 hN hR⟩
    | antijoin => exact ⟨ih1 h.1 hr.1 hN hR, static_own h.2 hr.2 hN⟩
    | difference => exact ⟨ih1 h.1 hr.1 hN hR, static_own h.2 hr.2 hN⟩
    | _ => exact h
  | project d e ih => exact fun h hr hN hR => ih h hr hN hR

/-! ## Rules and strata -/

variable [LinearOrder (Val F)] {c : Prov T W} {R : Runtime F T} {E : Plan.Env F} {Q : String → Prop} {M : Prop}

theorem headFlow_nice {Wd : World F} (hO : E.Orders) (hE : ∀ r, E.indexed r = false) (hQ : ∀ a, Q a → R.TagFree a) (hM : M → ∀ x y, c.minus x y = none)
    {hd : Head String F} {d : Plan F} {need dup} {s : St F} {r} (hn : Neat Q M true d) (hf : Fits Wd E d need dup) (hs : s.Nice c R)
    (h : headFlow E hd d false s = some r) : Nice c R r.1 ∧ r.2.Nice c R := by
  cases hd with
  | atom a =>
    simp only [headFlow, atomHeadFlow, Option.bind_eq_some_iff, Option.map_eq_some_iff] at h
    obtain ⟨g, _, r1, hr, f', hf', rfl⟩ := h
    have m := toRam_nice hO hE hQ hM hn hf rfl hs hr
    have hnf : Nice c R f' := by
      split at hf'
      · simp only [Option.map_eq_some_iff] at hf'
        obtain ⟨e, _, rfl⟩ := hf'
        exact ⟨m.nice.strat, m.nice.sorted, m.nice.foreign, m.nice.discrete⟩
      · split at hf'
        · simp only [Option.map_eq_some_iff] at hf'
          obtain ⟨e, _, rfl⟩ := hf'
          exact ⟨m.nice.strat, m.nice.sorted, m.nice.foreign, m.nice.discrete⟩
        · simp only [Option.some.injEq] at hf'
          rw [← hf']
          exact m.nice
    refine ⟨?_, m.st⟩
    show Nice c R (if E.magic a.predicate then _ else _)
    split
    · exact ⟨hnf.strat, hnf.sorted, hnf.foreign, hnf.discrete⟩
    · exact hnf
  | disj as =>
    cases as with
    | nil => simp [headFlow, disjHeadFlow] at h
    | cons a as =>
      simp only [headFlow, disjHeadFlow] at h
      split at h
      · cases h
      · simp only [Option.bind_eq_some_iff, Option.map_eq_some_iff] at h
        obtain ⟨r1, hr, es, _, rfl⟩ := h
        have m := toRam_nice hO hE hQ hM hn hf rfl hs hr
        exact ⟨⟨m.nice.strat, m.nice.sorted, m.nice.foreign, m.nice.discrete⟩, m.st⟩

/-- What is needed of a rule. -/
structure RuleNice (c : Prov T W) (R : Runtime F T) (Wd : World F) (E : Plan.Env F) (r : SRule F) : Prop where
  ok : RuleOk Wd E E.numBounded r.body (headVars r.head)
  temps : r.inPlace = false
  vars : ∀ a ∈ posOf r.body, (∀ t ∈ a.args, t.const? = none) → (atomVars a).Nodup
  aggs : ∀ q ∈ reducesOf r.body, R.TagFree q.aggregator
  neg : negOf r.body ≠ [] → ∀ a b, c.minus a b = none

theorem ruleFlow_nice {Wd : World F} (hO : E.Orders) (hE : ∀ r, E.indexed r = false) {S : Search} (hS : S.Lawful) {q : SRule F} (hq : RuleNice c R Wd E q)
    {s : St F} {r} (hs : s.Nice c R) (h : ruleFlow E S q.head q.body q.inPlace s = some r) : Nice c R r.1 ∧ r.2.Nice c R := by
  simp only [ruleFlow, Option.bind_eq_some_iff] at h
  obtain ⟨x, hx, d, hd, h⟩ := h
  obtain ⟨x', d', hx', hd', hf, _⟩ := queryPlan_good hS hq.ok
  rw [hx] at hx'
  cases hx'
  rw [hd] at hd'
  cases hd'
  rw [hq.temps] at h
  exact headFlow_nice (Q := R.TagFree) (M := ∀ a b, c.minus a b = none) hO hE (fun _ h => h) (fun h => h)
    (queryPlan_neat hS hq.ok.nofp hq.ok.noff hq.vars hq.aggs hq.neg hx hd) hf hs h

theorem rulesFlow_nice {Wd : World F} (hO : E.Orders) (hE : ∀ r, E.indexed r = false) {S : Search} (hS : S.Lawful) : ∀ {qs : List (SRule F)} {s : St F} {r},
    (∀ q ∈ qs, RuleNice c R Wd E q) → s.Nice c R → rulesFlow E S qs s = some r → (∀ u ∈ r.1, Nice c R u.flow) ∧ r.2.Nice c R
  | [], s, r, _, hs, h => by
    simp only [rulesFlow, Option.some.injEq] at h
    subst h
    exact ⟨by simp, hs⟩
  | q :: qs, s, r, hq, hs, h => by
    simp only [rulesFlow, Option.bind_eq_some_iff, Option.map_eq_some_iff] at h
    obtain ⟨p, _, f, hf, us, hus, rfl⟩ := h
    obtain ⟨h1, h2⟩ := ruleFlow_nice hO hE hS (hq q (by simp)) hs hf
    obtain ⟨h3, h4⟩ := rulesFlow_nice hO hE hS (fun q hq' => hq q (by simp [hq'])) h2 hus
    refine ⟨?_, h4⟩
    intro u hu
    rcases List.mem_cons.mp hu with rfl | hu
    · exact h1
    · exact h3 u hu

/-- Everything in the strata meets the conditions. -/
def AllNice (c : Prov T W) (R : Runtime F T) (sts : List (Ram.Stratum F)) : Prop := ∀ st ∈ sts, ∀ u ∈ st.updates, Nice c R u.flow

theorem strataFlow_nice {Wd : World F} (hO : E.Orders) (hE : ∀ r, E.indexed r = false) {S : Search} (hS : S.Lawful) {rules : List (SRule F)} :
    ∀ {strata : List (List String)} {s : St F} {r}, (∀ D ∈ strata, ∀ p ∈ D, ∀ q ∈ rulesOf rules p, RuleNice c R Wd E q) → s.Nice c R →
      strataFlow E S rules strata s = some r → AllNice c R r.1 ∧ r.2.Nice c R
  | [], s, r, _, hs, h => by
    simp only [strataFlow, Option.some.injEq] at h
    subst h
    exact ⟨by simp [AllNice], hs⟩
  | D :: strata, s, r, hq, hs, h => by
    simp only [strataFlow, stratumFlow, Option.bind_eq_some_iff, Option.map_eq_some_iff] at h
    obtain ⟨r1, ⟨f, hf, rfl⟩, r2, h2, rfl⟩ := h
    have hs0 : St.Nice c R { s with temps := [] } := by
      intro n d h
      rcases h with h | h
      · cases h
      · exact hs n d (Or.inr h)
    obtain ⟨h3, h4⟩ := rulesFlow_nice (qs := D.flatMap (rulesOf rules)) hO hE hS (by
      intro q hq'
      obtain ⟨p, hp, hq'⟩ := List.mem_flatMap.mp hq'
      exact hq D (by simp) p hp q hq') hs0 hf
    obtain ⟨h5, h6⟩ := strataFlow_nice hO hE hS (fun D hD => hq D (by simp [hD])) h4 h2
    refine ⟨?_, h6⟩
    intro st hst u hu
    rcases List.mem_cons.mp hst with rfl | hst
    · simp only [List.mem_append, List.mem_map, Prod.exists] at hu
      rcases hu with ⟨n, d, hd, rfl⟩ | hu
      · exact h4 n d (Or.inl hd)
      · exact h3 u hu
    · exact h5 st hst u hu

theorem addPerms_nice {perms : List (String × Perm)} {st st' : Ram.Stratum F} (hst : ∀ u ∈ st.updates, Nice c R u.flow) (h : addPerms perms st = some st') :
    ∀ u ∈ st'.updates, Nice c R u.flow := by
  simp only [addPerms, Option.map_eq_some_iff] at h
  obtain ⟨us, hus, rfl⟩ := h
  intro u hu
  rcases List.mem_append.mp hu with hu | hu
  · exact hst u hu
  · have key : ∀ {l : List (String × Perm)} {us : List (Update F)}, l.mapM (fun q => permUpdate (F := F) q.1 q.2) = some us → u ∈ us → Nice c R u.flow := by
      intro l
      induction l with
      | nil => intro us h hu; simp at h; subst h; cases hu
      | cons q l ih =>
        intro us h hu
        rw [List.mapM_cons] at h
        simp only [Option.bind_eq_bind, Option.bind_eq_some_iff, Option.pure_def, Option.some.injEq] at h
        obtain ⟨v, hv, vs, hvs, rfl⟩ := h
        rcases List.mem_cons.mp hu with rfl | hu
        · simp only [permUpdate, Option.map_eq_some_iff] at hv
          obtain ⟨e, _, rfl⟩ := hv
          exact ⟨trivial, trivial, trivial, trivial⟩
        · exact ih hvs hu
    exact key hus hu

theorem placeNegs_nice : ∀ {sts : List (Ram.Stratum F)} {acc negs}, AllNice c R sts → (∀ n ∈ negs, Nice c R n.2) → AllNice c R (placeNegs acc negs sts)
  | [], _, _, _, _ => by simp [placeNegs, AllNice]
  | st :: sts, acc, negs, h, hn => by
    intro st' hst' u hu
    simp only [placeNegs] at hst'
    rcases List.mem_cons.mp hst' with rfl | hst'
    · rcases List.mem_append.mp hu with hu | hu
      · exact h st (by simp) u hu
      · obtain ⟨n, hn', rfl⟩ := List.mem_map.mp hu
        exact hn n (List.mem_filter.mp hn').1
    · exact placeNegs_nice (fun st hst => h st (by simp [hst])) (fun n hn' => hn n (List.mem_filter.mp hn').1) st' hst' u hu

theorem compileStrata_nice {Wd : World F} (hO : E.Orders) (hE : ∀ r, E.indexed r = false) {S : Search} (hS : S.Lawful) {rules : List (SRule F)}
    {strata : List (List String)} (hq : ∀ D ∈ strata, ∀ p ∈ D, ∀ q ∈ rulesOf rules p, RuleNice c R Wd E q) {ram}
    (h : compileStrata E S rules strata = some ram) : AllNice c R ram := by
  simp only [compileStrata, Option.bind_eq_some_iff, Option.map_eq_some_iff] at h
  obtain ⟨r, hr, sts, hsts, rfl⟩ := h
  obtain ⟨h1, h2⟩ := strataFlow_nice hO hE hS hq (by intro n d h; rcases h with h | h <;> cases h) hr
  refine placeNegs_nice ?_ (fun n hn => h2 n.1 n.2 (Or.inr hn))
  have key : ∀ {l sts : List (Ram.Stratum F)}, AllNice c R l → l.mapM (addPerms r.2.perms) = some sts → AllNice c R sts := by
    intro l
    induction l with
    | nil => intro sts _ h; simp at h; subst h; simp [AllNice]
    | cons q l ih =>
      intro sts hl h
      rw [List.mapM_cons] at h
      simp only [Option.bind_eq_bind, Option.bind_eq_some_iff, Option.pure_def, Option.some.injEq] at h
      obtain ⟨v, hv, vs, hvs, rfl⟩ := h
      intro st hst
      rcases List.mem_cons.mp hst with rfl | hst
      · exact addPerms_nice (hl q (by simp)) hv
      · exact ih (fun st hst => hl st (by simp [hst])) hvs st hst
  exact key h1 hsts

/-! ## Programs -/

variable {arity : String → Nat} {rules : List (SRule F)} {strata : List (List String)} {facts : Interp (Tup (Val F))} {decl : String → Decl}

theorem runnable_nice (ok : ProgramOk (R.setting c) E arity rules strata facts) (run : Runnable c R E rules strata decl) :
    ∀ D ∈ strata, ∀ p ∈ D, ∀ q ∈ rulesOf rules p, RuleNice c R (topWorld (R.setting c) E arity) E q := by
  intro D hD p hp q hq
  obtain ⟨k, hk⟩ := List.mem_iff_getElem?.mp hD
  simp only [rulesOf, List.mem_filter, decide_eq_true_eq] at hq
  exact ⟨(ok.rule k D hk q hq.1 p hp hq.2).1, run.temps q hq.1, run.vars q hq.1, run.aggs q hq.1, run.neg q hq.1⟩

/-- `compiled_ok` for dataflows that meet the conditions. -/
theorem compiled_ok_of {G : Setting F} {S : Search} (hS : S.Lawful) (ok : ProgramOk G E arity rules strata facts)
    (hplain : ∀ r, (decl r).indexed = false) (hw : ∀ r, (decl r).immutable = true → r ∈ strata.flatten ∧ ∀ q ∈ rules, headPred q.head ≠ some r)
    {ram} (h : compileStrata E S rules strata = some ram) (hn : AllNice c R ram) : Program.Ok R ⟨ram, decl⟩ := by
  obtain ⟨ss, sN, k⟩ := ok.comp hS h
  refine ⟨?_, ?_, ?_, ?_, fun r _ => hplain r⟩
  · intro i j st st' r hi hj h1 h2
    exact k.at_unique ok.nodup ok.names ((k.rel i st hi r).mp h1) ((k.rel j st' hj r).mp h2)
  · intro st hst u hu
    obtain ⟨i, hi⟩ := List.mem_iff_getElem?.mp hst
    refine ⟨k.own G hi _ ⟨u, hu, rfl⟩, ?_⟩
    by_contra him
    obtain ⟨h1, h2⟩ := hw u.target (by simpa using him)
    obtain ⟨s, D, hs, hD⟩ := k.get' hi
    rcases k.update hD hs hi hu with ⟨q, hq, _, h3, _⟩ | h3
    · exact h2 q hq h3
    · exact k.aux_not_user ok.names h3 h1
  · intro i st u hi hu r hr
    have : ∃ j, j ≤ i ∧ At strata ss sN j r := by
      rcases reads_deps (k.looks hi hu) r hr with h | ⟨j, hj, h⟩ | ⟨j, hj, h⟩
      · exact h
      · exact ⟨j, Nat.le_of_lt hj, h⟩
      · exact ⟨j, Nat.le_of_lt hj, h⟩
    obtain ⟨j, hj, h⟩ := this
    have hlt := Nat.lt_of_le_of_lt hj (List.getElem?_eq_some_iff.mp hi).1
    exact ⟨j, _, hj, List.getElem?_eq_getElem hlt, (k.rel j _ (List.getElem?_eq_getElem hlt) r).mpr h⟩
  · intro st hst u hu
    obtain ⟨i, hi⟩ := List.mem_iff_getElem?.mp hst
    have := hn st hst u hu
    have hne : ∀ r, (∃ j, j < i ∧ At strata ss sN j r) → r ∉ st.relations := by
      rintro r ⟨j, hj, hat⟩ hr
      have := k.at_unique ok.nodup ok.names hat ((k.rel i st hi r).mp hr)
      omega
    exact ⟨stratified_own this.strat (k.looks hi hu) hne hne, this.sorted, this.foreign⟩

theorem compiled_ok (hO : E.Orders) {S : Search} (hS : S.Lawful) (ok : ProgramOk (R.setting c) E arity rules strata facts)
    (run : Runnable c R E rules strata decl) {ram} (h : compileStrata E S rules strata = some ram) :
    Program.Ok R ⟨ram, decl⟩ ∧ Program.Discrete c R ⟨ram, decl⟩ := by
  have hn := compileStrata_nice (Wd := topWorld (R.setting c) E arity) hO (fun r => (run.plain r).1) hS (runnable_nice ok run) h
  exact ⟨compiled_ok_of hS ok (fun r => (run.plain r).2) run.writable h hn, fun st hst u hu => (hn st hst u hu).discrete⟩

end Scallop.Plan
