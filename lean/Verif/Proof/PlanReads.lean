import Verif.Proof.Reads

/-!
# What the dataflows of rules look at
-/

namespace Scallop.Plan

open Scallop.Back Scallop.Ram

variable {F : Type}

/-- The plan looks at relations in `A` for what they contain, at relations in `B` for what they lack, at relations in `R` to aggregate. -/
def PlanReads (A B R : String → Prop) : Plan F → Prop
  | .unit | .fpGround _ _ => True
  | .reduce r => R r.body ∧ ∀ p, r.groupByPred = some p → R p
  | .ground a => A a.predicate
  | .project _ d _ | .filter _ d _ | .fpConstraint _ d _ | .fpJoin d _ _ => PlanReads A B R d
  | .join d1 d2 => PlanReads A B R d1 ∧ PlanReads A B R d2
  | .antijoin d1 d2 => PlanReads A B R d1 ∧ ∃ a, d2 = .ground a ∧ B a.predicate ∧ NoChain a ∧ NoConstNames (atomVars a)

section
variable {A B R : String → Prop} {lo : Nat} {E : Env F}

theorem Out.then {s : St F} {r r' : Dataflow F × St F} (h : Out A B R lo false s r) (h' : Out A B R lo false r.2 r') :
    Reads (RdP A r'.2) (RdN B r'.2) R r.1 := reads_mono h'.le h.reads

theorem projectFlow_out {sub : VTuple → DProp → St F → Res F}
    (hsub : ∀ goal p s r, p.isNegative = false → Inv A B R lo s → sub goal p s = some r → Out A B R lo false s r) {b : List String} :
    ∀ {fuel goal assigns p s r}, p.isNegative = false → Inv A B R lo s → projectFlow E sub b fuel goal assigns p s = some r → Out A B R lo false s r
  | 0, _, _, _, _, _, _, _, h => by simp [projectFlow] at h
  | fuel + 1, goal, assigns, p, s, r, hp, hs, h => by
    rw [projectFlow] at h
    simp only at h
    split at h
    · exact hsub goal p s r hp hs h
    · split at h
      · cases h
      · simp only [Option.bind_eq_some_iff, Option.map_eq_some_iff] at h
        obtain ⟨r1, h1, e, _, rfl⟩ := h
        have m := projectFlow_out (p := { p with needSorted := false }) hsub hp hs h1
        rw [← hp]
        exact process_out m.le m.inv (by rw [hp]; exact m.reads)

/-- The dataflow of a plan looks at what the plan looks at. -/
theorem toRam_out : ∀ {d : Plan F} {goal p s r}, p.isNegative = false → PlanReads A B R d → Inv A B R lo s → toRam E d goal p s = some r →
    Out A B R lo false s r
  | .unit, goal, p, s, r, hp, hd, hs, h => by
    simp only [toRam, Option.map_eq_some_iff] at h
    obtain ⟨t, _, rfl⟩ := h
    exact ⟨St.Le.refl s, hs, trivial⟩
  | .reduce q, goal, p, s, r, hp, hd, hs, h => by
    simp only [toRam, reduceFlow, Option.map_eq_some_iff] at h
    obtain ⟨e, _, rfl⟩ := h
    rw [← hp]
    refine process_out (St.Le.refl s) hs ?_
    rw [hp]
    refine ⟨hd.1, fun r hr => hd.2 r ?_⟩
    unfold reduceGroupBy at hr
    split at hr
    · cases hr
    · split at hr
      · rename_i e
        rw [e]
        simpa using hr
      · cases hr
  | .ground a, goal, p, s, r, hp, hd, hs, h => by
    rw [← hp]
    refine groundFlow_out hs ?_ (by rw [hp]; intro h; cases h) h
    rw [hp]
    exact hd
  | .project b d as, goal, p, s, r, hp, hd, hs, h =>
    projectFlow_out (fun _ _ _ _ hp hs h => toRam_out (d := d) hp hd hs h) hp hs h
  | .filter b d cs, goal, p, s, r, hp, hd, hs, h => by
    simp only [toRam, Option.bind_eq_some_iff, Option.map_eq_some_iff] at h
    obtain ⟨r1, h1, f, _, e, _, rfl⟩ := h
    have m := toRam_out (d := d) hp hd hs h1
    rw [← hp]
    exact process_out m.le m.inv (by rw [hp]; exact m.reads)
  | .join d1 d2, goal, p, s, r, hp, hd, hs, h => by
    rw [toRam] at h
    simp only at h
    split at h
    · simp only [Option.bind_eq_some_iff, Option.map_eq_some_iff] at h
      obtain ⟨r1, h1, r2, h2, e, _, rfl⟩ := h
      have m := toRam_out rfl hd.1 hs h1
      have n := toRam_out rfl hd.2 m.inv h2
      rw [← hp]
      exact process_out (m.le.trans n.le) n.inv (by rw [hp]; exact ⟨m.then n, n.reads⟩)
    · split at h
      · simp only [Option.bind_eq_some_iff] at h
        obtain ⟨r1, h1, r2, h2, h⟩ := h
        have m := toRam_out rfl hd.1 hs h1
        have n := toRam_out rfl hd.2 m.inv h2
        split at h
        · simp only [Option.some.injEq] at h
          subst h
          exact ⟨m.le.trans n.le, n.inv, ⟨reads_mono n.le m.reads, n.reads⟩⟩
        · simp only [Option.map_eq_some_iff] at h
          obtain ⟨e, _, rfl⟩ := h
          rw [← hp]
          exact process_out (m.le.trans n.le) n.inv (by rw [hp]; exact ⟨m.then n, n.reads⟩)
      · simp only [Option.bind_eq_some_iff, Option.map_eq_some_iff] at h
        obtain ⟨r1, h1, r2, h2, e, _, h⟩ := h
        have m := toRam_out rfl hd.1 hs h1
        have n := toRam_out rfl hd.2 m.inv h2
        split at h
        · rename_i rel hrel
          subst h
          rw [← hp]
          refine process_out (m.le.trans n.le) n.inv ?_
          rw [hp]
          refine ⟨?_, m.then n⟩
          have hr := n.reads
          unfold indexedVec? at hrel
          split at hrel
          · rename_i e'
            split at hrel
            · rw [e'] at hr
              cases hrel
              exact hr
            · cases hrel
          · cases hrel
        · subst h
          rw [← hp]
          exact process_out (m.le.trans n.le) n.inv (by rw [hp]; exact ⟨m.then n, n.reads⟩)
  | .antijoin d1 d2, goal, p, s, r, hp, hd, hs, h => by
    obtain ⟨hd1, a, rfl, ha, hch, hcn⟩ := hd
    have neg : ∀ {goal p} {s : St F} {r}, p.isNegative = true → Inv A B R lo s → toRam E (.ground a) goal p s = some r → St.Le s r.2 ∧ Inv A B R lo r.2 ∧
        Reads (RdN B r.2) (RdP A r.2) R r.1 := by
      intro goal p s r hp hs h
      have := groundFlow_out (p := p) hs (by rw [hp]; exact ha) (fun _ => ⟨hch, hcn⟩) h
      have h3 := this.reads
      rw [hp] at h3
      exact ⟨this.le, this.inv, h3.mono (fun _ h => h) (fun _ h => h.elim) (fun _ h => h.elim)⟩
    rw [toRam] at h
    simp only at h
    split at h
    · simp only [Option.bind_eq_some_iff] at h
      obtain ⟨r1, h1, r2, h2, h⟩ := h
      have m := toRam_out rfl hd1 hs h1
      obtain ⟨n1, n2, n3⟩ := neg rfl m.inv h2
      split at h
      · simp only [Option.some.injEq] at h
        subst h
        exact ⟨m.le.trans n1, n2, ⟨reads_mono n1 m.reads, n3⟩⟩
      · simp only [Option.map_eq_some_iff] at h
        obtain ⟨e, _, rfl⟩ := h
        rw [← hp]
        exact process_out (m.le.trans n1) n2 (by rw [hp]; exact ⟨reads_mono n1 m.reads, n3⟩)
    · simp only [Option.bind_eq_some_iff, Option.map_eq_some_iff] at h
      obtain ⟨r1, h1, r2, h2, e, _, rfl⟩ := h
      have m := toRam_out rfl hd1 hs h1
      obtain ⟨n1, n2, n3⟩ := neg rfl m.inv h2
      rw [← hp]
      exact process_out (m.le.trans n1) n2 (by rw [hp]; exact ⟨reads_mono n1 m.reads, n3⟩)
  | .fpGround a free, goal, p, s, r, hp, hd, hs, h => by
    simp only [toRam, Option.bind_eq_some_iff, Option.map_eq_some_iff] at h
    obtain ⟨cs, _, e, _, rfl⟩ := h
    rw [← hp]
    exact process_out (St.Le.refl s) hs (by rw [hp]; trivial)
  | .fpConstraint b d a, goal, p, s, r, hp, hd, hs, h => by
    simp only [toRam, Option.bind_eq_some_iff, Option.map_eq_some_iff] at h
    obtain ⟨r1, h1, es, _, e, _, rfl⟩ := h
    have m := toRam_out (d := d) (p := { p with needSorted := false }) hp hd hs h1
    rw [← hp]
    exact process_out m.le m.inv (by rw [hp]; exact m.reads)
  | .fpJoin d a free, goal, p, s, r, hp, hd, hs, h => by
    simp only [toRam, Option.bind_eq_some_iff, Option.map_eq_some_iff] at h
    obtain ⟨r1, h1, es, _, e, _, rfl⟩ := h
    have m := toRam_out (d := d) (p := { p with needSorted := false }) hp hd hs h1
    rw [← hp]
    exact process_out m.le m.inv (by rw [hp]; exact m.reads)

theorem headFlow_out {hd : Head String F} {d : Plan F} {inPlace} {s : St F} {r} (hd' : PlanReads A B R d) (hs : Inv A B R lo s)
    (h : headFlow E hd d inPlace s = some r) : Out A B R lo false s r := by
  cases hd with
  | atom a =>
    simp only [headFlow, atomHeadFlow, Option.bind_eq_some_iff, Option.map_eq_some_iff] at h
    obtain ⟨g, _, r1, hr, f', hf', rfl⟩ := h
    have m := toRam_out rfl hd' hs hr
    have hf : Reads (RdP A r1.2) (RdN B r1.2) R f' := by
      split at hf'
      · simp only [Option.map_eq_some_iff] at hf'
        obtain ⟨e, _, rfl⟩ := hf'
        exact m.reads
      · split at hf'
        · simp only [Option.map_eq_some_iff] at hf'
          obtain ⟨e, _, rfl⟩ := hf'
          exact m.reads
        · simp only [Option.some.injEq] at hf'
          rw [← hf']
          exact m.reads
    refine ⟨m.le, m.inv, ?_⟩
    show Reads _ _ _ (if E.magic a.predicate then _ else _)
    split
    · exact hf
    · exact hf
  | disj as =>
    cases as with
    | nil => simp [headFlow, disjHeadFlow] at h
    | cons a as =>
      simp only [headFlow, disjHeadFlow] at h
      split at h
      · cases h
      · simp only [Option.bind_eq_some_iff, Option.map_eq_some_iff] at h
        obtain ⟨r1, hr, es, _, rfl⟩ := h
        have m := toRam_out rfl hd' hs hr
        exact ⟨m.le, m.inv, m.reads⟩

/-! ## What plans look at -/

/-- The rule looks at relations in `A` for what they contain, at relations in `B` for what they lack, at relations in `R` to aggregate. -/
structure RuleReads (A B R : String → Prop) (body : List (Lit String F Reduce)) : Prop where
  pos : ∀ a ∈ posOf body, A a.predicate
  neg : ∀ a ∈ negOf body, B a.predicate ∧ NoChain a ∧ NoConstNames (atomVars a)
  red : ∀ r ∈ reducesOf body, R r.body ∧ ∀ p, r.groupByPred = some p → R p

theorem reduces_reads : ∀ (rs : List Reduce) (d : Plan F), PlanReads A B R d → (∀ r ∈ rs, R r.body ∧ ∀ p, r.groupByPred = some p → R p) →
    PlanReads A B R (rs.foldl (fun d r => Plan.join d (.reduce r)) d)
  | [], _, hd, _ => hd
  | r :: rs, d, hd, h => by
    rw [List.foldl_cons]
    exact reduces_reads rs _ ⟨hd, h r (by simp)⟩ (fun r hr => h r (by simp [hr]))

theorem Built.reads {c : Ctx F} (hpos : ∀ a ∈ c.pos, A a.predicate) (hred : ∀ r ∈ c.reduces, R r.body ∧ ∀ p, r.groupByPred = some p → R p)
    {Q as cs d} (h : Built c Q as cs d) : (∀ a ∈ Q, A a.predicate) ∧ PlanReads A B R d := by
  induction h with
  | unit h _ => exact ⟨fun a ha => hpos a (h.subset ha), trivial⟩
  | ground h _ => exact ⟨fun a ha => hpos a (h.subset (by simp [ha])), hpos _ (h.subset (by simp))⟩
  | @reduces Q r rs h e =>
    refine ⟨fun a ha => hpos a (h.subset ha), reduces_reads rs _ (hred r (by simp [e])) (fun r hr => hred r (by simp [e, hr]))⟩
  | join _ ih => exact ⟨fun a ha => ih.1 a (by simp [ha]), ih.2, ih.1 _ (by simp)⟩
  | project _ _ ih => exact ih
  | filter _ _ ih => exact ih

theorem antis_reads : ∀ (ns : List (Atom String F)) (d : Plan F), PlanReads A B R d →
    (∀ a ∈ ns, B a.predicate ∧ NoChain a ∧ NoConstNames (atomVars a)) → PlanReads A B R (ns.foldl (fun d a => Plan.antijoin d (.ground a)) d)
  | [], _, hd, _ => hd
  | a :: ns, d, hd, h => by
    rw [List.foldl_cons]
    exact antis_reads ns _ ⟨hd, a, rfl, h a (by simp)⟩ (fun a ha => h a (by simp [ha]))

/-- The plan of a rule looks at what the rule looks at. -/
theorem queryPlan_reads {S : Search} (hS : S.Lawful) {nb : String → Option Nat} {body : List (Lit String F Reduce)}
    (h1 : ∀ a ∈ posOf body, nb a.predicate = none) (h2 : Lit.ff ∉ body) (hr : RuleReads A B R body) {c d}
    (hc : Ctx.fromRule nb body = some c) (hd : queryPlan S c = some d) : PlanReads A B R d := by
  obtain ⟨c', e, hc'⟩ := fromRule_spec h1 h2
  rw [hc] at e
  cases e
  obtain ⟨order, e1, hperm⟩ := atomOrder_spec hS (n := c.pos.length) (beam := 5) (by decide)
  obtain ⟨p1, d1, rest, e2, p2, d2, e3, hb, hx⟩ := built_of_order hc'.fps hperm
  simp only [queryPlan, e1, Option.bind_some, queryPlanOf, e2, e3, Option.map_some, Option.some.injEq] at hd
  subst hd
  have hap : ∀ d, PlanReads A B R d → PlanReads A B R (applyNew c d) := by
    intro d hd
    rw [applyNew]
    split
    · exact hd
    · exact hd
  refine hap _ (antis_reads _ _ (hb.reads ?_ ?_).2 ?_)
  · rw [hc'.pos]; exact hr.pos
  · rw [hc'.reduces]; exact hr.red
  · rw [hc'.neg]; exact hr.neg

/-- The update of a rule looks at what the rule looks at. -/
theorem ruleFlow_out {S : Search} (hS : S.Lawful) {body : List (Lit String F Reduce)}
    (h1 : ∀ a ∈ posOf body, E.numBounded a.predicate = none) (h2 : Lit.ff ∉ body) (hr : RuleReads A B R body) {head inPlace} {s : St F} {r}
    (hs : Inv A B R lo s) (h : ruleFlow E S head body inPlace s = some r) : Out A B R lo false s r := by
  simp only [ruleFlow, Option.bind_eq_some_iff] at h
  obtain ⟨c, hc, d, hd, h⟩ := h
  exact headFlow_out (queryPlan_reads hS h1 h2 hr hc hd) hs h

end

end Scallop.Plan
