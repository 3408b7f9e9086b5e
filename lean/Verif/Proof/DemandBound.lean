import Verif.Proof.DemandMain

/-!
# The rules for what is demanded can be planned

Every variable of such a rule, those of negated atoms aside, gets a value from its atoms and assignments.
-/

namespace Scallop.Plan

open Scallop.Back Scallop.Ram

variable {F : Type}

theorem removeUngrounded_mem {base base' : List (Lit String F Reduce)} (h : removeUngrounded base = some base') (l : Lit String F Reduce) :
    l ∈ base' ↔ l ∈ base ∧ (∀ x e, l = .assign x e → ∀ y ∈ e.vars, Gr base y) ∧ (∀ op a b, l = .cbin op a b → ∀ y ∈ (Con.bin op a b).vars, Gr base y) ∧
      ∀ a, l = .cnot a → ∀ y ∈ (Con.not a).vars, Gr base y := by
  simp only [removeUngrounded, Option.map_eq_some_iff] at h
  obtain ⟨g, hg, rfl⟩ := h
  obtain ⟨g', hg', hgr⟩ := grounded_spec base
  rw [hg] at hg'
  cases hg'
  rw [List.mem_filter]
  refine and_congr Iff.rfl ?_
  cases l with
  | assign x e => simp [hgr]
  | cbin op a b =>
    simp only [List.all_eq_true, List.contains_eq_mem, decide_eq_true_eq, List.mem_append, Option.mem_toList, hgr, reduceCtorEq, false_implies, implies_true,
      true_and, and_true, Lit.cbin.injEq, and_imp]
    constructor
    · rintro h op' a' b' rfl rfl rfl y hy
      simp only [Con.vars, List.mem_filterMap, List.mem_cons, List.not_mem_nil, or_false] at hy
      obtain ⟨t, rfl | rfl, ht⟩ := hy
      · exact h y (.inl ht)
      · exact h y (.inr ht)
    · intro h y hy
      refine h op a b rfl rfl rfl y ?_
      simp only [Con.vars, List.mem_filterMap, List.mem_cons, List.not_mem_nil, or_false]
      rcases hy with hy | hy
      · exact ⟨a, .inl rfl, hy⟩
      · exact ⟨b, .inr rfl, hy⟩
  | cnot a =>
    simp only [List.all_eq_true, List.contains_eq_mem, decide_eq_true_eq, Option.mem_toList, hgr, reduceCtorEq, false_implies, implies_true,
      true_and, Lit.cnot.injEq]
    constructor
    · rintro h a' rfl y hy
      simp only [Con.vars, List.mem_filterMap, List.mem_singleton] at hy
      obtain ⟨t, rfl, ht⟩ := hy
      exact h y ht
    · intro h y hy
      refine h a rfl y ?_
      simp only [Con.vars, List.mem_filterMap, List.mem_singleton]
      exact ⟨a, rfl, hy⟩
  | _ => simp

theorem gr_removeUngrounded {base base' : List (Lit String F Reduce)} (h : removeUngrounded base = some base') {x : String} (hx : Gr base x) : Gr base' x := by
  induction hx with
  | atom ha hx => exact .atom ((removeUngrounded_mem h _).2 ⟨ha, by simp⟩) hx
  | @assign x e he hy ih =>
    refine .assign ((removeUngrounded_mem h _).2 ⟨he, ?_, by simp⟩) ih
    rintro x' e' h'
    cases h'
    exact hy

theorem mem_posOf {body : List (Lit String F Reduce)} {a : Atom String F} : a ∈ posOf body ↔ .atom a ∈ body := by
  simp only [posOf, List.mem_filterMap]
  constructor
  · rintro ⟨l, hl, h⟩
    cases l <;> simp at h
    subst h
    exact hl
  · exact fun h => ⟨_, h, rfl⟩

theorem mem_assignsOf {body : List (Lit String F Reduce)} {x : String} {e : AExpr String F} : (x, e) ∈ assignsOf body ↔ .assign x e ∈ body := by
  simp only [assignsOf, List.mem_filterMap]
  constructor
  · rintro ⟨l, hl, h⟩
    cases l <;> simp at h
    obtain ⟨rfl, rfl⟩ := h
    exact hl
  · exact fun h => ⟨_, h, rfl⟩

theorem bound_of_gr {base : List (Lit String F Reduce)} (hnew : ∀ x e, .assign x e ∈ base → isNew e = false) {x : String} (hx : Gr base x) :
    Bound base (fun _ => False) x := by
  induction hx with
  | @atom a x ha hx => exact .atom (mem_posOf.2 ha) (List.mem_filterMap.2 ⟨_, hx, rfl⟩) (by simp)
  | @assign x e he _ ih => exact .assign (mem_assignsOf.2 he) (hnew _ _ he) id ih

/-- Every atom is looked up where the variables in its given arguments are known; only atoms are added to what is known. -/
theorem sips_gr : ∀ (n : Nat) (base : List (Lit String F Reduce)) (todo : List (Atom String F × Adornment)) (arcs : List (SipArc F)),
    sips n base todo = some (some arcs) → ∀ arc ∈ arcs, (∀ l ∈ arc.lhs, l ∈ base ∨ ∃ a, l = .atom a) ∧
      ∀ q ∈ arc.rhs, ∀ x ∈ boundedVarsOf q.2.pattern q.1.args, Gr arc.lhs x
  | 0, _, _, _, h => by simp [sips] at h
  | n + 1, base, todo, arcs, h => by
    simp only [sips, Option.bind_eq_some_iff] at h
    obtain ⟨g, hg, h⟩ := h
    obtain ⟨g', hg', hgr⟩ := grounded_spec base
    rw [hg] at hg'
    cases hg'
    have first : ∀ q ∈ todo.filter (fun q => (boundedVarsOf q.2.pattern q.1.args).all g.contains), ∀ x ∈ boundedVarsOf q.2.pattern q.1.args, Gr base x := by
      intro q hq x hx
      have := (List.mem_filter.1 hq).2
      simp only [List.all_eq_true, List.contains_eq_mem, decide_eq_true_eq] at this
      exact (hgr x).1 (this x hx)
    split at h
    · simp only [Option.some.injEq] at h
      subst h
      intro arc harc
      rw [List.mem_singleton] at harc
      subst harc
      exact ⟨fun l hl => .inl hl, first⟩
    · split at h
      · cases h
      · simp only [Option.map_eq_some_iff] at h
        obtain ⟨r, h1, arcs', rfl, rfl⟩ := h
        intro arc harc
        rcases List.mem_cons.1 harc with rfl | harc
        · exact ⟨fun l hl => .inl hl, first⟩
        · obtain ⟨h2, h3⟩ := sips_gr n _ _ _ h1 arc harc
          refine ⟨fun l hl => ?_, h3⟩
          rcases h2 l hl with h | h
          · rcases List.mem_append.1 h with h | h
            · exact .inl h
            · obtain ⟨q, _, rfl⟩ := List.mem_map.1 h
              exact .inr ⟨_, rfl⟩
          · exact .inr h

theorem demandRule_plannable [DecidableEq F] {base : List (Lit String F Reduce)} {goal : Atom String F} {adm : Adornment} {dr : SRule F}
    (h : demandRule base goal adm = some (some dr)) (hnew : ∀ x e, .assign x e ∈ base → isNew e = false)
    (hgoal : ∀ x ∈ boundedVarsOf adm.pattern goal.args, Gr base x) : Plannable dr := by
  simp only [demandRule, Option.map_eq_some_iff] at h
  obtain ⟨b, hb, h⟩ := h
  split at h
  · cases h
  · simp only [Option.some.injEq] at h
    subst h
    have bd : ∀ x, Gr base x → Bound b (fun _ => False) x := fun x hx =>
      bound_of_gr (fun x e he => hnew x e ((removeUngrounded_mem hb _).1 he).1) (gr_removeUngrounded hb hx)
    refine ⟨fun x hx => bd x (hgoal x hx), ?_, ?_⟩
    · intro c hc x hx
      simp only [consOf, List.mem_filterMap] at hc
      obtain ⟨l, hl, hc⟩ := hc
      have hl' := (removeUngrounded_mem hb _).1 hl
      cases l <;> simp at hc
      · subst hc
        exact bd x (hl'.2.2.1 _ _ _ rfl x hx)
      · subst hc
        exact bd x (hl'.2.2.2 _ rfl x hx)
    · intro a ha x hx
      exact bd x (((removeUngrounded_mem hb _).1 (mem_assignsOf.1 ha)).2.1 _ _ rfl x hx)

theorem demandRules_plannable [DecidableEq F] {A : List (String × Adornment)} {body : List (Lit String F Reduce)} {ds : List (SRule F)}
    (h : demandRules A body = some ds) (hnew : ∀ x e, .assign x e ∈ body → isNew e = false) : ∀ dr ∈ ds, Plannable dr := by
  intro dr hdr
  simp only [demandRules, Option.bind_eq_some_iff] at h
  obtain ⟨r, hr, h⟩ := h
  cases r with
  | none =>
    simp only [Option.some.injEq] at h
    subst h
    simp at hdr
  | some arcs =>
    simp only [Option.map_eq_some_iff] at h
    obtain ⟨rss, h1, rfl⟩ := h
    simp only [List.mem_filterMap, List.mem_flatten, id] at hdr
    obtain ⟨o, ⟨rs, hrs, ho⟩, rfl⟩ := hdr
    obtain ⟨arc, harc, h2⟩ := (allSome_mem h1).2 rs hrs
    obtain ⟨q, hq, h3⟩ := (allSome_mem h2).2 _ ho
    obtain ⟨h4, h5⟩ := sips_gr _ _ _ _ hr arc harc
    refine demandRule_plannable h3 (fun x e he => ?_) (h5 q hq)
    rcases h4 _ he with h | ⟨a, h⟩
    · exact hnew x e (List.mem_filter.1 h).1
    · cases h

/-- The new rules are the rewritten rules and plannable ones. -/
theorem transformRules_plannable [DecidableEq F] {rels : List RelDecl} {A : List (String × Adornment)} {rules rules' : List (SRule F)}
    (hn : (rels.map RelDecl.predicate).Nodup) (hA : collectAdornments rels = some A) (h : transformRules A rules = some rules')
    (hnew : ∀ r ∈ rules, ∀ a ∈ assignsOf r.body, isNew a.2 = false) : ∀ r' ∈ rules', (∃ r ∈ rules, Rewritten rels r r') ∨ Plannable r' := by
  intro r' hr
  simp only [transformRules, Option.map_eq_some_iff] at h
  obtain ⟨rs, h1, rfl⟩ := h
  have one : ∀ x ∈ rs, ∃ r ∈ rules, Rewritten rels r x.1 := by
    intro x hx
    obtain ⟨r, h2, h3⟩ := (allSome_mem h1).2 x hx
    exact ⟨r, h2, (transformRule_spec hn hA h3).1⟩
  simp only [List.mem_append, List.mem_filter, List.mem_map, List.mem_flatMap] at hr
  rcases hr with (⟨⟨x, hx, rfl⟩, _⟩ | ⟨x, hx, hd⟩) | ⟨⟨x, hx, rfl⟩, _⟩
  · exact .inl (one x hx)
  · right
    obtain ⟨r, h2, h3⟩ := (allSome_mem h1).2 x hx
    obtain ⟨hw, h4⟩ := transformRule_spec hn hA h3
    split at h4
    · refine demandRules_plannable h4 (fun y e he => ?_) r' hd
      rcases hw.2 with ⟨_, hb⟩ | ⟨_, _, _, _, _, hb⟩ <;> rw [hb] at he
      · exact hnew r h2 _ (mem_assignsOf.2 he)
      · simp only [List.mem_append, List.mem_singleton, reduceCtorEq, or_false] at he
        exact hnew r h2 _ (mem_assignsOf.2 he)
    · simp only [Option.some.injEq] at h4
      rw [← h4] at hd
      simp at hd
  · exact .inl (one x hx)

/-- Which declarations are rejected. -/
theorem collect_none : ∀ (rels : List RelDecl), collectAdornments rels = none ↔
    ∃ r ∈ rels, ∃ s, r.demand = some s ∧ ¬ ∃ pat : List Bool, s.toList = pat.map (fun b => if b then 'b' else 'f') ∧ pat.length = r.arity
  | [] => by simp [collectAdornments]
  | r :: rs => by
    have ih := collect_none rs
    rw [collectAdornments]
    cases hd : r.demand with
    | none =>
      simp only [ih, List.mem_cons]
      constructor
      · rintro ⟨r', h1, h2⟩
        exact ⟨r', .inr h1, h2⟩
      · rintro ⟨r', rfl | h1, s, h2, h3⟩
        · rw [hd] at h2
          cases h2
        · exact ⟨r', h1, s, h2, h3⟩
    | some s =>
      simp only
      cases hp : parsePattern s with
      | none =>
        simp only [Option.bind_none, true_iff]
        refine ⟨r, by simp, s, hd, ?_⟩
        rintro ⟨pat, h1, _⟩
        rw [parsePattern_iff.2 h1] at hp
        cases hp
      | some pat =>
        simp only [Option.bind_some]
        have hp' := parsePattern_iff.1 hp
        split
        · rename_i ha
          simp only [Option.map_eq_none_iff, ih, List.mem_cons]
          constructor
          · rintro ⟨r', h1, h2⟩
            exact ⟨r', .inr h1, h2⟩
          · rintro ⟨r', rfl | h1, s', h2, h3⟩
            · rw [hd] at h2
              cases h2
              exact absurd ⟨pat, hp', ha.symm⟩ h3
            · exact ⟨r', h1, s', h2, h3⟩
        · rename_i ha
          simp only [true_iff]
          refine ⟨r, by simp, s, hd, ?_⟩
          rintro ⟨pat', h1, h2⟩
          have := parsePattern_iff.2 h1
          rw [hp] at this
          cases this
          exact ha h2.symm

end Scallop.Plan
