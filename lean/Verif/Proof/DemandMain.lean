import Verif.Proof.DemandSips

/-!
# Demand transformation: the transformed program computes what is demanded
-/

namespace Scallop.Plan

open Scallop.Back Scallop.Ram

variable {F : Type}

theorem Known.mono {rels : List RelDecl} {r : SRule F} {n : Nat} {x : String} (h : Known rels r n x) : ∀ m, n ≤ m → Known rels r m x := by
  induction h with
  | head h1 h2 h3 => exact fun m _ => .head h1 h2 h3
  | atom h1 h2 h3 => exact fun m _ => .atom h1 h2 h3
  | assign h1 _ ih => exact fun m hm => .assign h1 (fun y hy => ih y hy m hm)
  | call h1 h2 _ h4 ih =>
    intro m hm
    match m, hm with
    | m + 1, hm => exact .call h1 h2 (fun y hy => ih y hy m (by omega)) h4

section
variable {rels : List RelDecl} {A : List (String × Adornment)} {r r' : SRule F}

theorem onDemand?_eq (hn : (rels.map RelDecl.predicate).Nodup) (hA : collectAdornments rels = some A) {l : Lit String F Reduce} {q : Atom String F × Adornment} :
    onDemand? A l = some q ↔ (l = .atom q.1 ∨ l = .neg q.1) ∧ OnDemand rels q.1.predicate q.2.pattern q.2.demandPredicate := by
  obtain ⟨a, adm⟩ := q
  cases l <;> simp [onDemand?, Option.map_eq_some_iff, adornment_iff hn hA]
  all_goals
    constructor
    · rintro ⟨d, h⟩
      grind
    · rintro ⟨rfl, h⟩
      grind

theorem onDemand?_none_atom (hn : (rels.map RelDecl.predicate).Nodup) (hA : collectAdornments rels = some A) {a : Atom String F} :
    (onDemand? A (.atom a) = none ↔ ∀ pat d, ¬ OnDemand rels a.predicate pat d) ∧ (onDemand? A (.neg a) = none ↔ ∀ pat d, ¬ OnDemand rels a.predicate pat d) := by
  simp [onDemand?, adornment_none hn hA]

/-- What becomes of a rule. -/
def Rewritten (rels : List RelDecl) (r r' : SRule F) : Prop :=
  r'.head = r.head ∧ (((∀ p, headPred r.head = some p → ∀ pat d, ¬ OnDemand rels p pat d) ∧ r'.body = r.body) ∨
    ∃ a pat d, r.head = .atom a ∧ OnDemand rels a.predicate pat d ∧ r'.body = r.body ++ [.atom ⟨d, givenPart pat a.args⟩])

theorem transformRule_spec [DecidableEq F] (hn : (rels.map RelDecl.predicate).Nodup) (hA : collectAdornments rels = some A) {ds : List (SRule F)}
    (h : transformRule A r = some (r', ds)) : Rewritten rels r r' ∧
      (if r'.body.any (fun l => (onDemand? A l).isSome) then demandRules A r'.body else some []) = some ds := by
  simp only [transformRule, Option.bind_eq_some_iff, Option.map_eq_some_iff] at h
  obtain ⟨p, hp, r'', h1, ds', h2, h3⟩ := h
  cases h3
  refine ⟨?_, h2⟩
  cases ha : adornment A p with
  | none =>
    rw [ha] at h1
    cases h1
    refine ⟨rfl, .inl ⟨fun p' hp' => ?_, rfl⟩⟩
    rw [hp] at hp'
    cases hp'
    exact (adornment_none hn hA p).1 ha
  | some adm =>
    rw [ha] at h1
    simp only [onDemandRule] at h1
    split at h1
    · rename_i a hhead
      cases h1
      rw [hhead] at hp
      cases hp
      exact ⟨rfl, .inr ⟨a, adm.pattern, adm.demandPredicate, hhead, (adornment_iff hn hA _ adm).1 ha, by rw [boundedArgs_given]⟩⟩
    · cases h1

/-- The search for an order of the on-demand atoms knows what `Known` says. -/
theorem known_iff {E : Env F} {rules : List (SRule F)} {strata : List (List String)} (ok : DemandOk E rels rules strata) (hA : collectAdornments rels = some A)
    (hr : r ∈ rules) (hw : Rewritten rels r r') (n : Nat)
    (base : List (Lit String F Reduce)) (todo : List (Atom String F × Adornment))
    (inv : SipInv (Known rels r) (r'.body.filter (fun l => (onDemand? A l).isNone)) (r'.body.filterMap (onDemand? A)) n base todo) (x : String) :
    Gr base x ↔ Known rels r n x := by
  have hdem : ∀ {p pat d pat' d'}, OnDemand rels p pat d → ¬ OnDemand rels d pat' d' := fun h h' => (ok.fresh _ _ _ h).1 (ok.defined _ _ _ h').1
  have hsub : ∀ l ∈ r.body, l ∈ r'.body := by
    intro l hl
    rcases hw.2 with ⟨_, hb⟩ | ⟨_, _, _, _, _, hb⟩ <;> rw [hb] <;> simp [hl]
  constructor
  · intro h
    induction h with
    | @atom a x ha hx =>
      rcases (inv.lits _).1 ha with h | ⟨q, hq, he, hnt⟩
      · obtain ⟨h1, h2⟩ := List.mem_filter.1 h
        rw [Option.isNone_iff_eq_none] at h2
        have hnd := (onDemand?_none_atom ok.declared hA).1.1 h2
        rcases hw.2 with ⟨_, hb⟩ | ⟨b, pat, d, hhead, hod, hb⟩
        · rw [hb] at h1
          exact .atom h1 hnd hx
        · rw [hb] at h1
          rcases List.mem_append.1 h1 with h1 | h1
          · exact .atom h1 hnd hx
          · simp only [List.mem_singleton, Lit.atom.injEq] at h1
            subst h1
            exact .head hhead hod hx
      · simp only [Lit.atom.injEq] at he
        subst he
        obtain ⟨m, hm, hrd⟩ := inv.done q hq hnt
        obtain ⟨l, hl, hq'⟩ := List.mem_filterMap.1 hq
        obtain ⟨h1, h2⟩ := (onDemand?_eq ok.declared hA).1 hq'
        have hoc : Occurs r.body q.1 := by
          have : Occurs r'.body q.1 := by rcases h1 with rfl | rfl <;> simp [Occurs, hl]
          rcases hw.2 with ⟨_, hb⟩ | ⟨b, pat, d, hhead, hod, hb⟩
          · rwa [hb] at this
          · rw [hb] at this
            simp only [Occurs, List.mem_append, List.mem_singleton] at this
            rcases this with (h | h) | (h | h)
            · exact .inl h
            · simp only [Lit.atom.injEq] at h
              rw [h] at h2
              exact absurd h2 (hdem hod)
            · exact .inr h
            · cases h
        exact (Known.call hoc h2 (fun y hy => hrd y (mem_boundedVarsOf.2 hy)) hx).mono n (by omega)
    | @assign x e he _ ih =>
      rcases (inv.lits _).1 he with h | ⟨q, _, he, _⟩
      · obtain ⟨h1, _⟩ := List.mem_filter.1 h
        refine .assign ?_ ih
        rcases hw.2 with ⟨_, hb⟩ | ⟨b, pat, d, hhead, hod, hb⟩
        · rwa [hb] at h1
        · rw [hb] at h1
          simpa using h1
      · cases he
  · intro h
    have keep : ∀ l ∈ r'.body, onDemand? A l = none → l ∈ base := fun l hl hno => (inv.lits l).2 (.inl (List.mem_filter.2 ⟨hl, by simp [hno]⟩))
    induction h with
    | @head n a pat d x hhead hod hx =>
      rcases hw.2 with ⟨hno, _⟩ | ⟨b, pat', d', hhead', hod', hb⟩
      · exact absurd hod (hno a.predicate (by rw [hhead]; rfl) pat d)
      · rw [hhead] at hhead'
        cases hhead'
        obtain ⟨rfl, rfl⟩ := onDemand_unique ok.declared hod hod'
        exact .atom (a := ⟨d, givenPart pat a.args⟩) (keep _ (by rw [hb]; simp) ((onDemand?_none_atom ok.declared hA).1.2 (fun _ _ => hdem hod))) hx
    | atom ha hno hx => exact .atom (keep _ (hsub _ ha) ((onDemand?_none_atom ok.declared hA).1.2 hno)) hx
    | assign he _ ih => exact .assign (keep _ (hsub _ he) rfl) (fun y hy => ih y hy inv)
    | @call n a pat d x hoc hod hy hx _ =>
      have hq : (a, (⟨pat, d⟩ : Adornment)) ∈ r'.body.filterMap (onDemand? A) := by
        rcases hoc with h | h
        · exact List.mem_filterMap.2 ⟨_, hsub _ h, (onDemand?_eq ok.declared hA).2 ⟨.inl rfl, hod⟩⟩
        · exact List.mem_filterMap.2 ⟨_, hsub _ h, (onDemand?_eq ok.declared hA).2 ⟨.inr rfl, hod⟩⟩
      refine .atom ((inv.lits _).2 (.inr ⟨_, hq, rfl, fun hmem => ?_⟩)) hx
      exact (inv.open_ _ hmem).2 n (by omega) (fun y hy' => hy y (mem_boundedVarsOf.1 hy'))

end

/-! ## Everything together -/

/-- The two programs and their models. -/
structure DemandRun [DecidableEq F] (G : Setting F) (E : Env F) (rels : List RelDecl) (A : List (String × Adornment)) (rules rules' : List (SRule F))
    (strata strata' : List (List String)) (facts facts' J J' : Interp (Tup (Val F))) : Prop where
  loc : G.Local
  collect : collectAdornments rels = some A
  transform : (A = [] ∧ rules' = rules) ∨ transformRules A rules = some rules'
  ok : DemandOk E rels rules strata
  strat : Stratified rules strata
  strat' : Stratified rules' strata'
  names : ∀ p, p ∈ strata'.flatten ↔ p ∈ strata.flatten ∨ ∃ q pat, OnDemand rels q pat p
  pass : ∀ r ∈ rules, CanPass rels r ∧ NegatedLast rels r
  model : StratModel facts (strata.map (srcLayer G E rules)) J
  model' : StratModel facts' (strata'.map (srcLayer G E rules')) J'
  same : ∀ p ∈ strata.flatten, ∀ t, facts' p t ↔ facts p t
  outside : ∀ p, p ∉ strata'.flatten → ∀ t, J' p t ↔ J p t

section
variable [DecidableEq F] {G : Setting F} {E : Env F} {rels : List RelDecl} {A : List (String × Adornment)} {rules rules' : List (SRule F)}
  {strata strata' : List (List String)} {facts facts' J J' : Interp (Tup (Val F))}

theorem DemandRun.noDemand (R : DemandRun G E rels A rules rules' strata strata' facts facts' J J') (hA : A = []) (p : String) (pat : List Bool) (d : String) :
    ¬ OnDemand rels p pat d := by
  intro h
  have := (collect_mem R.collect).2 p pat d h
  rw [hA] at this
  simp at this

theorem DemandRun.rule (R : DemandRun G E rels A rules rules' strata strata' facts facts' J J') {r : SRule F} (hr : r ∈ rules) :
    ∃ r' ∈ rules', Rewritten rels r r' ∧ ∃ ds, (if r'.body.any (fun l => (onDemand? A l).isSome) then demandRules A r'.body else some []) = some ds ∧
      ∀ d ∈ ds, d ∈ rules' := by
  rcases R.transform with ⟨hA, hrr⟩ | h
  · have hno := R.noDemand hA
    refine ⟨r, hrr ▸ hr, ⟨rfl, .inl ⟨fun p _ pat d => hno p pat d, rfl⟩⟩, [], ?_, by simp⟩
    rw [if_neg]
    intro h
    obtain ⟨l, _, hl⟩ := List.any_eq_true.1 h
    obtain ⟨q, hq⟩ := Option.isSome_iff_exists.1 hl
    exact hno _ _ _ ((onDemand?_eq R.ok.declared R.collect).1 hq).2
  simp only [transformRules, Option.map_eq_some_iff] at h
  obtain ⟨rs, h1, rfl⟩ := h
  obtain ⟨⟨r', ds⟩, h2, h3⟩ := (allSome_mem h1).1 r hr
  obtain ⟨h4, h5⟩ := transformRule_spec R.ok.declared R.collect h3
  refine ⟨r', ?_, h4, ds, h5, fun d hd => ?_⟩
  · simp only [List.mem_append, List.mem_filter, List.mem_map]
    by_cases ho : isOnDemand A r' = true
    · exact .inl (.inl ⟨⟨_, h2, rfl⟩, ho⟩)
    · exact .inr ⟨⟨_, h2, rfl⟩, by simpa using ho⟩
  · simp only [List.mem_append, List.mem_flatMap]
    exact .inl (.inr ⟨_, h2, hd⟩)

theorem DemandRun.rule' (R : DemandRun G E rels A rules rules' strata strata' facts facts' J J') {r' : SRule F} (hr : r' ∈ rules') :
    (∃ r ∈ rules, Rewritten rels r r') ∨ ∃ p pat d, OnDemand rels p pat d ∧ headPred r'.head = some d := by
  rcases R.transform with ⟨hA, hrr⟩ | h
  · have hno := R.noDemand hA
    exact .inl ⟨r', hrr ▸ hr, rfl, .inl ⟨fun p _ pat d => hno p pat d, rfl⟩⟩
  simp only [transformRules, Option.map_eq_some_iff] at h
  obtain ⟨rs, h1, rfl⟩ := h
  have one : ∀ x ∈ rs, ∃ r ∈ rules, Rewritten rels r x.1 := by
    intro x hx
    obtain ⟨r, h2, h3⟩ := (allSome_mem h1).2 x hx
    exact ⟨r, h2, (transformRule_spec R.ok.declared R.collect h3).1⟩
  simp only [List.mem_append, List.mem_filter, List.mem_map, List.mem_flatMap] at hr
  rcases hr with (⟨⟨x, hx, rfl⟩, _⟩ | ⟨x, hx, hd⟩) | ⟨⟨x, hx, rfl⟩, _⟩
  · exact .inl (one x hx)
  · right
    obtain ⟨r, h2, h3⟩ := (allSome_mem h1).2 x hx
    have h4 := (transformRule_spec R.ok.declared R.collect h3).2
    split at h4
    · obtain ⟨arcs, q, ⟨n, base, h5⟩, ⟨arc, h6, h7⟩, h8⟩ := demandRules_head h4 r' hd
      obtain ⟨l, _, hq⟩ := List.mem_filterMap.1 (sips_rhs n base _ arcs h5 arc h6 q h7)
      exact ⟨_, _, _, ((onDemand?_eq R.ok.declared R.collect).1 hq).2, h8⟩
    · simp only [Option.some.injEq] at h4
      rw [← h4] at hd
      simp at hd
  · exact .inl (one x hx)

/-- If the ordinary literals of a rule hold and its positive on-demand atoms do once they are demanded, all its on-demand atoms are demanded. -/
theorem DemandRun.demanded (R : DemandRun G E rels A rules rules' strata strata' facts facts' J J') {r : SRule F} (hr : r ∈ rules) :
    ∃ r' ∈ rules', Rewritten rels r r' ∧ ∀ σ, (∀ l ∈ r'.body, onDemand? A l = none → LitHolds (G.world J') σ l) →
      (∀ a pat d, .atom a ∈ r.body → OnDemand rels a.predicate pat d → J' d (flat (givenPart pat (a.args.map (Term.val σ)))) →
        J' a.predicate (flat (a.args.map (Term.val σ)))) →
      ∀ a pat d, Occurs r.body a → OnDemand rels a.predicate pat d → J' d (flat (givenPart pat (a.args.map (Term.val σ)))) := by
  obtain ⟨r', hr', hw, ds, hds, hdr⟩ := R.rule hr
  refine ⟨r', hr', hw, fun σ hord hpos => ?_⟩
  have hn := R.ok.declared
  have hsub : ∀ l ∈ r.body, l ∈ r'.body := by
    intro l hl
    rcases hw.2 with ⟨_, hb⟩ | ⟨_, _, _, _, _, hb⟩ <;> rw [hb] <;> simp [hl]
  have hT : ∀ q, q ∈ r'.body.filterMap (onDemand? A) ↔ Occurs r.body q.1 ∧ OnDemand rels q.1.predicate q.2.pattern q.2.demandPredicate := by
    intro q
    rw [List.mem_filterMap]
    constructor
    · rintro ⟨l, hl, hq⟩
      obtain ⟨h1, h2⟩ := (onDemand?_eq hn R.collect).1 hq
      refine ⟨?_, h2⟩
      rcases hw.2 with ⟨_, hb⟩ | ⟨b, pat, d, hhead, hod, hb⟩
      · rw [hb] at hl
        rcases h1 with rfl | rfl
        · exact .inl hl
        · exact .inr hl
      · rw [hb] at hl
        rcases List.mem_append.1 hl with hl | hl
        · rcases h1 with rfl | rfl
          · exact .inl hl
          · exact .inr hl
        · simp only [List.mem_singleton] at hl
          subst hl
          rcases h1 with h1 | h1
          · simp only [Lit.atom.injEq] at h1
            rw [← h1] at h2
            exact absurd (R.ok.defined _ _ _ h2).1 (R.ok.fresh _ _ _ hod).1
          · cases h1
    · rintro ⟨h1 | h1, h2⟩
      · exact ⟨_, hsub _ h1, (onDemand?_eq hn R.collect).2 ⟨.inl rfl, h2⟩⟩
      · exact ⟨_, hsub _ h1, (onDemand?_eq hn R.collect).2 ⟨.inr rfl, h2⟩⟩
  intro a pat d hoc hod
  have haT : (a, (⟨pat, d⟩ : Adornment)) ∈ r'.body.filterMap (onDemand? A) := (hT _).2 ⟨hoc, hod⟩
  have hany : r'.body.any (fun l => (onDemand? A l).isSome) = true := by
    obtain ⟨l, hl, hq⟩ := List.mem_filterMap.1 haT
    rw [List.any_eq_true]
    exact ⟨l, hl, by rw [hq]; rfl⟩
  rw [if_pos hany] at hds
  obtain ⟨hcan, hlast⟩ := R.pass r hr
  have hrd : ∀ (q : Atom String F × Adornment), OnDemand rels q.1.predicate q.2.pattern q.2.demandPredicate → ∀ n, Rd (Known rels r) n q ↔ Ready rels r n q.1 := by
    intro q hq n
    constructor
    · intro h pat' d' ho y hy
      obtain ⟨rfl, rfl⟩ := onDemand_unique hn hq ho
      exact h y (mem_boundedVarsOf.2 hy)
    · intro h y hy
      exact h _ _ hq y (mem_boundedVarsOf.1 hy)
  obtain ⟨arcs, a1, a2, a3, a4⟩ := sips_ok (Kn := Known rels r) (base0 := r'.body.filter (fun l => (onDemand? A l).isNone)) (T := r'.body.filterMap (onDemand? A))
    (Ng := fun q => .neg q.1 ∈ r.body) (fun n base todo inv x => known_iff R.ok R.collect hr hw n base todo inv x)
    (fun q hq => by
      obtain ⟨h1, h2⟩ := (hT q).1 hq
      obtain ⟨n, hn'⟩ := hcan _ _ _ h1 h2
      exact ⟨n, (hrd q h2 n).2 hn'⟩)
    (fun q hq hneg n hn' q' hq' => by
      obtain ⟨h1, h2⟩ := (hT q).1 hq
      obtain ⟨h3, h4⟩ := (hT q').1 hq'
      exact (hrd q' h4 n).2 (hlast _ _ _ hneg h2 n ((hrd q h2 n).1 hn') _ _ _ h3 h4))
    (fun q hq hb => by
      have := (List.mem_filter.1 hb).2
      rw [Option.isNone_iff_eq_none] at this
      exact (onDemand?_none_atom hn R.collect).1.1 this _ _ ((hT q).1 hq).2)
    (fun q hq q' hq' he => by
      have h1 := ((hT q).1 hq).2
      have h2 := ((hT q').1 hq').2
      rw [← he] at h2
      obtain ⟨e1, e2⟩ := onDemand_unique hn h1 h2
      obtain ⟨q1, q2, q3⟩ := q
      obtain ⟨q1', q2', q3'⟩ := q'
      simp_all)
    ((r'.body.filterMap (onDemand? A)).length + 1) 0 _ _ (Nat.lt_succ_self _)
    ⟨fun l => ⟨fun h => .inl h, fun h => h.elim id (fun ⟨q, hq, _, hnq⟩ => absurd hq hnq)⟩, fun q hq => ⟨hq, fun m hm => by omega⟩, fun q hq hnq => absurd hq hnq⟩
  -- the demand rule of each arc
  have hrules : ∀ arc ∈ arcs, ∀ q ∈ arc.rhs, ∃ body, ({ head := .atom ⟨q.2.demandPredicate, boundedArgs q.2.pattern q.1.args⟩, body := body } : SRule F) ∈ rules' ∧
      ∀ l ∈ body, l ∈ arc.lhs := by
    intro arc harc q hq
    simp only [demandRules, a1, Option.bind_some, Option.map_eq_some_iff] at hds
    obtain ⟨rss, h1, rfl⟩ := hds
    obtain ⟨rs, hrs, h2⟩ := (allSome_mem h1).1 arc harc
    obtain ⟨o, ho, h3⟩ := (allSome_mem h2).1 q hq
    obtain ⟨body, h4, h5⟩ := demandRule_some q.2 (a3 arc harc q hq).2
    rw [h4, Option.some.injEq] at h3
    subst h3
    refine ⟨body, hdr _ ?_, h5⟩
    simp only [List.mem_filterMap, List.mem_flatten, id]
    exact ⟨_, ⟨rs, hrs, ho⟩, rfl⟩
  have hdem : ∀ arc ∈ arcs, (∀ l ∈ arc.lhs, LitHolds (G.world J') σ l) → ∀ q ∈ arc.rhs,
      J' q.2.demandPredicate (flat (givenPart q.2.pattern (q.1.args.map (Term.val σ)))) := by
    intro arc harc hl q hq
    obtain ⟨body, hb1, hb2⟩ := hrules arc harc q hq
    have hod := ((hT q).1 (a3 arc harc q hq).1).2
    refine model_closed R.loc R.strat' R.model' hb1 rfl ((R.names _).2 (.inr ⟨_, _, hod⟩)) (fun l h => hl l (hb2 l h)) ?_
    refine ⟨.normal, (R.ok.defined _ _ _ hod).2.2, ?_⟩
    rw [givenPart_map, ← boundedArgs_given]
    rfl
  have hall := a4 (fun l => LitHolds (G.world J') σ l) (fun l hl => by
    obtain ⟨h1, h2⟩ := List.mem_filter.1 hl
    exact hord l h1 (by simpa [Option.isNone_iff_eq_none] using h2)) (fun arc harc hl q hq hng => by
    obtain ⟨h1, h2⟩ := (hT q).1 (a3 arc harc q hq).1
    rcases h1 with h1 | h1
    · exact hpos _ _ _ h1 h2 (hdem arc harc hl q hq)
    · exact absurd h1 hng)
  obtain ⟨arc, harc, hq⟩ := a2 _ haT
  exact hdem arc harc (hall arc harc) _ hq

/-- What is demanded of a relation that is not on demand is everything. -/
def Wanted (rels : List RelDecl) (J' : Interp (Tup (Val F))) (p : String) (t : Tup (Val F)) : Prop :=
  ∀ pat d, OnDemand rels p pat d → ∀ vs, t = flat vs → J' d (flat (givenPart pat vs))

omit [DecidableEq F] in
theorem flat_inj {vs ws : List (Val F)} (h : flat vs = flat ws) : vs = ws := by
  unfold flat at h
  injection h with h
  exact List.map_injective_iff.2 (fun a b h => by injection h) h

omit [DecidableEq F] in
theorem wanted_atom {p : String} {vs : List (Val F)} (h : ∀ pat d, OnDemand rels p pat d → J' d (flat (givenPart pat vs))) : Wanted rels J' p (flat vs) := by
  intro pat d ho ws hw
  rw [← flat_inj hw]
  exact h pat d ho

theorem DemandRun.main (R : DemandRun G E rels A rules rules' strata strata' facts facts' J J') : ∀ k, ∀ p ∈ (strata.take k).flatten,
    (∀ t, J' p t → J p t) ∧ ∀ t, J p t → Wanted rels J' p t → J' p t := by
  intro k
  induction k with
  | zero => intro p hp; simp at hp
  | succ k ih =>
    -- predicates of earlier strata, or of none, that are not on demand
    have agree : ∀ p, (p ∈ (strata.take k).flatten ∨ p ∉ strata.flatten) → (∀ q pat, ¬ OnDemand rels q pat p) → (∀ pat d, ¬ OnDemand rels p pat d) →
        ∀ t, J' p t ↔ J p t := by
      intro p hp hnd hno t
      rcases hp with hp | hp
      · exact ⟨(ih p hp).1 t, fun h => (ih p hp).2 t h (fun pat d ho => absurd ho (hno pat d))⟩
      · refine R.outside p (fun h => ?_) t
        rcases (R.names p).1 h with h | ⟨q, pat, h⟩
        · exact hp h
        · exact hnd q pat h
    have old : ∀ {r}, r ∈ rules → ∀ a, Occurs r.body a → ∀ q pat, ¬ OnDemand rels q pat a.predicate := fun hr a ha q pat h => ((R.ok.fresh _ _ _ h).2 _ hr).2.1 a ha rfl
    have upto : ∀ {j p}, p ∈ (strata.take j).flatten → ∀ m, j ≤ m → p ∈ (strata.take m).flatten := by
      intro j p hp m hm
      obtain ⟨i, D, hi, h1, h2⟩ := mem_take.1 hp
      exact mem_take.2 ⟨i, D, by omega, h1, h2⟩
    have instrata : ∀ {j p}, p ∈ (strata.take j).flatten → p ∈ strata.flatten := by
      intro j p hp
      obtain ⟨i, D, hi, h1, h2⟩ := mem_take.1 hp
      exact mem_strata.2 ⟨i, D, h1, h2⟩
    -- nothing wrong is derived
    have sound : ∀ p ∈ (strata.take (k + 1)).flatten, ∀ t, J' p t → J p t := by
      have := model_induction (Q := fun p t => p ∈ (strata.take (k + 1)).flatten → J p t) R.loc R.strat' R.model' ?_ ?_
      · intro p hp t ht
        exact this p ((R.names p).2 (.inl (instrata hp))) t ht hp
      · intro p _ t ht hp
        exact model_facts R.model (instrata hp) ((R.same p (instrata hp) t).1 ht)
      · intro r' hr' p _ hhead σ hb hQ t hder hp
        rcases R.rule' hr' with ⟨r, hr, hw⟩ | ⟨p0, pat, d, hod, hd⟩
        swap
        · rw [hhead] at hd
          cases hd
          exact absurd (instrata hp) (R.ok.fresh _ _ _ hod).1
        rw [hw.1] at hhead hder
        obtain ⟨j, D, hj, hD, hpD⟩ := mem_take.1 hp
        have hsub : ∀ l ∈ r.body, l ∈ r'.body := by
          intro l hl
          rcases hw.2 with ⟨_, hb⟩ | ⟨_, _, _, _, _, hb⟩ <;> rw [hb] <;> simp [hl]
        -- everything looked up is demanded
        obtain ⟨r'', hr'', hw'', hdem⟩ := R.demanded hr
        have hbody : r''.body = r'.body := by
          rcases hw.2 with ⟨h1, h2⟩ | ⟨a, pat, d, h1, h2, h3⟩
          · rcases hw''.2 with ⟨_, g2⟩ | ⟨a', pat', d', g1, g2, g3⟩
            · rw [h2, g2]
            · exact absurd g2 (h1 a'.predicate (by rw [g1]; rfl) _ _)
          · rcases hw''.2 with ⟨g1, g2⟩ | ⟨a', pat', d', g1, g2, g3⟩
            · exact absurd h2 (g1 a.predicate (by rw [h1]; rfl) _ _)
            · rw [h1] at g1
              cases g1
              obtain ⟨rfl, rfl⟩ := onDemand_unique R.ok.declared h2 g2
              rw [h3, g3]
        have hd := hdem σ (fun l hl _ => hb l (hbody ▸ hl)) (fun a _ _ ha _ _ => hb _ (hsub _ ha))
        refine model_closed R.loc R.strat R.model hr hhead (instrata hp) (fun l hl => ?_) hder
        have hl' := hb l (hsub l hl)
        cases l with
        | atom a =>
          rcases R.strat.pos j D hD r hr p hpD hhead a (List.mem_filterMap.2 ⟨_, hl, rfl⟩) with h | h
          · exact hQ a (hsub _ hl) ((R.names _).2 (.inl (instrata h))) (upto h _ (by omega))
          · refine (R.outside a.predicate (fun h' => ?_) _).1 hl'
            rcases (R.names _).1 h' with h' | ⟨q, pat, h'⟩
            · exact h h'
            · exact old hr a (.inl hl) q pat h'
        | neg a =>
          intro hJ
          refine hl' ?_
          have hin := R.strat.neg j D hD r hr p hpD hhead a (List.mem_filterMap.2 ⟨_, hl, rfl⟩)
          rcases hin with h | h
          · exact (ih _ (upto h _ (by omega))).2 _ hJ (wanted_atom (fun pat d ho => hd a pat d (.inr hl) ho))
          · refine (R.outside a.predicate (fun h' => ?_) _).2 hJ
            rcases (R.names _).1 h' with h' | ⟨q, pat, h'⟩
            · exact h h'
            · exact old hr a (.inr hl) q pat h'
        | reduce q g =>
          have hq : q ∈ reducesOf r.body := List.mem_filterMap.2 ⟨_, hl, rfl⟩
          obtain ⟨h1, h2⟩ := R.strat.red j D hD r hr p hpD hhead q hq
          refine lits_mono (body := [.reduce q g]) R.loc ?_ ?_ ?_ (K := J') (fun l hl'' => ?_) (.reduce q g) (by simp)
          · simp [posOf]
          · simp [negOf]
          · intro q' hq'
            simp only [reducesOf, List.filterMap_cons, List.filterMap_nil, List.mem_singleton] at hq'
            subst hq'
            refine ⟨agree _ (h1.imp (fun h => upto h _ (by omega)) id) (fun p0 pat ho => (((R.ok.fresh _ _ _ ho).2 r hr).2.2 q' hq).1 rfl)
              (fun pat d => (R.ok.aggregated r hr q' hq pat d).1), fun w hw' => ?_⟩
            exact agree _ ((h2 w hw').imp (fun h => upto h _ (by omega)) id) (fun p0 pat ho => (((R.ok.fresh _ _ _ ho).2 r hr).2.2 q' hq).2 hw')
              (fun pat d => (R.ok.aggregated r hr q' hq pat d).2 w hw')
          · simp only [List.mem_singleton] at hl''
            subst hl''
            exact hl'
        | assign x e => exact hl'
        | cbin op a b => exact hl'
        | cnot a => exact hl'
        | tt => exact hl'
        | ff => exact hl'
    -- everything demanded is derived
    have complete : ∀ p ∈ (strata.take (k + 1)).flatten, ∀ t, J p t → Wanted rels J' p t → J' p t := by
      have := model_induction (Q := fun p t => p ∈ (strata.take (k + 1)).flatten → Wanted rels J' p t → J' p t) R.loc R.strat R.model ?_ ?_
      · intro p hp t ht
        exact this p (instrata hp) t ht hp
      · intro p hps t ht _ _
        exact model_facts R.model' ((R.names p).2 (.inl hps)) ((R.same p hps t).2 ht)
      · intro r hr p _ hhead σ hb hQ t hder hp hwant
        obtain ⟨j, D, hj, hD, hpD⟩ := mem_take.1 hp
        obtain ⟨r', hr', hw, hdem⟩ := R.demanded hr
        -- positive atoms once they are demanded
        have hposA : ∀ a, .atom a ∈ r.body → Wanted rels J' a.predicate (flat (a.args.map (Term.val σ))) → J' a.predicate (flat (a.args.map (Term.val σ))) := by
          intro a ha hwa
          rcases R.strat.pos j D hD r hr p hpD hhead a (List.mem_filterMap.2 ⟨_, ha, rfl⟩) with h | h
          · exact hQ a ha (instrata h) (upto h _ (by omega)) hwa
          · refine (R.outside a.predicate (fun h' => ?_) _).2 (hb _ ha)
            rcases (R.names _).1 h' with h' | ⟨q, pat, h'⟩
            · exact h h'
            · exact old hr a (.inl ha) q pat h'
        have hrest : ∀ l ∈ r.body, (∀ a, l ≠ .atom a) → LitHolds (G.world J') σ l := by
          intro l hl hna
          have hl' := hb l hl
          cases l with
          | atom a => exact absurd rfl (hna a)
          | neg a =>
            intro hJ'
            refine hl' ?_
            rcases R.strat.neg j D hD r hr p hpD hhead a (List.mem_filterMap.2 ⟨_, hl, rfl⟩) with h | h
            · exact (ih _ (upto h _ (by omega))).1 _ hJ'
            · refine (R.outside a.predicate (fun h' => ?_) _).1 hJ'
              rcases (R.names _).1 h' with h' | ⟨q, pat, h'⟩
              · exact h h'
              · exact old hr a (.inr hl) q pat h'
          | reduce q g =>
            have hq : q ∈ reducesOf r.body := List.mem_filterMap.2 ⟨_, hl, rfl⟩
            obtain ⟨h1, h2⟩ := R.strat.red j D hD r hr p hpD hhead q hq
            refine lits_mono (body := [.reduce q g]) R.loc ?_ ?_ ?_ (K := J) (fun l hl'' => ?_) (.reduce q g) (by simp)
            · simp [posOf]
            · simp [negOf]
            · intro q' hq'
              simp only [reducesOf, List.filterMap_cons, List.filterMap_nil, List.mem_singleton] at hq'
              subst hq'
              refine ⟨fun t => (agree _ (h1.imp (fun h => upto h _ (by omega)) id) (fun p0 pat ho => (((R.ok.fresh _ _ _ ho).2 r hr).2.2 q' hq).1 rfl)
                (fun pat d => (R.ok.aggregated r hr q' hq pat d).1) t).symm, fun w hw' t => ?_⟩
              exact (agree _ ((h2 w hw').imp (fun h => upto h _ (by omega)) id) (fun p0 pat ho => (((R.ok.fresh _ _ _ ho).2 r hr).2.2 q' hq).2 hw')
                (fun pat d => (R.ok.aggregated r hr q' hq pat d).2 w hw') t).symm
            · simp only [List.mem_singleton] at hl''
              subst hl''
              exact hl'
          | assign x e => exact hl'
          | cbin op a b => exact hl'
          | cnot a => exact hl'
          | tt => exact hl'
          | ff => exact hl'
        -- the atom added to the rule
        have hadded : ∀ l ∈ r'.body, l ∉ r.body → LitHolds (G.world J') σ l := by
          intro l hl hnl
          rcases hw.2 with ⟨_, hbd⟩ | ⟨a, pat, d, hh, hod, hbd⟩
          · rw [hbd] at hl; exact absurd hl hnl
          · rw [hbd] at hl
            rcases List.mem_append.1 hl with hl | hl
            · exact absurd hl hnl
            · simp only [List.mem_singleton] at hl
              subst hl
              rw [hh] at hhead hder
              simp only [headPred, Option.some.injEq] at hhead
              subst hhead
              obtain ⟨sh, hsh, rfl⟩ := hder
              rw [(R.ok.defined _ _ _ hod).2.1, Option.some.injEq] at hsh
              subst hsh
              have := hwant pat d hod (a.args.map (Term.val σ)) rfl
              rw [givenPart_map] at this
              exact this
        have hd := hdem σ (fun l hl hno => by
          by_cases hlr : l ∈ r.body
          · by_cases hat : ∃ a, l = .atom a
            · obtain ⟨a, rfl⟩ := hat
              refine hposA a hlr (wanted_atom (fun pat d ho => ?_))
              exact absurd ho ((onDemand?_none_atom R.ok.declared R.collect).1.1 hno pat d)
            · exact hrest l hlr (fun a ha => hat ⟨a, ha⟩)
          · exact hadded l hl hlr) (fun a pat d ha hod hJd => hposA a ha (wanted_atom (fun pat' d' ho => by
            obtain ⟨rfl, rfl⟩ := onDemand_unique R.ok.declared hod ho
            exact hJd)))
        refine model_closed R.loc R.strat' R.model' hr' (by rw [hw.1]; exact hhead) ((R.names p).2 (.inl (instrata hp))) (fun l hl => ?_) (by rw [hw.1]; exact hder)
        by_cases hlr : l ∈ r.body
        · by_cases hat : ∃ a, l = .atom a
          · obtain ⟨a, rfl⟩ := hat
            exact hposA a hlr (wanted_atom (fun pat d ho => hd a pat d (.inl hlr) ho))
          · exact hrest l hlr (fun a ha => hat ⟨a, ha⟩)
        · exact hadded l hl hlr
    exact fun p hp => ⟨sound p hp, complete p hp⟩

end

end Scallop.Plan
